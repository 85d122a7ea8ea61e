import Verif.Model.Gzip
import Verif.Model.Serialise

/-!
# rezippers/src/cat.rs and rezippers/src/zero.rs
-/

namespace Rezip

namespace Cat

/-- cat.rs:16-18: decompress each block as it is parsed, stopping at the first error. -/
def loop : Nat → Parse.BlockIter → DecState → Except Fail Unit × DecState × Parse.BlockIter
  | 0, it, s => (.error .diverge, s, it)
  | fuel + 1, it, s =>
    match it.next with
    | (none, it) => (.ok (), s, it)
    | (some (.error e), it) => (.error e, s, it)
    | (some (.ok b), it) =>
      match Serialise.decompressedBlock b s with
      | .ok _ s => loop fuel it s
      | .error e s => (.error e, s, it)

/-- cat.rs:8-21: the outcome and the standard output. -/
def run (input : List UInt8) (stdout : Sink) : Except Fail Unit × Sink :=
  match Gzip.discardHeader input with
  | .error e _ => (.error e, stdout)
  | .ok _ rest =>
    match CircularBuffer.new with
    | .error e => (.error e, stdout)
    | .ok dict =>
      let (r, s, _) := loop (8 * rest.length + 2) (Parse.parseDeflate rest)
        { dict := dict, into := stdout }
      (r, s.into)

end Cat

namespace Zero

/-- zero.rs:16-18. -/
def rsyncMin : Nat := 1024 * 8
/-- zero.rs:17. -/
def rsyncMod : Nat := 1024 * 4
/-- zero.rs:18. -/
def rsyncMax : Nat := 1024 * 64

/-- The iterator of inflated bytes (`reader.bytes().peekable()`): a list of items, each a byte or
an I/O error. flate2's decoder itself is not modelled. (zero.rs:58.) -/
abbrev Source := List (Except Fail UInt8)

/-- `usize::wrapping_add`/`wrapping_sub` (64 bit). (zero.rs:28, 43 and 44.) -/
def wadd (a b : Nat) : Nat := (a + b) % 2 ^ 64
/-- `usize::wrapping_sub` (zero.rs:44). -/
def wsub (a b : Nat) : Nat := (a + 2 ^ 64 - b) % 2 ^ 64

/-- zero.rs:24-33: the first loop, `n` iterations left. Returns `true` if the source ended
(`return Ok(buf)`). -/
def fill : Nat → List UInt8 → Nat → EStateM Fail Source (Bool × List UInt8 × Nat)
  | 0, buf, sum => fun src => .ok (false, buf, sum) src
  | n + 1, buf, sum => fun src =>
    match src with
    | [] => .ok (true, buf, sum) []
    | .error e :: rest => .error e rest
    | .ok byte :: rest => fill n (buf ++ [byte]) (wadd sum byte.toNat) rest

/-- zero.rs:35-49: the second loop, at loop variable `pos`, `n` iterations left. -/
def roll (mod : Nat) : Nat → Nat → List UInt8 → Nat → EStateM Fail Source (List UInt8)
  | _, 0, buf, _ => fun src => .ok buf src
  | pos, n + 1, buf, sum => fun src =>
    if 0 = sum % mod then .ok buf src
    else
      match src with
      | [] => .ok buf []
      | .error e :: rest => .error e rest
      | .ok byte :: rest =>
        match index buf pos with
        | .error e => .error e rest
        | .ok old =>
          roll mod (pos + 1) n (buf ++ [byte]) (wsub (wadd sum byte.toNat) old.toNat) rest

/-- zero.rs:21-52 `take_rsync`, with the three constants as parameters. -/
def takeRsyncWith (min_ mod max_ : Nat) : EStateM Fail Source (List UInt8) := do
  let (ended, buf, sum) ← fill min_ [] 0
  if ended then pure buf
  else roll mod 0 (max_ - min_) buf sum

/-- zero.rs:21-52. -/
def takeRsync : EStateM Fail Source (List UInt8) := takeRsyncWith rsyncMin rsyncMod rsyncMax

/-- `write_u16::<LE>`. (zero.rs:90 and 91.) -/
def u16le (v : Nat) : List UInt8 := [(v % 256).toUInt8, (v / 256 % 256).toUInt8]

/-- `write_u32::<LE>`. (zero.rs:95 and 96.) -/
def u32le (v : Nat) : List UInt8 :=
  [(v % 256).toUInt8, (v / 256 % 256).toUInt8, (v / 65536 % 256).toUInt8,
   (v / 16777216 % 256).toUInt8]

/-- zero.rs:81-92: writing one chunk: the block header byte, `buf.len() as u16` and its complement, the
chunk. `last` is `reader.peek().is_none()`. -/
def writeChunk (last : Bool) (buf : List UInt8) : EStateM Fail Sink Unit := do
  writeAll [if last then 1 else 0]
  let len := buf.length % 65536
  writeAll (u16le len)
  writeAll (u16le (len ^^^ 0xffff))
  writeAll buf

/-- zero.rs:72-93: the loop; returns the total length modulo 2^32 and all the data passed to the
checksum (`all` so far). Fuel: every non-empty chunk consumes an item. -/
def loop (take : EStateM Fail Source (List UInt8)) : Nat → Source → Nat → List UInt8 →
    EStateM Fail Sink (Nat × List UInt8)
  | 0, _, _, _ => liftE (.error .diverge)
  | fuel + 1, src, dataLen, all =>
    match take src with
    | .error e _ => liftE (.error e)
    | .ok buf src =>
      if buf.isEmpty then pure (dataLen, all)
      else do
        writeChunk src.isEmpty buf
        loop take fuel src ((dataLen + buf.length % 2 ^ 32) % 2 ^ 32) (all ++ buf)

/-- zero.rs:57-97, given the header bytes and the inflated byte iterator, and writing to standard output.
The CRC function is a parameter: `crc` of the concatenated data. -/
def runTo (crc : List UInt8 → Nat) (header : List UInt8) (src : Source) : EStateM Fail Sink Unit := do
  liftE (assert (!src.isEmpty))
  writeAll header
  let (total, all) ← loop takeRsync (src.length + 1) src 0 []
  writeAll (u32le (crc all))
  writeAll (u32le total)

/-- zero.rs:54-98 `run`. flate2's decoder is a parameter: what it gives for the input after the header. -/
def tool (crc : List UInt8 → Nat) (inflate : List UInt8 → Source) (input : List UInt8) :
    EStateM Fail Sink Unit :=
  match Gzip.discardHeader input with
  | .error e _ => liftE (.error e)
  | .ok header rest => runTo crc header (inflate rest)

/-- `runTo` with an output that does not fail: what was written. (zero.rs:54-98.) -/
def run (crc : List UInt8 → Nat) (header : List UInt8) (src : Source) :
    Except Fail (List UInt8) :=
  match runTo crc header src Sink.vec with
  | .ok _ s => .ok s.out
  | .error e _ => .error e

end Zero

end Rezip
