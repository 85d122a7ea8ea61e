import Verif.Model.Tools
import Verif.Model.Dump
import Verif.Model.SerialiseTrace
import Verif.Model.Filter

/-!
# The readers of bit.rs, parse.rs, gzip.rs, serialise_trace.rs, cat.rs and dump.rs, on any `R: Read`

In the other modules the reader is a byte string in memory. Here the same functions are given for a reader of
any type, of which only `read_exact` is used, and for one that delivers its bytes in pieces and may fail.
-/

namespace Rezip

/-- An `R: Read`, as far as it is used. `size` is not part of the code: it is the number of bytes that will
be delivered, and only bounds the number of iterations of the loops. (bit.rs:25, gzip.rs:6,
serialise_trace.rs:65.) -/
structure Reader (ρ : Type) where
  readExact : Nat → EStateM Fail ρ (List UInt8)
  size : ρ → Nat

/-- The result of one call of `Read::read`. (Used by bit.rs:43 through `read_exact`, and filter.rs:20.) -/
inductive Got
  | bytes (bs : List UInt8)
  | interrupted
  | failed (e : Err)

/-- `Read::read_exact` (std::io::default_read_exact) for `n` bytes, with `buf` read so far:
`while !buf.is_empty() { match read(buf) { Ok(0) => break, Ok(n) => .., Err(e) if e.is_interrupted() => {},
Err(e) => return Err(e) } }`, and then an error if bytes are missing. (bit.rs:43, 87 and 98, gzip.rs:10-61,
serialise_trace.rs:69 and 79.) -/
def readExactLoop {ρ : Type} (read : Nat → ρ → Got × ρ) : Nat → Nat → List UInt8 → EStateM Fail ρ (List UInt8)
  | 0, _, _ => fun s => .error .diverge s
  | fuel + 1, n, buf => fun s =>
    if n = 0 then .ok buf s
    else
      match read n s with
      | (.bytes [], s) => .error (.err .eof) s
      | (.bytes (b :: bs), s) => readExactLoop read fuel (n - (b :: bs).length) (buf ++ b :: bs) s
      | (.interrupted, s) => readExactLoop read fuel n buf s
      | (.failed e, s) => .error (.err e) s

/-- What one call of `Read::read` meets: some bytes, `ErrorKind::Interrupted`, or another error. (Any reader
passed to parse.rs:15 or gzip.rs:6.) -/
inductive Event
  | data (b : UInt8) (bs : List UInt8)
  | interrupted
  | failure (e : Err)
deriving DecidableEq, Repr

/-- A file, pipe or socket: what the calls of `read` will meet. At the end `read` returns `Ok(0)`.
(main.rs:44-49 `open_file`.) -/
abbrev Script := List Event

namespace Script

/-- `Read::read` with a buffer of `n` bytes: of a piece that is longer than the buffer, the rest stays.
(Called by bit.rs:43 through `read_exact`, and by filter.rs:20.) -/
def read (n : Nat) : Script → Got × Script
  | [] => (.bytes [], [])
  | .interrupted :: s => (.interrupted, s)
  | .failure e :: s => (.failed e, s)
  | .data b bs :: s =>
    match (b :: bs).drop n with
    | [] => (.bytes (b :: bs), s)
    | c :: cs => (.bytes ((b :: bs).take n), .data c cs :: s)

/-- The bytes that are delivered before the first failure. (What parse.rs:15 and gzip.rs:6 see of the
reader.) -/
def bytes : Script → List UInt8
  | [] => []
  | .data b bs :: s => b :: bs ++ bytes s
  | .interrupted :: s => bytes s
  | .failure _ :: _ => []

/-- What the reader says after these bytes: that the input has ended, or the first failure. (The error that
`?` in bit.rs:43 returns.) -/
def final : Script → Fail
  | [] => .err .eof
  | .data _ _ :: s => final s
  | .interrupted :: s => final s
  | .failure e :: _ => .err e

/-- `read_exact` of this reader. Every call of `read` uses up an event, or fills the buffer. (bit.rs:43,
filter.rs:18-24.) -/
def reader : Reader Script where
  readExact n := fun s => readExactLoop read (s.length + 2) n [] s
  size s := s.bytes.length

end Script

namespace Filter

variable {ρ H : Type}

/-- filter.rs:18-24 `FilterRead::read`, on a reader given by the bytes it reads: `&buf[0..len]` are these. -/
def readOn (h : Hasher H) (read : Nat → ρ → Got × ρ) (n : Nat) (f : State ρ H) : Got × State ρ H :=
  match read n f.inner with
  | (.bytes bs, inner) => (.bytes bs, { inner := inner, hash := h.update f.hash bs })
  | (other, inner) => (other, { f with inner := inner })

/-- `FilterRead<Script>`: `read_exact` is the provided one. (bit.rs:43, filter.rs:18-24.) -/
def reader (h : Hasher H) : Rezip.Reader (State Script H) where
  readExact n := fun f => readExactLoop (readOn h Script.read) (f.inner.length + 2) n [] f
  size f := f.inner.bytes.length

end Filter

/-! ## bit.rs -/

/-- bit.rs:13-18 `BitReader<R>`. -/
structure BitReaderOn (ρ : Type) where
  inner : ρ
  current : UInt8
  remainingBits : Nat

namespace BitReaderOn

variable {ρ : Type}

/-- bit.rs:26-33. -/
def new (inner : ρ) : BitReaderOn ρ := { inner := inner, current := 0, remainingBits := 0 }

/-- bit.rs:35-38. -/
def position (r : BitReaderOn ρ) : Except Fail Nat := do
  assert (r.remainingBits ≤ 7)
  pure ((8 - r.remainingBits) % 8)

/-- bit.rs:49-57: the part of `read_bit` after a byte was read. -/
def takeBit : EStateM Fail (BitReaderOn ρ) Bool := fun r =>
  let r := { r with remainingBits := r.remainingBits - 1 }
  let bit := (r.current >>> (7 - r.remainingBits).toUInt8) &&& 1
  .ok (1 == bit) r

/-- bit.rs:40-58. -/
def readBit (R : Reader ρ) : EStateM Fail (BitReaderOn ρ) Bool := fun r =>
  if r.remainingBits == 0 then
    match R.readExact 1 r.inner with
    | .error e inner => .error e { r with inner := inner }
    | .ok buf inner =>
      match buf with
      | [b] => takeBit { inner := inner, current := b, remainingBits := 8 }
      | _ => .error (.panic .index) { r with inner := inner }
  else takeBit r

/-- bit.rs:354-358 `impl BitSource for BitReader`. -/
def run {α : Type} (R : Reader ρ) : BitProg α → EStateM Fail (BitReaderOn ρ) α
  | .done a => fun r => .ok a r
  | .fail e => fun r => .error e r
  | .bit k => fun r =>
    match readBit R r with
    | .error e r => .error e r
    | .ok b r => run R (k b) r

/-- bit.rs:60-67. -/
def alignLoop (R : Reader ρ) : Nat → EStateM Fail (BitReaderOn ρ) Unit
  | 0 => fun r => .error .diverge r
  | fuel + 1 => do
    let r ← get
    let p ← liftE r.position
    if p != 0 then
      let b ← readBit R
      liftE (ensure (!b) .padding)
      alignLoop R fuel
    else
      pure ()

/-- bit.rs:60-67 `BitReader::align`. -/
def align (R : Reader ρ) : EStateM Fail (BitReaderOn ρ) Unit := alignLoop R 9

/-- bit.rs:69-71. -/
def readPart (R : Reader ρ) (bits : Nat) : EStateM Fail (BitReaderOn ρ) Nat := run R (BitProg.readPart bits)

/-- `self.inner.read_exact(&mut buf)`. (bit.rs:43, 87 and 98.) -/
def readExactInner (R : Reader ρ) (n : Nat) : EStateM Fail (BitReaderOn ρ) (List UInt8) := fun r =>
  match R.readExact n r.inner with
  | .ok buf inner => .ok buf { r with inner := inner }
  | .error e inner => .error e { r with inner := inner }

/-- bit.rs:93-101. -/
def readAlignedU16 (R : Reader ρ) : EStateM Fail (BitReaderOn ρ) Nat := do
  let r ← get
  let p ← liftE r.position
  liftE (assert (p == 0))
  let buf ← readExactInner R 2
  let b1 ← liftE (index buf 1)
  let b0 ← liftE (index buf 0)
  pure ((b1.toNat <<< 8) ||| b0.toNat)

/-- bit.rs:73-91. -/
def readLengthPrefixed (R : Reader ρ) : EStateM Fail (BitReaderOn ρ) (List UInt8) := do
  let r ← get
  let p ← liftE r.position
  liftE (assert (p == 0))
  let len ← readAlignedU16 R
  let onesComplement ← readAlignedU16 R
  liftE (ensure ((len ^^^ 0xFFFF) == onesComplement) .storedLength)
  readExactInner R len

end BitReaderOn

/-! ## parse.rs -/

namespace Parse

variable {ρ : Type}

/-- parse.rs:74-113 `scan_huffman_data`. -/
def scanHuffmanDataOn (R : Reader ρ) (length : CodeTree) (distance : Option CodeTree) :
    EStateM Fail (BitReaderOn ρ) (List Code) := fun r =>
  BitReaderOn.run R (scanLoop length distance (8 * R.size r.inner + r.remainingBits + 1) []) r

/-- parse.rs:47-72 `read_block`. -/
def readBlockOn (R : Reader ρ) : EStateM Fail (BitReaderOn ρ) Block := do
  let kind ← BitReaderOn.readPart R 2
  match kind with
  | 0 =>
    BitReaderOn.align R
    let data ← BitReaderOn.readLengthPrefixed R
    pure (.uncompressed data)
  | 1 =>
    let length ← liftE Huffman.fixedLengthTree
    let distance ← liftE Huffman.fixedDistanceTree
    let codes ← scanHuffmanDataOn R length (some distance)
    pure (.fixedHuffman codes)
  | 2 =>
    let ((length, distance), trees) ← BitReaderOn.run R (Huffman.readCodes.collect BitVector.new)
    let codes ← scanHuffmanDataOn R length distance
    pure (.dynamicHuffman trees codes)
  | 3 => liftE (.error (.err .reservedBlock))
  | _ => liftE (.error (.panic .explicit))

/-- parse.rs:22-25 `BlockIter<R>`. -/
structure BlockIterOn (ρ : Type) where
  inner : BitReaderOn ρ
  ended : Bool

/-- parse.rs:15-20 `parse_deflate`. -/
def parseDeflateOn (from_ : ρ) : BlockIterOn ρ := { inner := BitReaderOn.new from_, ended := false }

/-- parse.rs:27-45 `BlockIter::next`. -/
def BlockIterOn.next (R : Reader ρ) (it : BlockIterOn ρ) : Option (Except Fail Block) × BlockIterOn ρ :=
  if it.ended then
    match BitReaderOn.align R it.inner with
    | .ok _ r => (none, { it with inner := r })
    | .error e r => (some (.error e), { it with inner := r })
  else
    match BitReaderOn.readBit R it.inner with
    | .error e r => (some (.error e), { it with inner := r })
    | .ok ended r =>
      match readBlockOn R r with
      | .ok b r => (some (.ok b), { inner := r, ended := ended })
      | .error e r => (some (.error e), { inner := r, ended := ended })

/-- `for block in parse_deflate(&mut reader)` until the first error: the outcome, the blocks and the iterator.
(dump.rs:11-12, cat.rs:16-17.) -/
def collectLoopOn (R : Reader ρ) : Nat → BlockIterOn ρ → List Block → Except Fail Unit × List Block × BlockIterOn ρ
  | 0, it, acc => (.error .diverge, acc, it)
  | fuel + 1, it, acc =>
    match it.next R with
    | (none, it) => (.ok (), acc, it)
    | (some (.error e), it) => (.error e, acc, it)
    | (some (.ok b), it) => collectLoopOn R fuel it (acc ++ [b])

/-- The same from the start. (dump.rs:11-12, cat.rs:16-17.) -/
def collectOn (R : Reader ρ) (r : ρ) : Except Fail Unit × List Block × BlockIterOn ρ :=
  collectLoopOn R (8 * R.size r + 2) (parseDeflateOn r) []

end Parse

/-! ## gzip.rs -/

namespace Gzip

variable {ρ : Type}

/-- gzip.rs:58-67. Every iteration reads a byte. -/
def readNullTerminatedOn (R : Reader ρ) : Nat → List UInt8 → EStateM Fail ρ (List UInt8)
  | 0, _ => liftE (.error .diverge)
  | fuel + 1, into => do
    let buf ← R.readExact 1
    let b ← liftE (index buf 0)
    if 0 == b then pure (into ++ [b])
    else readNullTerminatedOn R fuel (into ++ [b])

/-- gzip.rs:58-67. -/
def nullTerminatedOn (R : Reader ρ) : EStateM Fail ρ (List UInt8) :=
  fun r => readNullTerminatedOn R (R.size r + 1) [] r

/-- gzip.rs:23-32: the extra field, with its length. -/
def readExtraOn (R : Reader ρ) : EStateM Fail ρ (List UInt8) := do
  let buf ← R.readExact 2
  let b1 ← liftE (index buf 1)
  let b0 ← liftE (index buf 0)
  let extraField ← R.readExact ((b1.toNat <<< 8) ||| b0.toNat)
  pure (buf ++ extraField)

/-- gzip.rs:22, 34, 39, 44: read a field if its flag is set. -/
def optionalOn (c : Bool) (field : EStateM Fail ρ (List UInt8)) : EStateM Fail ρ (List UInt8) :=
  if c then field else pure []

/-- gzip.rs:6-51 `discard_header`. -/
def discardHeaderOn (R : Reader ρ) : EStateM Fail ρ (List UInt8) := do
  let header ← R.readExact 10
  let h0 ← liftE (index header 0)
  let h1 ← liftE (index header 1)
  liftE (ensure (0x1f == h0 && 0x8b == h1) .gzipMagic)
  let h2 ← liftE (index header 2)
  liftE (ensure (0x08 == h2) .gzipMethod)
  let flags ← liftE (index header 3)
  liftE (ensure (0 == (flags &&& 0b11100000)) .gzipFlags)
  let extra ← optionalOn (hasBit flags 2) (readExtraOn R)
  let fname ← optionalOn (hasBit flags 3) (nullTerminatedOn R)
  let comment ← optionalOn (hasBit flags 4) (nullTerminatedOn R)
  let crc ← optionalOn (hasBit flags 1) (R.readExact 2)
  pure (header ++ extra ++ fname ++ comment ++ crc)

end Gzip

/-! ## cat.rs -/

namespace Cat

variable {ρ : Type}

/-- cat.rs:16-18. -/
def loopOn (R : Reader ρ) : Nat → Parse.BlockIterOn ρ → DecState → Except Fail Unit × DecState
  | 0, _, s => (.error .diverge, s)
  | fuel + 1, it, s =>
    match it.next R with
    | (none, _) => (.ok (), s)
    | (some (.error e), _) => (.error e, s)
    | (some (.ok b), it) =>
      match Serialise.decompressedBlock b s with
      | .ok _ s => loopOn R fuel it s
      | .error e s => (.error e, s)

/-- cat.rs:8-21: the outcome and the standard output. -/
def runOn (R : Reader ρ) (input : ρ) (stdout : Sink) : Except Fail Unit × Sink :=
  match Gzip.discardHeaderOn R input with
  | .error e _ => (.error e, stdout)
  | .ok _ rest =>
    match CircularBuffer.new with
    | .error e => (.error e, stdout)
    | .ok dict =>
      let (r, s) := loopOn R (8 * R.size rest + 2) (Parse.parseDeflateOn rest) { dict := dict, into := stdout }
      (r, s.into)

end Cat

/-! ## dump.rs -/

namespace Dump

variable {ρ : Type}

/-- dump.rs:11-28. -/
def loopOn (R : Reader ρ) (dbg : UInt8 → List Char) : Nat → Parse.BlockIterOn ρ → Nat →
    Except Fail Unit × List Char
  | 0, _, _ => (.error .diverge, [])
  | fuel + 1, it, id =>
    match it.next R with
    | (none, _) => (.ok (), [])
    | (some (.error e), _) => (.error e, [])
    | (some (.ok b), it) =>
      match blockLines dbg id b with
      | .error e => (.error e, [])
      | .ok lines =>
        let (r, out) := loopOn R dbg fuel it (id + 1)
        (r, print lines ++ out)

/-- dump.rs:9-31 `run`. -/
def runOn (R : Reader ρ) (dbg : UInt8 → List Char) (input : ρ) : Except Fail Unit × List Char :=
  match Gzip.discardHeaderOn R input with
  | .error e _ => (.error e, [])
  | .ok _ rest => loopOn R dbg (8 * R.size rest + 2) (Parse.parseDeflateOn rest) 0

end Dump

/-! ## serialise_trace.rs -/

namespace SerialiseTrace

variable {ρ : Type}

/-- serialise_trace.rs:65-90 `read`: `read_u16` and `read_u8` are `read_exact` of two bytes and of one byte.
`ret` is what was pushed. -/
def readLoopOn (R : Reader ρ) : Nat → List Trace → EStateM Fail ρ (List Trace)
  | 0, _ => liftE (.error .diverge)
  | fuel + 1, ret => fun r =>
    match R.readExact 2 r with
    | .error (.err .eof) r => .ok ret r
    | .error e r => .error e r
    | .ok buf r =>
      (do
        let b0 ← liftE (index buf 0)
        let b1 ← liftE (index buf 1)
        let first := b0.toNat + 256 * b1.toNat
        if first = 0 then readLoopOn R fuel (ret ++ [.actuallyLiteral])
        else if first ≤ 32768 then do
          let buf ← R.readExact 1
          let runMinus3 ← liftE (index buf 0)
          let r ← liftE (Ref.new first (runMinus3.toNat + 3))
          readLoopOn R fuel (ret ++ [.actually r])
        else readLoopOn R fuel (ret ++ List.replicate (first - 32768) .correct) : EStateM Fail ρ _) r

/-- serialise_trace.rs:65-90. -/
def readOn (R : Reader ρ) (data : ρ) : Except Fail (List Trace) :=
  match readLoopOn R (R.size data + 1) [] data with
  | .ok ret _ => .ok ret
  | .error e _ => .error e

end SerialiseTrace

end Rezip
