import Verif.Model.Reader

/-!
# The writers of bit.rs, circles.rs, serialise.rs, cat.rs and zero.rs, on any `W: Write`

In the other modules the writer is a `Sink`, which takes what it is given as long as there is room. Here the
same functions are given for a writer of any type, of which only `write_all` is used, and for one that takes
its bytes in pieces and may fail.
-/

namespace Rezip

/-- A `W: Write`, as far as it is used. (bit.rs:112, circles.rs:46, serialise.rs:15.) -/
structure Writer (ω : Type) where
  writeAll : List UInt8 → EStateM Fail ω Unit

/-- What one call of `Write::write` meets: room for `n + 1` bytes, `ErrorKind::Interrupted`, or another error.
`Ok(0)` is an error for `write_all` (`ErrorKind::WriteZero`), and counts as one here. (Any writer passed to
bit.rs:113 or serialise.rs:15.) -/
inductive WEvent
  | takes (n : Nat)
  | interrupted
  | failure (e : Err)
deriving DecidableEq, Repr

/-- A pipe or socket: what it has taken so far, and what the calls of `write` will meet. After that it takes
everything. (The standard output of cat.rs:11-12 and zero.rs:59-60.) -/
structure Pipe where
  out : List UInt8
  events : List WEvent
deriving DecidableEq, Repr

namespace Pipe

/-- The result of one call of `write`. (Used by bit.rs:125 through `write_all`, and filter.rs:46.) -/
inductive Took
  | bytes (n : Nat)
  | interrupted
  | failed (e : Err)

/-- `Write::write` of the buffer `buf`: of room that is not needed, the rest stays. (Called by bit.rs:125
through `write_all`.) -/
def write (buf : List UInt8) (p : Pipe) : Took × Pipe :=
  match p.events with
  | [] => (.bytes buf.length, { p with out := p.out ++ buf })
  | .interrupted :: rest => (.interrupted, { p with events := rest })
  | .failure e :: rest => (.failed e, { p with events := rest })
  | .takes n :: rest =>
    if n + 1 ≤ buf.length then (.bytes (n + 1), { out := p.out ++ buf.take (n + 1), events := rest })
    else (.bytes buf.length, { out := p.out ++ buf, events := .takes (n - buf.length) :: rest })

/-- `Write::write_all`: `while !buf.is_empty() { match self.write(buf) { Ok(0) => return Err(WriteZero),
Ok(n) => buf = &buf[n..], Err(e) if e.is_interrupted() => {}, Err(e) => return Err(e) } }`. (bit.rs:125, 160
and 165, circles.rs:65, serialise.rs:25 and 46.) -/
def writeAllLoop : Nat → List UInt8 → EStateM Fail Pipe Unit
  | 0, _ => fun p => .error .diverge p
  | fuel + 1, buf => fun p =>
    if buf.isEmpty then .ok () p
    else
      match write buf p with
      | (.bytes n, p) => writeAllLoop fuel (buf.drop n) p
      | (.interrupted, p) => writeAllLoop fuel buf p
      | (.failed e, p) => .error (.err e) p

/-- Every call of `write` uses up an event, or the buffer. (bit.rs:125.) -/
def writer : Writer Pipe where
  writeAll buf := fun p => writeAllLoop (p.events.length + 2) buf p

/-- The number of bytes that it will take before it fails; `none` if it never fails. (What bit.rs:113 and
serialise.rs:15 see of the writer.) -/
def roomOf : List WEvent → Option Nat
  | [] => none
  | .takes n :: rest => (roomOf rest).map (n + 1 + ·)
  | .interrupted :: rest => roomOf rest
  | .failure _ :: _ => some 0

/-- How it fails. (The error that `?` in bit.rs:125 returns.) -/
def failureOf : List WEvent → Fail
  | [] => .err .sink
  | .takes _ :: rest => failureOf rest
  | .interrupted :: rest => failureOf rest
  | .failure e :: _ => .err e

end Pipe

/-! ## bit.rs -/

/-- bit.rs:20-23 `BitWriter<W>`. -/
structure BitWriterOn (ω : Type) where
  inner : ω
  current : BitVector

namespace BitWriterOn

variable {ω : Type}

/-- bit.rs:113-118. -/
def new (inner : ω) : BitWriterOn ω := { inner := inner, current := BitVector.new }

/-- `self.inner.write_all(buf)`. (bit.rs:125, 160 and 165.) -/
def writeInner (W : Writer ω) (buf : List UInt8) : EStateM Fail (BitWriterOn ω) Unit := fun w =>
  match W.writeAll buf w.inner with
  | .ok _ inner => .ok () { w with inner := inner }
  | .error e inner => .error e { w with inner := inner }

/-- bit.rs:120-128. -/
def writeBit (W : Writer ω) (bit : Bool) : EStateM Fail (BitWriterOn ω) Unit := do
  let w ← get
  let current ← liftE (w.current.push bit)
  set { w with current := current }
  if current.len ≥ 8 then
    liftE (assert (8 == current.len))
    match ← liftE current.popByte with
    | (none, _) => liftE (.error (.panic .unwrap))
    | (some byte, current) =>
      set { w with current := current }
      writeInner W [byte]
  else
    pure ()

/-- bit.rs:144-149: the loop over the bits. -/
def writeBits (W : Writer ω) : List Bool → EStateM Fail (BitWriterOn ω) Unit
  | [] => pure ()
  | b :: bs => do
    writeBit W b
    writeBits W bs

/-- bit.rs:131-133. -/
def writeBitsValLoop (W : Writer ω) (val : Nat) : Nat → Nat → EStateM Fail (BitWriterOn ω) Unit
  | _, 0 => pure ()
  | i, n + 1 => do
    if i ≥ 16 then
      liftE (.error (.panic .overflow))
    else
      writeBit W ((val &&& (1 <<< i)) != 0)
      writeBitsValLoop W val (i + 1) n

/-- bit.rs:130-135. -/
def writeBitsVal (W : Writer ω) (bits val : Nat) : EStateM Fail (BitWriterOn ω) Unit :=
  writeBitsValLoop W val 0 bits

/-- bit.rs:137-142. -/
def alignLoop (W : Writer ω) : Nat → EStateM Fail (BitWriterOn ω) Unit
  | 0 => fun w => .error .diverge w
  | fuel + 1 => do
    let w ← get
    let e ← liftE w.current.isEmpty
    if !e then
      writeBit W false
      alignLoop W fuel
    else
      pure ()

/-- bit.rs:137-142 `BitWriter::align`. -/
def align (W : Writer ω) : EStateM Fail (BitWriterOn ω) Unit := alignLoop W 9

/-- bit.rs:144-149 `write_vec`. -/
def writeVec (W : Writer ω) (vec : BitVector) : EStateM Fail (BitWriterOn ω) Unit := do
  let bits ← liftE vec.toBits
  writeBits W bits

/-- bit.rs:164-170. -/
def writeAlignedU16 (W : Writer ω) (val : Nat) : EStateM Fail (BitWriterOn ω) Unit :=
  writeInner W [(val >>> 8).toUInt8, (val &&& 0xFF).toUInt8]

/-- bit.rs:151-162. -/
def writeLengthPrefixed (W : Writer ω) (data : List UInt8) : EStateM Fail (BitWriterOn ω) Unit := do
  align W
  liftE (ensure (data.length ≤ 65535) .storedTooLong)
  writeAlignedU16 W data.length
  writeAlignedU16 W (data.length ^^^ 0xFFFF)
  writeInner W data

end BitWriterOn

/-! ## circles.rs -/

/-- The state threaded through decompression: the dictionary and the output. (serialise.rs:15-19 and 35-39.) -/
structure DecStateOn (ω : Type) where
  dict : CircularBuffer
  into : ω

namespace DecStateOn

variable {ω : Type}

/-- `into.write_all(buf)?`. (Called by bit.rs:125 through `write_all`.) -/
def write (W : Writer ω) (buf : List UInt8) : EStateM Fail (DecStateOn ω) Unit := fun s =>
  match W.writeAll buf s.into with
  | .ok _ into => .ok () { s with into := into }
  | .error e into => .error e { s with into := into }

/-- `dictionary.push(byte)`. (circles.rs:66, serialise.rs:45.) -/
def push (byte : UInt8) : EStateM Fail (DecStateOn ω) Unit := fun s =>
  match s.dict.push byte with
  | .ok d => .ok () { s with dict := d }
  | .error e => .error e s

/-- `dictionary.extend(data)`. (serialise.rs:24.) -/
def extend (data : List UInt8) : EStateM Fail (DecStateOn ω) Unit := fun s =>
  match s.dict.extend data with
  | .ok d => .ok () { s with dict := d }
  | .error e => .error e s

/-- circles.rs:62-67. -/
def copyLoop (W : Writer ω) : Nat → Nat → EStateM Fail (DecStateOn ω) Unit
  | 0, _ => pure ()
  | n + 1, readFrom => do
    let s ← get
    let b ← liftE (index s.dict.data readFrom)
    let readFrom := (readFrom + 1) % s.dict.data.length
    write W [b]
    push b
    copyLoop W n readFrom

/-- circles.rs:46-70 `CircularBuffer::copy`. -/
def copy (W : Writer ω) (dist len : Nat) : EStateM Fail (DecStateOn ω) Unit := do
  let s ← get
  liftE (ensure (dist > 0 && dist ≤ s.dict.validCap) .distMustFit)
  let readFrom := CircularBuffer.wrappingAdd
    (CircularBuffer.wrappingSub s.dict.idx dist) s.dict.data.length % s.dict.data.length
  copyLoop W len readFrom

end DecStateOn

/-! ## serialise.rs -/

namespace Serialise

variable {ω : Type}

/-- One iteration of serialise.rs:42-52. -/
def decompressedCodeOn (W : Writer ω) : Code → EStateM Fail (DecStateOn ω) Unit
  | .literal byte => do
    DecStateOn.push byte
    DecStateOn.write W [byte]
  | .reference r => DecStateOn.copy W r.dist.toNat r.run

/-- serialise.rs:35-55. -/
def decompressedCodesOn (W : Writer ω) : List Code → EStateM Fail (DecStateOn ω) Unit
  | [] => pure ()
  | c :: cs => do
    decompressedCodeOn W c
    decompressedCodesOn W cs

/-- serialise.rs:15-33. -/
def decompressedBlockOn (W : Writer ω) : Block → EStateM Fail (DecStateOn ω) Unit
  | .uncompressed data => do
    DecStateOn.extend data
    DecStateOn.write W data
  | .fixedHuffman codes => decompressedCodesOn W codes
  | .dynamicHuffman _ codes => decompressedCodesOn W codes

/-- serialise.rs:170-186. -/
def encodeRunOn (W : Writer ω) (lengthTree : List (Option BitVector)) (run : Nat) :
    EStateM Fail (BitWriterOn ω) Unit := do
  let sym ← liftE (Huffman.encodeRunLength run)
  let v ← liftE (lookupUnwrap lengthTree sym)
  BitWriterOn.writeVec W v
  match ← liftE (Huffman.extraRunLength run) with
  | some (bits, val) => BitWriterOn.writeBitsVal W bits val
  | none => pure ()

/-- serialise.rs:188-206. -/
def encodeDistanceOn (W : Writer ω) (tree : Option (List (Option BitVector))) (dist : Nat) :
    EStateM Fail (BitWriterOn ω) Unit := do
  let (code, bits, val) ← liftE (Huffman.encodeDistance dist)
  match tree with
  | none => liftE (.error (.err .noDistanceTree))
  | some distanceTree =>
    let v ← liftE (lookupUnwrap distanceTree code)
    BitWriterOn.writeVec W v
    if bits > 0 then
      BitWriterOn.writeBitsVal W bits val
    else
      pure ()

/-- One iteration of serialise.rs:148-162. -/
def compressedCodeOn (W : Writer ω) (lengthTree : List (Option BitVector))
    (distanceTree : Option (List (Option BitVector))) : Code → EStateM Fail (BitWriterOn ω) Unit
  | .literal byte => do
    match ← liftE (index lengthTree byte.toNat) with
    | some v => BitWriterOn.writeVec W v
    | none => liftE (.error (.err .invalidLiteral))
  | .reference r => do
    encodeRunOn W lengthTree r.run
    encodeDistanceOn W distanceTree r.dist.toNat

/-- serialise.rs:148-162. -/
def compressedCodesLoopOn (W : Writer ω) (lengthTree : List (Option BitVector))
    (distanceTree : Option (List (Option BitVector))) : List Code → EStateM Fail (BitWriterOn ω) Unit
  | [] => pure ()
  | c :: cs => do
    compressedCodeOn W lengthTree distanceTree c
    compressedCodesLoopOn W lengthTree distanceTree cs

/-- serialise.rs:135-168 `compressed_codes`. -/
def compressedCodesOn (W : Writer ω) (length : CodeTree) (distance : Option CodeTree) (codes : List Code) :
    EStateM Fail (BitWriterOn ω) Unit := do
  let lengthTree ← liftE length.invert
  let distanceTree ← liftE (invertOption distance)
  liftE (assert (lengthTree.length > 256))
  compressedCodesLoopOn W lengthTree distanceTree codes
  let eob ← liftE (lookupUnwrap lengthTree 256)
  BitWriterOn.writeVec W eob

/-- serialise.rs:57-85 `compressed_block`. -/
def compressedBlockOn (W : Writer ω) : Block → EStateM Fail (BitWriterOn ω) Unit
  | .uncompressed data => do
    BitWriterOn.writeBitsVal W 2 0
    BitWriterOn.writeLengthPrefixed W data
  | .fixedHuffman codes => do
    BitWriterOn.writeBitsVal W 2 1
    let length ← liftE Huffman.fixedLengthTree
    let distance ← liftE Huffman.fixedDistanceTree
    compressedCodesOn W length (some distance) codes
  | .dynamicHuffman trees codes => do
    BitWriterOn.writeBitsVal W 2 2
    BitWriterOn.writeVec W trees
    let (length, distance) ← liftE (readCodesOf trees)
    compressedCodesOn W length distance codes

/-- The recompression loop of lib.rs:232-250. -/
def recompressLoopOn (W : Writer ω) : List Block → EStateM Fail (BitWriterOn ω) Unit
  | [] => pure ()
  | b :: bs => do
    BitWriterOn.writeBit W bs.isEmpty
    compressedBlockOn W b
    recompressLoopOn W bs

end Serialise

/-! ## cat.rs -/

namespace Cat

variable {ρ ω : Type}

/-- cat.rs:16-18. -/
def loopIO (R : Reader ρ) (W : Writer ω) : Nat → Parse.BlockIterOn ρ → DecStateOn ω →
    Except Fail Unit × DecStateOn ω
  | 0, _, s => (.error .diverge, s)
  | fuel + 1, it, s =>
    match it.next R with
    | (none, _) => (.ok (), s)
    | (some (.error e), _) => (.error e, s)
    | (some (.ok b), it) =>
      match Serialise.decompressedBlockOn W b s with
      | .ok _ s => loopIO R W fuel it s
      | .error e s => (.error e, s)

/-- cat.rs:8-21: the outcome and the standard output. -/
def runIO (R : Reader ρ) (W : Writer ω) (input : ρ) (stdout : ω) : Except Fail Unit × ω :=
  match Gzip.discardHeaderOn R input with
  | .error e _ => (.error e, stdout)
  | .ok _ rest =>
    match CircularBuffer.new with
    | .error e => (.error e, stdout)
    | .ok dict =>
      let (r, s) := loopIO R W (8 * R.size rest + 2) (Parse.parseDeflateOn rest) { dict := dict, into := stdout }
      (r, s.into)

end Cat

/-! ## zero.rs -/

namespace Zero

variable {ω : Type}

/-- zero.rs:81-92. -/
def writeChunkOn (W : Writer ω) (last : Bool) (buf : List UInt8) : EStateM Fail ω Unit := do
  W.writeAll [if last then 1 else 0]
  let len := buf.length % 65536
  W.writeAll (u16le len)
  W.writeAll (u16le (len ^^^ 0xffff))
  W.writeAll buf

/-- zero.rs:72-93. -/
def loopOn (W : Writer ω) (take : EStateM Fail Source (List UInt8)) : Nat → Source → Nat → List UInt8 →
    EStateM Fail ω (Nat × List UInt8)
  | 0, _, _, _ => liftE (.error .diverge)
  | fuel + 1, src, dataLen, all =>
    match take src with
    | .error e _ => liftE (.error e)
    | .ok buf src =>
      if buf.isEmpty then pure (dataLen, all)
      else do
        writeChunkOn W src.isEmpty buf
        loopOn W take fuel src ((dataLen + buf.length % 2 ^ 32) % 2 ^ 32) (all ++ buf)

/-- zero.rs:57-97. -/
def runToOn (W : Writer ω) (crc : List UInt8 → Nat) (header : List UInt8) (src : Source) : EStateM Fail ω Unit := do
  liftE (assert (!src.isEmpty))
  W.writeAll header
  let (total, all) ← loopOn W takeRsync (src.length + 1) src 0 []
  W.writeAll (u32le (crc all))
  W.writeAll (u32le total)

end Zero

end Rezip
