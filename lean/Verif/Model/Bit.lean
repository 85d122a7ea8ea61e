import Verif.Model.Base

/-!
# lib/src/bit.rs
-/

namespace Rezip

/-! ## `BitVec` (named `BitVector` here: `BitVec` is taken by Lean core) -/

/-- bit.rs:181-185 `struct BitVec`. Equality is derived, i.e. componentwise. -/
structure BitVector where
  bytes : List UInt8
  len : Nat
deriving DecidableEq, Repr

namespace BitVector

/-- bit.rs:188-193. -/
def new : BitVector := { bytes := [], len := 0 }

/-- bit.rs:195-200. -/
def fromSlice (bytes : List UInt8) : BitVector := { bytes := bytes, len := bytes.length * 8 }

/-- bit.rs:202-217. The `assert_eq!(word, self.bytes.len())` is kept. -/
def push (v : BitVector) (val : Bool) : Except Fail BitVector := do
  let word := v.len / 8
  let bit := v.len % 8
  let bytes ←
    if word ≥ v.bytes.length then do
      assert (word == v.bytes.length)
      pure (v.bytes ++ [0])
    else pure v.bytes
  if val then
    let w ← index bytes word
    let bytes ← indexSet bytes word (w ||| (1 <<< bit.toUInt8))
    pure { bytes := bytes, len := v.len + 1 }
  else
    pure { bytes := bytes, len := v.len + 1 }

/-- bit.rs:219-226. -/
def get (v : BitVector) (pos : Nat) : Except Fail Bool := do
  assert (pos < v.len)
  let word := pos / 8
  let bit := pos % 8
  let w ← index v.bytes word
  pure ((w &&& (1 <<< bit.toUInt8)) == (1 <<< bit.toUInt8))

/-- bit.rs:228-242. Returns `None` and the vector unchanged when empty. The popped bit is not
cleared in the last byte. -/
def pop (v : BitVector) : Except Fail (Option Bool × BitVector) := do
  if v.len == 0 then
    pure (none, v)
  else
    let answer ← v.get (v.len - 1)
    let len := v.len - 1
    let bytes := if len % 8 == 0 then v.bytes.dropLast else v.bytes
    pure (some answer, { bytes := bytes, len := len })

/-- bit.rs:253-256. -/
def isEmpty (v : BitVector) : Except Fail Bool := do
  assert ((v.len == 0) == v.bytes.isEmpty)
  pure (v.len == 0)

/-- The loop of bit.rs:265-269: `n` iterations left, i.e. `pos = 8 - n`, so the mask
`1 << (7 - pos)` is `1 << (n - 1)`. -/
def popByteLoop : Nat → UInt8 → BitVector → Except Fail (UInt8 × BitVector)
  | 0, ret, v => pure (ret, v)
  | n + 1, ret, v => do
    match ← v.pop with
    | (none, _) => .error (.panic .unwrap)
    | (some b, v) => popByteLoop n (if b then ret ||| (1 <<< n.toUInt8) else ret) v

/-- bit.rs:258-272. -/
def popByte (v : BitVector) : Except Fail (Option UInt8 × BitVector) := do
  if v.len < 8 then
    pure (none, v)
  else
    let (ret, v) ← popByteLoop 8 0 v
    pure (some ret, v)

end BitVector

/-- bit.rs:305-308 `StackIterator`, produced by `BitVec::iter` (bit.rs:274-279) with `pos = 0`. -/
structure StackIterator where
  inner : BitVector
  pos : Nat
deriving DecidableEq, Repr

/-- bit.rs:274-279. -/
def BitVector.iter (v : BitVector) : StackIterator := { inner := v, pos := 0 }

/-- bit.rs:310-325 `StackIterator::next`. -/
def StackIterator.next : EStateM Fail StackIterator (Option Bool) := fun s =>
  if s.pos ≥ s.inner.len then
    if s.pos == s.inner.len then .ok none s else .error (.panic .assertion) s
  else
    match s.inner.get s.pos with
    | .ok b => .ok (some b) { s with pos := s.pos + 1 }
    | .error e => .error e s

/-- Draining a `StackIterator` (`for bit in vec.iter()`); `fuel` bounds the number of items. (bit.rs:145 and
330.) -/
def StackIterator.drain : Nat → StackIterator → Except Fail (List Bool)
  | 0, _ => .error .diverge
  | fuel + 1, s =>
    match StackIterator.next s with
    | .error e _ => .error e
    | .ok none _ => .ok []
    | .ok (some b) s => do
      let rest ← StackIterator.drain fuel s
      pure (b :: rest)

/-- `vec.iter().collect()`. (bit.rs:274-279 with 310-325; bit.rs:465.) -/
def BitVector.toBits (v : BitVector) : Except Fail (List Bool) :=
  v.iter.drain (v.len + 1)

/-! ## `BitSource` (bit.rs:337-352) -/

/-- A function generic over `B: BitSource` can observe and change its source only through
`read_bit` (bit.rs:338), so it is a program that returns, fails, or reads a bit and continues.
Each `impl BitSource for ..` is an interpreter of such programs. -/
inductive BitProg (α : Type) : Type
  | done (a : α)
  | fail (e : Fail)
  | bit (k : Bool → BitProg α)

namespace BitProg

/-- Sequencing, that is `;` and `?` in functions over a `B: BitSource` (bit.rs:337-352, huffman.rs:36-136). -/
def bind {α β : Type} : BitProg α → (α → BitProg β) → BitProg β
  | .done a, f => f a
  | .fail e, _ => .fail e
  | .bit k, f => .bit fun b => (k b).bind f

/-- Functions over a `B: BitSource` (bit.rs:337-352) as programs. -/
instance : Monad BitProg where
  pure := .done
  bind := bind

/-- bit.rs:338 `BitSource::read_bit`. -/
def readBit : BitProg Bool := .bit .done

/-- Use a pure fallible function inside a generic reader function. (For example `CodeTree::new` in
huffman.rs:53.) -/
def ofExcept {α : Type} : Except Fail α → BitProg α
  | .ok a => .done a
  | .error e => .fail e

/-- The loop of bit.rs:343-348: `i` is the loop variable, `n` the number of iterations left. -/
def readPartLoop : Nat → Nat → Nat → BitProg Nat
  | _, 0, res => .done res
  | i, n + 1, res => .bit fun b => readPartLoop (i + 1) n (if b then res ||| (1 <<< i) else res)

/-- bit.rs:340-351 `BitSource::read_part`. -/
def readPart (bits : Nat) : BitProg Nat :=
  if bits ≤ 16 then readPartLoop 0 bits 0 else .fail (.panic .assertion)

/-- bit.rs:360-364 `impl BitSource for StackIterator`: running off the end is
`expect("TODO: EOF")`, a panic. -/
def runIter {α : Type} : BitProg α → EStateM Fail StackIterator α
  | .done a => fun s => .ok a s
  | .fail e => fun s => .error e s
  | .bit k => fun s =>
    match StackIterator.next s with
    | .error e s => .error e s
    | .ok none s => .error (.panic .unwrap) s
    | .ok (some b) s => (k b).runIter s

/-- bit.rs:366-390 `BitCollector`: run a generic function on a source that also pushes every bit
read onto `data`; the result is paired with `into_data()`. -/
def collect {α : Type} : BitProg α → BitVector → BitProg (α × BitVector)
  | .done a, data => .done (a, data)
  | .fail e, _ => .fail e
  | .bit k, data => .bit fun b =>
    match data.push b with
    | .ok data => (k b).collect data
    | .error e => .fail e

end BitProg

/-! ## `BitReader` (bit.rs:13-110) -/

/-- bit.rs:13-18. The field `track` is dropped: it is private, initialised to `None`
(bit.rs:31) and never assigned, so the code guarded by `Some` and the assertions
`track.is_none()` are inert. -/
structure BitReader where
  inner : List UInt8
  current : UInt8
  remainingBits : Nat
deriving DecidableEq, Repr

namespace BitReader

/-- bit.rs:26-33. -/
def new (inner : List UInt8) : BitReader := { inner := inner, current := 0, remainingBits := 0 }

/-- bit.rs:35-38. -/
def position (r : BitReader) : Except Fail Nat := do
  assert (r.remainingBits ≤ 7)
  pure ((8 - r.remainingBits) % 8)

/-- bit.rs:40-58. -/
def readBit : EStateM Fail BitReader Bool := fun r =>
  let take (r : BitReader) : EStateM.Result Fail BitReader Bool :=
    let r := { r with remainingBits := r.remainingBits - 1 }
    let bit := (r.current >>> (7 - r.remainingBits).toUInt8) &&& 1
    .ok (1 == bit) r
  if r.remainingBits == 0 then
    match readExact 1 r.inner with
    | .error e inner => .error e { r with inner := inner }
    | .ok buf inner =>
      match buf with
      | [b] => take { inner := inner, current := b, remainingBits := 8 }
      | _ => .error (.panic .index) r
  else take r

/-- bit.rs:354-358 `impl BitSource for BitReader`. -/
def run {α : Type} : BitProg α → EStateM Fail BitReader α
  | .done a => fun r => .ok a r
  | .fail e => fun r => .error e r
  | .bit k => fun r =>
    match readBit r with
    | .error e r => .error e r
    | .ok b r => run (k b) r

/-- bit.rs:60-67; the loop reads at most seven bits, so eight steps of fuel are enough. -/
def alignLoop : Nat → EStateM Fail BitReader Unit
  | 0 => fun r => .error .diverge r
  | fuel + 1 => do
    let r ← get
    let p ← liftE r.position
    if p != 0 then
      let b ← readBit
      liftE (ensure (!b) .padding)
      alignLoop fuel
    else
      pure ()

/-- bit.rs:60-67 `BitReader::align`. -/
def align : EStateM Fail BitReader Unit := alignLoop 9

/-- bit.rs:69-71. -/
def readPart (bits : Nat) : EStateM Fail BitReader Nat := run (BitProg.readPart bits)

/-- `self.inner.read_exact(&mut buf)`. (bit.rs:43, 87 and 98.) -/
def readExactInner (n : Nat) : EStateM Fail BitReader (List UInt8) := fun r =>
  match readExact n r.inner with
  | .ok buf inner => .ok buf { r with inner := inner }
  | .error e inner => .error e { r with inner := inner }

/-- bit.rs:93-101: little endian. -/
def readAlignedU16 : EStateM Fail BitReader Nat := do
  let r ← get
  let p ← liftE r.position
  liftE (assert (p == 0))
  let buf ← readExactInner 2
  let b1 ← liftE (index buf 1)
  let b0 ← liftE (index buf 0)
  pure ((b1.toNat <<< 8) ||| b0.toNat)

/-- bit.rs:73-91. -/
def readLengthPrefixed : EStateM Fail BitReader (List UInt8) := do
  let r ← get
  let p ← liftE r.position
  liftE (assert (p == 0))
  let len ← readAlignedU16
  let onesComplement ← readAlignedU16
  liftE (ensure ((len ^^^ 0xFFFF) == onesComplement) .storedLength)
  readExactInner len

/-- bit.rs:104-109. -/
def intoInner (r : BitReader) : Except Fail (List UInt8) := do
  let p ← r.position
  assert (p == 0)
  pure r.inner

end BitReader

/-! ## `BitWriter` (bit.rs:20-23, 112-177) -/

/-- bit.rs:20-23. -/
structure BitWriter where
  inner : Sink
  current : BitVector
deriving DecidableEq, Repr

namespace BitWriter

/-- bit.rs:113-118. -/
def new (inner : Sink) : BitWriter := { inner := inner, current := BitVector.new }

/-- `self.inner.write_all(buf)`. (bit.rs:125, 160 and 165.) -/
def writeInner (buf : List UInt8) : EStateM Fail BitWriter Unit := fun w =>
  match writeAll buf w.inner with
  | .ok _ inner => .ok () { w with inner := inner }
  | .error e inner => .error e { w with inner := inner }

/-- bit.rs:120-128. -/
def writeBit (bit : Bool) : EStateM Fail BitWriter Unit := do
  let w ← get
  let current ← liftE (w.current.push bit)
  set { w with current := current }
  if current.len ≥ 8 then
    liftE (assert (8 == current.len))
    match ← liftE current.popByte with
    | (none, _) => liftE (.error (.panic .unwrap))
    | (some byte, current) =>
      set { w with current := current }
      writeInner [byte]
  else
    pure ()

/-- `for` loop over a list of bits, as in bit.rs:144-149. -/
def writeBits : List Bool → EStateM Fail BitWriter Unit
  | [] => pure ()
  | b :: bs => do
    writeBit b
    writeBits bs

/-- The loop of bit.rs:131-133: `i` is the loop variable, `n` the number of iterations left.
`1 << i` on a `u16` overflows (panics) for `i ≥ 16`. -/
def writeBitsValLoop (val : Nat) : Nat → Nat → EStateM Fail BitWriter Unit
  | _, 0 => pure ()
  | i, n + 1 => do
    if i ≥ 16 then
      liftE (.error (.panic .overflow))
    else
      writeBit ((val &&& (1 <<< i)) != 0)
      writeBitsValLoop val (i + 1) n

/-- bit.rs:130-135. -/
def writeBitsVal (bits val : Nat) : EStateM Fail BitWriter Unit := writeBitsValLoop val 0 bits

/-- bit.rs:137-142; at most seven bits are written, so eight steps of fuel are enough. -/
def alignLoop : Nat → EStateM Fail BitWriter Unit
  | 0 => fun w => .error .diverge w
  | fuel + 1 => do
    let w ← get
    let e ← liftE w.current.isEmpty
    if !e then
      writeBit false
      alignLoop fuel
    else
      pure ()

/-- bit.rs:137-142 `BitWriter::align`. -/
def align : EStateM Fail BitWriter Unit := alignLoop 9

/-- bit.rs:144-149 `write_vec`: iterate the vector, writing each bit. Reading the vector has no
effect on the writer, so it is drained first. -/
def writeVec (vec : BitVector) : EStateM Fail BitWriter Unit := do
  let bits ← liftE vec.toBits
  writeBits bits

/-- bit.rs:164-170: note the order, high byte first. -/
def writeAlignedU16 (val : Nat) : EStateM Fail BitWriter Unit :=
  writeInner [(val >>> 8).toUInt8, (val &&& 0xFF).toUInt8]

/-- bit.rs:151-162. -/
def writeLengthPrefixed (data : List UInt8) : EStateM Fail BitWriter Unit := do
  align
  liftE (ensure (data.length ≤ 65535) .storedTooLong)
  writeAlignedU16 data.length
  writeAlignedU16 (data.length ^^^ 0xFFFF)
  writeInner data

/-- bit.rs:172-176. -/
def intoInner (w : BitWriter) : Except Fail Sink := do
  assert (0 == w.current.len)
  pure w.inner

end BitWriter

end Rezip
