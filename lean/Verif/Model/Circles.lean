import Verif.Model.Base

/-!
# lib/src/circles.rs
-/

namespace Rezip

/-- circles.rs:7-11. -/
structure CircularBuffer where
  data : List UInt8
  idx : Nat
  validCap : Nat
deriving DecidableEq, Repr

namespace CircularBuffer

/-- circles.rs:6: `#[derive(Default)]`. -/
def default : CircularBuffer := { data := [], idx := 0, validCap := 0 }

/-- circles.rs:18-26. `cap` is a `u16`. -/
def withCapacity (cap : UInt16) : Except Fail CircularBuffer := do
  assert (cap.toNat > 0)
  pure { data := List.replicate cap.toNat 0, idx := 0, validCap := 0 }

/-- circles.rs:14-16. -/
def new : Except Fail CircularBuffer := withCapacity (32 * 1024)

/-- circles.rs:28-35. The `% len` in line 30 panics for length zero, but line 29 panics first.
`valid_cap += 1` panics on `u16` overflow. -/
def push (b : CircularBuffer) (val : UInt8) : Except Fail CircularBuffer := do
  let data ← indexSet b.data b.idx val
  let idx := (b.idx + 1) % data.length
  if b.validCap < data.length then
    if b.validCap + 1 > 65535 then .error (.panic .overflow)
    else pure { data := data, idx := idx, validCap := b.validCap + 1 }
  else
    pure { data := data, idx := idx, validCap := b.validCap }

/-- circles.rs:37-43. -/
def extend (b : CircularBuffer) : List UInt8 → Except Fail CircularBuffer
  | [] => pure b
  | byte :: rest => do
    let b ← b.push byte
    b.extend rest

/-- `usize::wrapping_sub` (64 bit). (circles.rs:58.) -/
def wrappingSub (a b : Nat) : Nat := (a + 2 ^ 64 - b) % 2 ^ 64

/-- `usize::wrapping_add` (64 bit). (circles.rs:59.) -/
def wrappingAdd (a b : Nat) : Nat := (a + b) % 2 ^ 64

/-- circles.rs:72-89. In the release profile the `debug_assert!`s are gone. -/
def getAtDist (p : Profile) (b : CircularBuffer) (dist : Nat) : Except Fail UInt8 := do
  if p = .dev then
    if ¬ dist > 0 then throw (.panic .debugAssertion)
    if ¬ b.validCap ≤ b.data.length then throw (.panic .debugAssertion)
    if ¬ dist ≤ b.validCap then throw (.panic .debugAssertion)
  let target : Int := (b.idx : Int) - dist
  let idx : Int := if target ≥ 0 then target else target + b.data.length
  -- a negative `isize` cast to `usize` is out of range
  if idx < 0 then .error (.panic .index) else index b.data idx.toNat

/-- circles.rs:91-93 (`as u16`). -/
def capacity (b : CircularBuffer) : Nat := b.data.length % 65536

/-- circles.rs:95-97. -/
def len (b : CircularBuffer) : Nat := b.validCap

/-- circles.rs:103-105: push the bytes at distances `n, n-1, .., 1`. -/
def vecLoop (p : Profile) (b : CircularBuffer) : Nat → Except Fail (List UInt8)
  | 0 => pure []
  | n + 1 => do
    let x ← b.getAtDist p (n + 1)
    let rest ← b.vecLoop p n
    pure (x :: rest)

/-- circles.rs:99-108. `1 + self.valid_cap` is a `u16` addition: it panics in the dev profile and
wraps to zero (an empty range) in release when `valid_cap` is 65535. -/
def vec (p : Profile) (b : CircularBuffer) : Except Fail (List UInt8) :=
  if 1 + b.validCap > 65535 then
    match p with
    | .dev => .error (.panic .overflow)
    | .release => pure []
  else b.vecLoop p b.validCap

end CircularBuffer

/-- The state threaded through decompression: the dictionary and the output. (serialise.rs:15-19 and 35-39:
the parameters `dictionary` and `into`.) -/
structure DecState where
  dict : CircularBuffer
  into : Sink
deriving DecidableEq, Repr

namespace DecState

/-- `into.write_all(buf)?`. (circles.rs:65, serialise.rs:25 and 46.) -/
def write (buf : List UInt8) : EStateM Fail DecState Unit := fun s =>
  match writeAll buf s.into with
  | .ok _ into => .ok () { s with into := into }
  | .error e into => .error e { s with into := into }

/-- `dictionary.push(byte)`. (circles.rs:66, serialise.rs:45.) -/
def push (byte : UInt8) : EStateM Fail DecState Unit := fun s =>
  match s.dict.push byte with
  | .ok d => .ok () { s with dict := d }
  | .error e => .error e s

/-- `dictionary.extend(data)`. (serialise.rs:24.) -/
def extend (data : List UInt8) : EStateM Fail DecState Unit := fun s =>
  match s.dict.extend data with
  | .ok d => .ok () { s with dict := d }
  | .error e => .error e s

/-- circles.rs:62-67: the loop of `copy`, `n` iterations left. -/
def copyLoop : Nat → Nat → EStateM Fail DecState Unit
  | 0, _ => pure ()
  | n + 1, readFrom => do
    let s ← get
    let b ← liftE (index s.dict.data readFrom)
    let readFrom := (readFrom + 1) % s.dict.data.length
    write [b]
    push b
    copyLoop n readFrom

/-- circles.rs:46-70 `CircularBuffer::copy`. -/
def copy (dist len : Nat) : EStateM Fail DecState Unit := do
  let s ← get
  liftE (ensure (dist > 0 && dist ≤ s.dict.validCap) .distMustFit)
  let readFrom := CircularBuffer.wrappingAdd
    (CircularBuffer.wrappingSub s.dict.idx dist) s.dict.data.length % s.dict.data.length
  copyLoop len readFrom

end DecState

end Rezip
