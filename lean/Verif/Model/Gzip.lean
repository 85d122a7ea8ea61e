import Verif.Model.Base

/-!
# lib/src/gzip.rs
-/

namespace Rezip

namespace Gzip

/-- gzip.rs:54-56. -/
def hasBit (val : UInt8) (bit : Nat) : Bool :=
  (val &&& (1 <<< bit.toUInt8)) == (1 <<< bit.toUInt8)

/-- gzip.rs:58-67: returns the bytes pushed onto `into`. Structural on the input, since every
iteration reads one byte. -/
def readNullTerminated : EStateM Fail (List UInt8) (List UInt8)
  | [] => .error (.err .eof) []
  | b :: rest =>
    if 0 == b then .ok [b] rest
    else
      match readNullTerminated rest with
      | .ok bs rest => .ok (b :: bs) rest
      | .error e rest => .error e rest

/-- gzip.rs:23-32: the extra field, with its length. -/
def readExtra : EStateM Fail (List UInt8) (List UInt8) := do
  let buf ← readExact 2
  let b1 ← liftE (index buf 1)
  let b0 ← liftE (index buf 0)
  let extraField ← readExact ((b1.toNat <<< 8) ||| b0.toNat)
  pure (buf ++ extraField)

/-- gzip.rs:22, 34, 39, 44: read a field if its flag is set. -/
def optional (c : Bool) (field : EStateM Fail (List UInt8) (List UInt8)) :
    EStateM Fail (List UInt8) (List UInt8) :=
  if c then field else pure []

/-- gzip.rs:6-51 `discard_header`. -/
def discardHeader : EStateM Fail (List UInt8) (List UInt8) := do
  let header ← readExact 10
  let h0 ← liftE (index header 0)
  let h1 ← liftE (index header 1)
  liftE (ensure (0x1f == h0 && 0x8b == h1) .gzipMagic)
  let h2 ← liftE (index header 2)
  liftE (ensure (0x08 == h2) .gzipMethod)
  let flags ← liftE (index header 3)
  liftE (ensure (0 == (flags &&& 0b11100000)) .gzipFlags)
  let extra ← optional (hasBit flags 2) readExtra
  let fname ← optional (hasBit flags 3) readNullTerminated
  let comment ← optional (hasBit flags 4) readNullTerminated
  let crc ← optional (hasBit flags 1) (readExact 2)
  pure (header ++ extra ++ fname ++ comment ++ crc)

end Gzip

end Rezip
