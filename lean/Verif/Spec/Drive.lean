import Verif.Model.Bit

/-!
# Specification vocabulary: driving the bit-level API

Small drivers that call the modelled API repeatedly, and the ideal stack a bit vector is compared
with.
-/

namespace Rezip.Spec

open Rezip

/-- Read `n` bits, one `read_bit` call each. -/
def readBits : Nat → EStateM Fail BitReader (List Bool)
  | 0 => pure []
  | n + 1 => do
    let b ← BitReader.readBit
    let bs ← readBits n
    pure (b :: bs)

/-- Push bits one after another. -/
def pushAll : List Bool → BitVector → Except Fail BitVector
  | [], v => .ok v
  | b :: bs, v => do
    let v ← v.push b
    pushAll bs v

/-- Operations on a bit vector. -/
inductive VecOp
  | push (b : Bool)
  | pop
deriving DecidableEq, Repr

/-- Run a history of operations, collecting what each `pop` returned. -/
def runVec : List VecOp → BitVector → Except Fail (List (Option Bool) × BitVector)
  | [], v => .ok ([], v)
  | .push b :: ops, v => do
    let v ← v.push b
    runVec ops v
  | .pop :: ops, v => do
    let (out, v) ← v.pop
    let (outs, v) ← runVec ops v
    pure (out :: outs, v)

/-- The same history on an ideal stack (last element is the top). -/
def runStack : List VecOp → List Bool → List (Option Bool) × List Bool
  | [], st => ([], st)
  | .push b :: ops, st => runStack ops (st ++ [b])
  | .pop :: ops, st =>
    let r := runStack ops st.dropLast
    (st.getLast? :: r.1, r.2)

/-- Histories that never push onto a byte from which a one bit has been popped: `dirty` says that
happened since the length was last a multiple of eight. -/
def Clean : List VecOp → List Bool → Bool → Prop
  | [], _, _ => True
  | .push b :: ops, st, dirty => dirty = false ∧ Clean ops (st ++ [b]) false
  | .pop :: ops, st, dirty =>
    Clean ops st.dropLast ((dirty || st.getLast? == some true) && st.dropLast.length % 8 != 0)

end Rezip.Spec
