import Verif.Model.Bit
import Verif.Spec.Bits

/-!
# Specification vocabulary: what a bit source will deliver
-/

namespace Rezip

open Spec

namespace BitReader

/-- The bits a reader will still deliver: the unread high bits of the current byte, then the bytes
not yet fetched. (`Verif.Props.Bits` shows that reading delivers exactly these.) -/
def bits (r : BitReader) : List Bool :=
  (byteBits r.current).drop (8 - r.remainingBits) ++ bytesBits r.inner

/-- The invariant of `BitReader` between calls. -/
def WF (r : BitReader) : Prop := r.remainingBits ≤ 7

end BitReader

/-- Outcome of running a bit program on a list of bits: a result and the bits left over, a failure,
or the end of the bits. -/
inductive ExecRes (α : Type)
  | ok (a : α) (rest : List Bool)
  | fail (e : Fail)
  | starved
deriving DecidableEq, Repr

/-- Run a function generic over its bit source on a list of bits. -/
def BitProg.exec {α : Type} : BitProg α → List Bool → ExecRes α
  | .done a, bs => .ok a bs
  | .fail e, _ => .fail e
  | .bit _, [] => .starved
  | .bit k, b :: bs => (k b).exec bs

end Rezip
