import Verif.Spec.Drive

/-!
# A stack whose popped bits stay behind

What a bit vector really does: a popped bit stays in its byte until the byte itself is given up, and a bit
pushed onto it is joined with it by "or".
-/

namespace Rezip.Spec

open Rezip

/-- Run a history: `st` is what is held, `left` the bits left behind after it, nearest first. The result is
what each pop returned, what is held in the end and what is left behind. -/
def sticky : List VecOp → List Bool → List Bool → List (Option Bool) × List Bool × List Bool
  | [], st, left => ([], st, left)
  | .push b :: ops, st, left => sticky ops (st ++ [b || left.headD false]) left.tail
  | .pop :: ops, st, left =>
    match st.getLast? with
    | none =>
      let r := sticky ops [] []
      (none :: r.1, r.2)
    | some b =>
      let r := sticky ops st.dropLast (if st.dropLast.length % 8 = 0 then [] else b :: left)
      (some b :: r.1, r.2)

/-- No 0 is ever pushed where a 1 was left behind. -/
def NoSmear : List VecOp → List Bool → List Bool → Prop
  | [], _, _ => True
  | .push b :: ops, st, left => (left.headD false = true → b = true) ∧ NoSmear ops (st ++ [b]) left.tail
  | .pop :: ops, st, left =>
    match st.getLast? with
    | none => NoSmear ops [] []
    | some b => NoSmear ops st.dropLast (if st.dropLast.length % 8 = 0 then [] else b :: left)

end Rezip.Spec
