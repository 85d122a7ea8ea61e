import Verif.Model.SerialiseTrace

/-!
# What codes and traces say about the data
-/

namespace Rezip

/-- Every literal of the codes is the byte of `w` at its position, the first code standing at `pos`. -/
def LiteralsAgree (w : List UInt8) : Nat → List Code → Prop
  | _, [] => True
  | pos, .literal b :: cs => w[pos]? = some b ∧ LiteralsAgree w (pos + 1) cs
  | pos, .reference r :: cs => LiteralsAgree w (pos + r.run) cs

/-- Every literal of the codes that the trace marks as mispredicted is the byte of `d` at its position,
the first code standing at `pos`. -/
def HintedLiteralsAgree (d : List UInt8) : Nat → List Code → List Trace → Prop
  | pos, .literal b :: cs, x :: xs =>
    (x = .actuallyLiteral → d[pos]? = some b) ∧ HintedLiteralsAgree d (pos + 1) cs xs
  | pos, .reference r :: cs, _ :: xs => HintedLiteralsAgree d (pos + r.run) cs xs
  | _, _, _ => True

end Rezip
