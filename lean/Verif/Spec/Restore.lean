import Verif.Spec.Match

/-!
# What a trace says about the codes
-/

namespace Rezip

/-- The code describes the data at `pos`: the byte there, or a copy of equal earlier bytes. -/
def Code.Describes (d : List UInt8) (pos : Nat) : Code → Prop
  | .literal b => d[pos]? = some b
  | .reference r => 1 ≤ r.dist.toNat ∧ r.dist.toNat ≤ 32768 ∧ r.dist.toNat ≤ pos ∧
      MatchesFor d pos r.dist.toNat r.run

/-- The code is what the entry says: a right guess, the literal at `pos`, or the given reference. -/
def Trace.Says (d : List UInt8) (pos : Nat) (c : Code) : Trace → Prop
  | .correct => c.Describes d pos
  | .actuallyLiteral => ∃ b, c = .literal b ∧ d[pos]? = some b
  | .actually r => c = .reference r

/-- Code by code, the codes are what the entries say, and each starts inside the data; the first one
stands at `pos`. -/
def Restored (d : List UInt8) : Nat → List Trace → List Code → Prop
  | _, [], [] => True
  | pos, x :: xs, c :: cs => pos < d.length ∧ x.Says d pos c ∧ Restored d (pos + c.emittedBytes) xs cs
  | _, _, _ => False

/-- The same with a preroll: `w` is the preroll and the data. A literal that was not guessed is looked up in `look` at
the position counted from the start of the preroll. -/
def Trace.SaysAfter (w look : List UInt8) (pos : Nat) (c : Code) : Trace → Prop
  | .actuallyLiteral => ∃ b, c = .literal b ∧ look[pos]? = some b
  | x => x.Says w pos c

/-- The same with a preroll: `w` is the preroll and the data, `look` is where literals are looked up. -/
def RestoredAfter (w look : List UInt8) : Nat → List Trace → List Code → Prop
  | _, [], [] => True
  | pos, x :: xs, c :: cs =>
    pos < w.length ∧ x.SaysAfter w look pos c ∧ RestoredAfter w look (pos + c.emittedBytes) xs cs
  | _, _, _ => False

end Rezip
