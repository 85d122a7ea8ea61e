import Verif.Model.AllRefs

/-!
# Matches in a window

Written over the whole window `w` (the preroll followed by the data), by positions.
-/

namespace Rezip

/-- The three bytes at position `j`, if there are three. -/
def threeAt (w : List UInt8) (j : Nat) : Option Key :=
  match w[j]?, w[j + 1]?, w[j + 2]? with
  | some a, some b, some c => some { b0 := a, b1 := b, b2 := c }
  | _, _, _ => none

/-- The bytes at `pos` agree with those `dist` earlier for `n` bytes, all inside the window. -/
def MatchesFor (w : List UInt8) (pos dist n : Nat) : Prop :=
  pos + n ≤ w.length ∧ ∀ i, i < n → w[pos + i]? = w[pos + i - dist]?

/-- The three bytes at `j` have hash `h`. -/
def hashesTo (w : List UInt8) (h : Nat) (j : Nat) : Bool :=
  match threeAt w j with
  | some k => k.hash16 == h
  | none => false

/-- The positions below `n` satisfying `p`, latest first. -/
def latestFirst (p : Nat → Bool) (n : Nat) : List Nat := ((List.range n).filter p).reverse

end Rezip
