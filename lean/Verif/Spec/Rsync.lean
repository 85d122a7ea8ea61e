/-!
# Content defined chunks

A boundary is a length of at least 8192 at which the last 8192 bytes add up to a multiple of 4096. The
first chunk of some data ends at the first boundary, but has at most 65536 bytes.
-/

namespace Rezip.Spec

/-- The sum of the last 8192 of the first `L` bytes. -/
def windowSum (d : List UInt8) (L : Nat) : Nat :=
  (((d.take L).drop (L - 8192)).map UInt8.toNat).sum

def Boundary (d : List UInt8) (L : Nat) : Prop := 8192 ≤ L ∧ windowSum d L % 4096 = 0

/-- The first chunk of `d` has `L` bytes. -/
def FirstChunk (d : List UInt8) (L : Nat) : Prop :=
  L ≤ d.length ∧ L ≤ 65536 ∧ (L = d.length ∨ L = 65536 ∨ Boundary d L) ∧
    ∀ L', L' < L → ¬ Boundary d L'

/-- The chunks of some data. -/
inductive Chunks : List UInt8 → List (List UInt8) → Prop
  | nil : Chunks [] []
  | cons (d : List UInt8) (L : Nat) (cs : List (List UInt8)) : d ≠ [] → FirstChunk d L →
      Chunks (d.drop L) cs → Chunks d (d.take L :: cs)

end Rezip.Spec
