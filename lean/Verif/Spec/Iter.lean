import Verif.Model.Parse

/-!
# Specification vocabulary: driving the block iterator
-/

namespace Rezip.Spec

open Rezip Parse

/-- The iterator after `n` calls of `next`, whatever they returned. -/
def after : Nat → BlockIter → BlockIter
  | 0, it => it
  | n + 1, it => after n it.next.2

/-- What call number `n` (from zero) of `next` returns. -/
def item (n : Nat) (it : BlockIter) : Option (Except Fail Block) := (after n it).next.1

/-- The codes of a block. -/
def blockCodes : Block → List Code
  | .uncompressed _ => []
  | .fixedHuffman codes => codes
  | .dynamicHuffman _ codes => codes

/-- A reference inside the ranges of the format. -/
def RefOk (r : Ref) : Prop :=
  1 ≤ r.dist.toNat ∧ r.dist.toNat ≤ 32768 ∧ 3 ≤ r.run ∧ r.run ≤ 258

end Rezip.Spec
