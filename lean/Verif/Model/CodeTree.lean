import Verif.Model.Bit

/-!
# lib/src/code_tree.rs
-/

namespace Rezip

/-- code_tree.rs:94-97. A leaf holds a `u16` symbol. -/
inductive Node
  | leaf (sym : Nat)
  | internal (left right : Node)
deriving DecidableEq, Repr

/-- code_tree.rs:12-15. -/
structure CodeTree where
  left : Node
  right : Node
deriving DecidableEq, Repr

namespace CodeTree

/-- code_tree.rs:36-42: a leaf for each position whose length is `i`, in order of position;
`u16::try_from(pos).expect(..)` panics for positions above 65535. -/
def leavesAt (lens : List Nat) (i : Nat) : Except Fail (List Node) :=
  (lens.zipIdx.filter (fun p => p.1 == i)).mapM fun p =>
    if p.2 ≤ 65535 then .ok (Node.leaf p.2) else .error (.panic .unwrap)

/-- code_tree.rs:47-50: `into_iter().tuples()` yields disjoint consecutive pairs (dropping a
trailing odd element, which line 30 excludes). -/
def pairUp : List Node → List Node
  | a :: b :: rest => .internal a b :: pairUp rest
  | _ => []

/-- The loop body code_tree.rs:30-53. -/
def level (lens : List Nat) (i : Nat) (nodes : List Node) : Except Fail (List Node) := do
  ensure (nodes.length % 2 == 0) .notATree
  let leaves ← if i > 0 then leavesAt lens i else pure []
  pure (leaves ++ pairUp nodes)

/-- code_tree.rs:28-54: `for i in (0..16).rev()`, here from `i` down to zero. -/
def levelsFrom (lens : List Nat) : Nat → List Node → Except Fail (List Node)
  | 0, nodes => level lens 0 nodes
  | i + 1, nodes => do
    let nodes ← level lens (i + 1) nodes
    levelsFrom lens i nodes

/-- code_tree.rs:18-65 `CodeTree::new`. Lengths are `u8`; the code only compares them with the
level, so any natural number is allowed here. -/
def new (lens : List Nat) : Except Fail CodeTree := do
  ensure (lens.length ≥ 2) .tooFewLengths
  ensure (lens.length ≤ 4294967295) .tooManyLengths
  let nodes ← levelsFrom lens 15 []
  ensure (1 == nodes.length) .nonCanonical
  match nodes with
  | .internal left right :: _ => pure { left := left, right := right }
  | .leaf _ :: _ => .error (.panic .explicit)
  | [] => .error (.panic .unwrap)

/-- code_tree.rs:81-92 `decode_symbol_impl`, phrased as "continue from a node". -/
def decodeNode : Node → BitProg Nat
  | .leaf sym => .done sym
  | .internal left right => .bit fun b => if b then decodeNode right else decodeNode left

/-- code_tree.rs:67-69. -/
def decodeSymbol (t : CodeTree) : BitProg Nat := decodeNode (.internal t.left t.right)

/-- code_tree.rs:123-134 `store_code`, with `plus_bit` (136-140) inlined as `push` on a copy. -/
def storeCode : List (Option BitVector) → BitVector → Node →
    Except Fail (List (Option BitVector))
  | into, pre, .leaf sym => do
    let old ← index into sym
    assert old.isNone
    indexSet into sym (some pre)
  | into, pre, .internal left right => do
    let l ← pre.push false
    let into ← storeCode into l left
    let r ← pre.push true
    storeCode into r right

/-- code_tree.rs:71-78. -/
def invert (t : CodeTree) : Except Fail (List (Option BitVector)) := do
  let into := List.replicate 288 none
  let l ← BitVector.new.push false
  let into ← storeCode into l t.left
  let r ← BitVector.new.push true
  storeCode into r t.right

end CodeTree

end Rezip
