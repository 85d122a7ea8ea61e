import Verif.Lemmas.Serialise

/-!
# Mean code length

C65.
-/

namespace Rezip

open Spec Serialise

theorem filterMap_range_getD (g : Nat → Option Nat) (h0 : g 0 = none) (l : List Nat) (n : Nat)
    (h : l.length ≤ n) :
    (List.range n).filterMap (fun s => g (l.getD s 0)) = l.filterMap g := by
  induction l generalizing n with
  | nil =>
    rw [List.filterMap_nil, List.filterMap_eq_nil_iff]
    intro s _
    simpa using h0
  | cons x l ih =>
    cases n with
    | zero => simp at h
    | succ n =>
      have := ih n (by simpa using h)
      rw [List.range_succ_eq_map, List.filterMap_cons, List.filterMap_cons, List.filterMap_map, ← this]
      rfl

theorem lengths_filterMap (lens : List Nat) (h : lens.length ≤ 288) :
    ((List.range 288).map fun s => (codeOf lens s).map List.length).filterMap id =
      lens.filter (fun l => l != 0) := by
  rw [List.filterMap_map, ← List.filterMap_eq_filter]
  rw [← filterMap_range_getD _ (by rfl) lens 288 h]
  congr 1
  funext s
  show (codeOf lens s).map List.length = Option.guard _ _
  unfold codeOf Option.guard
  by_cases hz : lens.getD s 0 = 0
  · rw [if_pos hz, if_neg (by rw [hz]; simp)]; rfl
  · rw [if_neg hz, if_pos (by simpa using hz), Option.map_some, msbBits_length]

/-- C65. For any literal code, with `n` used symbols of total length `total`, the mean is
`total / (n + 1)` rounded down, plus one, which is the one number with
`(n + 1) * (mean - 1) ≤ total < (n + 1) * mean`; it is never zero and never above 15. -/
theorem C65_mean (lit dist : List Nat) (lt dt : CodeTree) (hl : CodeTree.new lit = .ok lt)
    (hd : CodeTree.new dist = .ok dt) (hl288 : lit.length ≤ 288) (hd288 : dist.length ≤ 288)
    (hl15 : ∀ l ∈ lit, l ≤ 15) (hd15 : ∀ l ∈ dist, l ≤ 15) :
    ∃ L, Lengths.new lt dt = .ok L ∧
      let used := lit.filter (fun l => l != 0)
      1 ≤ L.meanLiteralLen ∧ L.meanLiteralLen ≤ 15 ∧
      (used.length + 1) * (L.meanLiteralLen - 1) ≤ used.sum ∧
      used.sum < (used.length + 1) * L.meanLiteralLen := by
  have tl : CodeTree.IsTree lit lt := ⟨by omega, hl15, hl⟩
  have td : CodeTree.IsTree dist dt := ⟨by omega, hd15, hd⟩
  refine ⟨_, by
    unfold Lengths.new
    rw [treeToLengths_eq tl hl288, Ex.ok_bind, treeToLengths_eq td hd288]
    rfl, ?_⟩
  dsimp only
  rw [lengths_filterMap lit hl288]
  have hs : (lit.filter (fun l => l != 0)).sum ≤ 15 * (lit.filter (fun l => l != 0)).length := by
    clear hl hl288 tl
    generalize hu : lit.filter (fun l => l != 0) = u
    have : ∀ x ∈ u, x ≤ 15 := by
      intro x hx; rw [← hu] at hx; exact hl15 x (List.mem_filter.1 hx).1
    clear hu
    induction u with
    | nil => simp
    | cons x u ih =>
      have := ih fun y hy => this y (by simp [hy])
      have := this
      have hx : x ≤ 15 := by simp_all
      rw [List.sum_cons, List.length_cons]
      omega
  generalize lit.filter (fun l => l != 0) = u at hs
  generalize u.sum = S at hs
  generalize u.length = n at hs
  have e : (S + (1 + n)) / (1 + n) = S / (n + 1) + 1 := by
    rw [Nat.add_comm 1 n, Nat.add_div_right _ (by omega)]
  have hb : S / (n + 1) ≤ 14 := by
    have : S < 15 * (n + 1) := by omega
    have := Nat.div_lt_of_lt_mul (show S < (n + 1) * 15 by omega)
    omega
  rw [e, Nat.mod_eq_of_lt (by omega)]
  refine ⟨Nat.le_add_left 1 _, by omega, ?_, ?_⟩
  · rw [Nat.add_sub_cancel]
    exact Nat.mul_div_le S (n + 1)
  · exact Nat.lt_mul_div_succ S (by omega)

/-- The fixed literal code: 288 symbols, 2392 bits in all, mean 9; and a code with two symbols. -/
example : (match Huffman.fixedLengthTree, Huffman.fixedDistanceTree with
    | .ok lt, .ok dt => (Lengths.new lt dt).map Lengths.meanLiteralLen
    | _, _ => .error .diverge) = .ok 9 := by decide +kernel

example : (match CodeTree.new [1, 0, 1], CodeTree.new [1, 1] with
    | .ok lt, .ok dt => (Lengths.new lt dt).map Lengths.meanLiteralLen
    | _, _ => .error .diverge) = .ok 1 := by decide +kernel

end Rezip
