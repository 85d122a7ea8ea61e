import Verif.Lemmas.CodeTreeAny
import Verif.Lemmas.BitReader

/-!
# C07-C10: any list of code lengths
-/

namespace Rezip

open Spec

/-- C07: more code lengths than a `u32` counts are an error. -/
theorem C07_too_many (lens : List Nat) (h : 4294967295 < lens.length) :
    CodeTree.new lens = .error (.err .tooManyLengths) := by
  unfold CodeTree.new
  rw [ensure_of (by simp; omega), Ex.ok_bind]
  have : decide (lens.length ≤ 4294967295) = false := by simp; omega
  rw [this]
  rfl

/-- C07: code lengths above fifteen are not refused; they count as unused. -/
theorem C07_above (lens : List Nat) :
    CodeTree.new lens = CodeTree.new (lens.map fun l => if 15 < l then 0 else l) := by
  have h : ∀ i, 1 ≤ i → i ≤ 15 → CodeTree.leavesAt lens i =
      CodeTree.leavesAt (lens.map fun l => if 15 < l then 0 else l) i := by
    intro i h1 h2
    unfold CodeTree.leavesAt
    rw [CodeTree.filter_zipIdx_map _ (fun l => by split <;> omega)]
  unfold CodeTree.new
  rw [List.length_map, CodeTree.levelsFrom_congr h (Nat.le_refl _)]

/-- C07: beyond 65536 of them, unused code lengths change nothing; -/
theorem C07_far_unused (lens far : List Nat) (h : lens.length = 65536) (hn : 65536 + far.length ≤ 4294967295)
    (hf : ∀ l ∈ far, l = 0) : CodeTree.new (lens ++ far) = CodeTree.new lens := by
  have e : ∀ i, 1 ≤ i → i ≤ 15 → CodeTree.leavesAt (lens ++ far) i = CodeTree.leavesAt lens i := by
    intro i h1 h2
    unfold CodeTree.leavesAt
    rw [List.zipIdx_append, List.filter_append, CodeTree.filter_zipIdx_none (lens := far) (fun l hl => by rw [hf l hl]; omega),
      List.append_nil]
  unfold CodeTree.new
  rw [CodeTree.levelsFrom_congr e (Nat.le_refl _), List.length_append, ensure_of (by simp; omega),
    ensure_of (by simp; omega), ensure_of (by simp; omega), ensure_of (by simp; omega)]

/-- C07: any other one makes it fail, with a panic unless the lengths are refused earlier. -/
theorem C07_far_used (lens far : List Nat) (h : lens.length = 65536) (hn : 65536 + far.length ≤ 4294967295)
    (l : Nat) (hl : l ∈ far) (h1 : 1 ≤ l) (h2 : l ≤ 15) :
    CodeTree.new (lens ++ far) = .error (.panic .unwrap) ∨ CodeTree.new (lens ++ far) = .error (.err .notATree) := by
  obtain ⟨k, hk⟩ := List.mem_iff_getElem?.1 hl
  unfold CodeTree.new
  rw [ensure_of (by simp; omega), Ex.ok_bind, ensure_of (by simp; omega), Ex.ok_bind]
  rcases CodeTree.levelsFrom_any (lens ++ far) 15 [] with ⟨out, _, h4⟩ | h3 | h3
  · have := h4 l h1 h2 (65536 + k) (by rw [List.getElem?_append_right (by omega), h]; simpa using hk)
    omega
  · rw [h3]; exact .inl rfl
  · rw [h3]; exact .inr rfl

/-- A length of sixteen is ignored. -/
example : CodeTree.new [1, 16, 1] = CodeTree.new [1, 0, 1] := C07_above [1, 16, 1]

/-- One code length too far. -/
example : CodeTree.new (List.replicate 65536 0 ++ [0, 1]) = .error (.panic .unwrap) ∨
    CodeTree.new (List.replicate 65536 0 ++ [0, 1]) = .error (.err .notATree) :=
  C07_far_used _ _ List.length_replicate (by decide) 1 (by simp) (by decide) (by decide)

/-- C08, for more lengths than the table has entries: the table has the canonical codes if the symbols beyond it are
unused, and making it panics otherwise. -/
theorem C08_wide (lens : List Nat) (hl : lens.length ≤ 65536) (h15 : ∀ l ∈ lens, l ≤ 15)
    (t : CodeTree) (ht : CodeTree.new lens = .ok t) :
    ((∀ s, 288 ≤ s → lens.getD s 0 = 0) → ∃ table, t.invert = .ok table ∧ table.length = 288 ∧
      (∀ s < 288, lens.getD s 0 = 0 → table[s]? = some none) ∧
      (∀ s < 288, lens.getD s 0 ≠ 0 → ∃ v, table[s]? = some (some v) ∧
        v.toBits = .ok (msbBits (lens.getD s 0) (codeValue lens s)))) ∧
    ((∃ s, 288 ≤ s ∧ lens.getD s 0 ≠ 0) → t.invert = .error (.panic .index)) := by
  have hT : CodeTree.IsTree lens t := ⟨hl, h15, ht⟩
  refine ⟨fun h => ⟨_, hT.invert_of h, by simp, ?_, ?_⟩, hT.invert_far⟩
  · intro s hs h0
    rw [List.getElem?_map, List.getElem?_range hs]
    simp [codeOf, -List.getD_eq_getElem?_getD, h0]
  · intro s hs h0
    refine ⟨BitVector.ofBits (msbBits (lens.getD s 0) (codeValue lens s)), ?_, BitVector.toBits_ofBits _⟩
    rw [List.getElem?_map, List.getElem?_range hs]
    simp [codeOf, -List.getD_eq_getElem?_getD, h0]

/-- C09, without the table: the canonical code of a symbol decodes to it, and what decodes is a canonical code. -/
theorem C09_wide (lens : List Nat) (hl : lens.length ≤ 65536) (h15 : ∀ l ∈ lens, l ≤ 15)
    (t : CodeTree) (ht : CodeTree.new lens = .ok t) (r : BitReader) (hw : r.WF) :
    (∀ s rest, lens.getD s 0 ≠ 0 → r.bits = msbBits (lens.getD s 0) (codeValue lens s) ++ rest →
      ∃ r', BitReader.run t.decodeSymbol r = .ok s r' ∧ r'.WF ∧ r'.bits = rest) ∧
    ((∃ s r', BitReader.run t.decodeSymbol r = .ok s r' ∧ r'.WF ∧ lens.getD s 0 ≠ 0 ∧
        r.bits = msbBits (lens.getD s 0) (codeValue lens s) ++ r'.bits) ∨
      ∃ r', BitReader.run t.decodeSymbol r = .error (.err .eof) r') := by
  have hT : CodeTree.IsTree lens t := ⟨hl, h15, ht⟩
  refine ⟨fun s rest h0 hb => BitReader.run_ok hw
    (by rw [hb]; exact hT.decode (by unfold codeOf; rw [if_neg h0]) rest), ?_⟩
  cases hd : t.decodeSymbol.exec r.bits with
  | ok s rest =>
    obtain ⟨c, hc, hb⟩ := hT.decode_inv hd
    obtain ⟨r', h1, h2, h3⟩ := BitReader.run_ok hw hd
    unfold codeOf at hc
    split at hc
    · cases hc
    · rename_i h0
      exact .inl ⟨s, r', h1, h2, h0, by rw [hb, h3, ← Option.some.inj hc]⟩
  | fail e => exact absurd hd CodeTree.IsTree.decode_ne_fail
  | starved =>
    obtain ⟨r', h1, _⟩ := BitReader.run_starved hw hd
    exact .inr ⟨r', h1⟩

/-- C10, without the table: no canonical code of an accepted list is a prefix of another one. -/
theorem C10_wide (lens : List Nat) (hl : lens.length ≤ 65536) (h15 : ∀ l ∈ lens, l ≤ 15)
    (t : CodeTree) (ht : CodeTree.new lens = .ok t) (s₁ s₂ : Nat) (h₁ : lens.getD s₁ 0 ≠ 0)
    (h₂ : lens.getD s₂ 0 ≠ 0)
    (hp : msbBits (lens.getD s₁ 0) (codeValue lens s₁) <+: msbBits (lens.getD s₂ 0) (codeValue lens s₂)) :
    s₁ = s₂ := by
  have hT : CodeTree.IsTree lens t := ⟨hl, h15, ht⟩
  obtain ⟨q, hq⟩ := hp
  have d1 := hT.decode (s := s₁) (by unfold codeOf; rw [if_neg h₁]) q
  have d2 := hT.decode (s := s₂) (by unfold codeOf; rw [if_neg h₂]) []
  rw [List.append_nil, ← hq, d1, ExecRes.ok.injEq] at d2
  exact d2.1

/-- A symbol beyond the table. -/
example : (CodeTree.new (1 :: List.replicate 299 0 ++ [1])).bind CodeTree.invert = .error (.panic .index) := by
  decide +kernel

end Rezip
