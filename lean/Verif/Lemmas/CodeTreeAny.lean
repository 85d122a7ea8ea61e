import Verif.Lemmas.CodeTree

/-! Code lengths above fifteen, and more of them than symbols. -/

namespace Rezip

open Spec

namespace CodeTree

theorem level_congr {lens lens' : List Nat} (h : ∀ i, 1 ≤ i → i ≤ 15 → leavesAt lens i = leavesAt lens' i)
    {i : Nat} (hi : i ≤ 15) (nodes : List Node) : level lens i nodes = level lens' i nodes := by
  unfold level
  by_cases h0 : i > 0
  · rw [if_pos h0, if_pos h0, h i (by omega) hi]
  · rw [if_neg h0, if_neg h0]

theorem levelsFrom_congr {lens lens' : List Nat} (h : ∀ i, 1 ≤ i → i ≤ 15 → leavesAt lens i = leavesAt lens' i)
    {i : Nat} (hi : i ≤ 15) (nodes : List Node) : levelsFrom lens i nodes = levelsFrom lens' i nodes := by
  induction i generalizing nodes with
  | zero => rw [levelsFrom, levelsFrom, level_congr h hi]
  | succ i ih =>
    rw [levelsFrom, levelsFrom, level_congr h hi]
    exact congrArg _ (funext fun ns => ih (by omega) ns)

theorem filter_zipIdx_map (f : Nat → Nat) {i : Nat} (hf : ∀ l, f l = i ↔ l = i) (lens : List Nat) (k : Nat) :
    ((lens.map f).zipIdx k).filter (fun p => p.1 == i) = (lens.zipIdx k).filter (fun p => p.1 == i) := by
  induction lens generalizing k with
  | nil => rfl
  | cons l lens ih =>
    rw [List.map_cons, List.zipIdx_cons, List.zipIdx_cons, List.filter_cons, List.filter_cons, ih]
    by_cases h : l = i
    · subst h
      rw [(hf l).2 rfl]
    · have h1 : (f l == i) = false := by simpa using fun e => h ((hf l).1 e)
      have h2 : (l == i) = false := by simpa using h
      simp only [h1, h2]
      rfl

theorem filter_zipIdx_none {i : Nat} {lens : List Nat} (h : ∀ l ∈ lens, l ≠ i) (k : Nat) :
    (lens.zipIdx k).filter (fun p => p.1 == i) = [] := by
  rw [List.filter_eq_nil_iff]
  intro p hp
  have := List.fst_mem_of_mem_zipIdx hp
  simpa using h _ this

theorem mapM_const {α β : Type} {f : α → Except Fail β} {c : Fail} (hf : ∀ a e, f a = .error e → e = c)
    (xs : List α) : (∃ ys, xs.mapM f = .ok ys ∧ ∀ a ∈ xs, ∃ b, f a = .ok b) ∨ xs.mapM f = .error c := by
  induction xs with
  | nil => exact .inl ⟨[], rfl, by simp⟩
  | cons a xs ih =>
    rw [List.mapM_cons]
    cases h : f a with
    | error e => rw [hf a e h]; exact .inr rfl
    | ok b =>
      rw [Ex.ok_bind]
      rcases ih with ⟨ys, h1, h2⟩ | h1
      · rw [h1]
        refine .inl ⟨b :: ys, rfl, fun x hx => ?_⟩
        rcases List.mem_cons.1 hx with rfl | hx
        · exact ⟨b, h⟩
        · exact h2 x hx
      · rw [h1]; exact .inr rfl

theorem leavesAt_any (lens : List Nat) (i : Nat) :
    (∃ ns, leavesAt lens i = .ok ns ∧ ∀ k, lens[k]? = some i → k ≤ 65535) ∨
      leavesAt lens i = .error (.panic .unwrap) := by
  unfold leavesAt
  rcases mapM_const (f := fun p : Nat × Nat => if p.2 ≤ 65535 then .ok (Node.leaf p.2) else .error (.panic .unwrap))
    (c := .panic .unwrap) (fun a e h => by
      split at h
      · cases h
      · exact (Except.error.inj h).symm) (lens.zipIdx.filter (fun p => p.1 == i)) with ⟨ys, h1, h2⟩ | h1
  · refine .inl ⟨ys, h1, fun k hk => ?_⟩
    obtain ⟨b, hb⟩ := h2 (i, k) (List.mem_filter.2 ⟨List.mem_zipIdx_iff_getElem?.2 hk, by simp⟩)
    by_cases h : k ≤ 65535
    · exact h
    · rw [if_neg h] at hb; cases hb
  · exact .inr h1

theorem levelsFrom_any (lens : List Nat) (i : Nat) (ns : List Node) :
    (∃ out, levelsFrom lens i ns = .ok out ∧ ∀ j, 1 ≤ j → j ≤ i → ∀ k, lens[k]? = some j → k ≤ 65535) ∨
      levelsFrom lens i ns = .error (.panic .unwrap) ∨ levelsFrom lens i ns = .error (.err .notATree) := by
  have hlevel : ∀ i ns, (∃ out, level lens i ns = .ok out ∧ (1 ≤ i → ∀ k, lens[k]? = some i → k ≤ 65535)) ∨
      level lens i ns = .error (.panic .unwrap) ∨ level lens i ns = .error (.err .notATree) := by
    intro i ns
    unfold level
    by_cases h : ns.length % 2 = 0
    · rw [ensure_of (by simpa using h), Ex.ok_bind]
      by_cases h0 : i > 0
      · rw [if_pos h0]
        rcases leavesAt_any lens i with ⟨ls, h1, h2⟩ | h1
        · rw [h1]; exact .inl ⟨_, rfl, fun _ => h2⟩
        · rw [h1]; exact .inr (.inl rfl)
      · rw [if_neg h0]; exact .inl ⟨_, rfl, fun _ => by omega⟩
    · have : (ns.length % 2 == 0) = false := by simpa using h
      rw [this]; exact .inr (.inr rfl)
  induction i generalizing ns with
  | zero =>
    rw [levelsFrom]
    rcases hlevel 0 ns with ⟨out, h1, _⟩ | h1 | h1
    · exact .inl ⟨out, h1, by omega⟩
    · exact .inr (.inl h1)
    · exact .inr (.inr h1)
  | succ i ih =>
    rw [levelsFrom]
    rcases hlevel (i + 1) ns with ⟨mid, h1, h2⟩ | h1 | h1
    · rw [h1, Ex.ok_bind]
      rcases ih mid with ⟨out, h3, h4⟩ | h3
      · refine .inl ⟨out, h3, fun j hj1 hj2 => ?_⟩
        by_cases hj : j = i + 1
        · subst hj; exact h2 hj1
        · exact h4 j hj1 (by omega)
      · exact .inr h3
    · rw [h1]; exact .inr (.inl rfl)
    · rw [h1]; exact .inr (.inr rfl)

/-- A table without room for some symbol of the tree. -/
theorem storeCode_far {n : Node} {pre : List Bool} {into : List (Option BitVector)}
    (hnone : ∀ p s, n.sub p = some (.leaf s) → s < into.length → into[s]? = some none)
    (hinj : ∀ p q s, n.sub p = some (.leaf s) → n.sub q = some (.leaf s) → p = q)
    (hfar : ∃ p s, n.sub p = some (.leaf s) ∧ into.length ≤ s) :
    storeCode into (BitVector.ofBits pre) n = .error (.panic .index) := by
  induction n generalizing pre into with
  | leaf x =>
    obtain ⟨p, s, hp, hs⟩ := hfar
    cases p with
    | cons b p => simp [Node.sub] at hp
    | nil =>
      simp only [Node.sub, Option.some.injEq, Node.leaf.injEq] at hp
      subst hp
      simp only [storeCode, index, List.getElem?_eq_none hs]
      rfl
  | internal l r ihl ihr =>
    have hl : ∀ p s, l.sub p = some (.leaf s) → (Node.internal l r).sub (false :: p) = some (.leaf s) :=
      fun p s h => by simpa [Node.sub] using h
    have hr : ∀ p s, r.sub p = some (.leaf s) → (Node.internal l r).sub (true :: p) = some (.leaf s) :=
      fun p s h => by simpa [Node.sub] using h
    have hil : ∀ p q s, l.sub p = some (.leaf s) → l.sub q = some (.leaf s) → p = q :=
      fun p q s h1 h2 => by simpa using hinj _ _ s (hl p s h1) (hl q s h2)
    have hir : ∀ p q s, r.sub p = some (.leaf s) → r.sub q = some (.leaf s) → p = q :=
      fun p q s h1 h2 => by simpa using hinj _ _ s (hr p s h1) (hr q s h2)
    by_cases hf : ∃ p s, l.sub p = some (.leaf s) ∧ into.length ≤ s
    · simp only [storeCode, BitVector.push_ofBits, Ex.ok_bind,
        ihl (pre := pre ++ [false]) (into := into) (fun p s h hs => hnone _ s (hl p s h) hs) hil hf]
      rfl
    · have hlt : ∀ p s, l.sub p = some (.leaf s) → s < into.length := by
        intro p s h
        by_cases hs : s < into.length
        · exact hs
        · exact absurd ⟨p, s, h, by omega⟩ hf
      obtain ⟨i1, e1, len1, in1, out1⟩ := storeCode_eq (pre := pre ++ [false]) hlt
        (fun p s h => hnone _ s (hl p s h) (hlt p s h)) hil
      have hdis : ∀ p s, r.sub p = some (.leaf s) → ∀ q, l.sub q ≠ some (.leaf s) := by
        intro p s h1 q h2
        have := hinj _ _ s (hl q s h2) (hr p s h1)
        simp at this
      have hfr : ∃ p s, r.sub p = some (.leaf s) ∧ i1.length ≤ s := by
        obtain ⟨p, s, hp, hs⟩ := hfar
        cases p with
        | nil => simp [Node.sub] at hp
        | cons b p =>
          cases b
          · exact absurd ⟨p, s, by simpa [Node.sub] using hp, hs⟩ hf
          · exact ⟨p, s, by simpa [Node.sub] using hp, by omega⟩
      simp only [storeCode, BitVector.push_ofBits, Ex.ok_bind, e1]
      exact ihr (pre := pre ++ [true]) (into := i1)
        (fun p s h hs => by rw [out1 s (hdis p s h)]; exact hnone _ s (hr p s h) (by omega)) hir hfr

theorem IsTree.invert_far {lens : List Nat} {t : CodeTree} (h : IsTree lens t)
    (hfar : ∃ s, 288 ≤ s ∧ lens.getD s 0 ≠ 0) : t.invert = .error (.panic .index) := by
  have hleaf := sub_leaf_iff h.len h.le15 h.built
  have hinv : t.invert = storeCode (List.replicate 288 none) (BitVector.ofBits [])
      (.internal t.left t.right) := by
    rw [BitVector.ofBits_nil]; rfl
  rw [hinv]
  refine storeCode_far (fun p s _ hs => ?_) (fun p q s hp hq => ?_) ?_
  · rw [List.length_replicate] at hs
    rw [List.getElem?_replicate, if_pos hs]
  · have := (hleaf p s).1 hp
    rw [(hleaf q s).1 hq] at this
    simpa using this.symm
  · obtain ⟨s, h1, h2⟩ := hfar
    exact ⟨_, s, (hleaf _ s).2 (by unfold codeOf; rw [if_neg h2]), by rw [List.length_replicate]; exact h1⟩

end CodeTree

end Rezip
