import Verif.Model.CodeTree
import Verif.Spec.Huffman
import Verif.Lemmas.BitProg

/-! Trees built by `CodeTree::new` are the canonical Huffman trees. -/

namespace Rezip

open Spec

/-- The node reached by following a path of bits. -/
def Node.sub : Node → List Bool → Option Node
  | n, [] => some n
  | .leaf _, _ :: _ => none
  | .internal l r, b :: bs => if b then r.sub bs else l.sub bs

theorem Node.sub_append (n : Node) (p q : List Bool) :
    n.sub (p ++ q) = (n.sub p).bind fun m => m.sub q := by
  induction p generalizing n with
  | nil => simp [Node.sub]
  | cons b p ih =>
    cases n with
    | leaf s => simp [Node.sub]
    | internal l r => cases b <;> simp [Node.sub, ih]

theorem Node.sub_snoc (n m : Node) (p : List Bool) (x : Bool) :
    n.sub (p ++ [x]) = some m ↔
      ∃ l r, n.sub p = some (.internal l r) ∧ m = if x then r else l := by
  rw [Node.sub_append]
  cases n.sub p with
  | none => simp
  | some k =>
    cases k with
    | leaf s => simp [Node.sub]
    | internal l r => cases x <;> simp [Node.sub, eq_comm]

namespace CodeTree

/-! ### Symbols of a given length -/

/-- The positions (from `st`) holding length `i`. -/
def symsFrom (lens : List Nat) (st i : Nat) : List Nat :=
  ((lens.zipIdx st).filter (fun p => p.1 == i)).map (·.2)

theorem symsFrom_cons (x : Nat) (xs : List Nat) (st i : Nat) :
    symsFrom (x :: xs) st i =
      if x = i then st :: symsFrom xs (st + 1) i else symsFrom xs (st + 1) i := by
  simp only [symsFrom, List.zipIdx_cons, List.filter_cons]
  by_cases h : x = i <;> simp [h]

theorem symsFrom_length (lens : List Nat) (st i : Nat) :
    (symsFrom lens st i).length = lens.count i := by
  induction lens generalizing st with
  | nil => simp [symsFrom]
  | cons x xs ih =>
    rw [symsFrom_cons, List.count_cons]
    by_cases h : x = i <;> simp [h, ih]

theorem symsFrom_getElem? (lens : List Nat) (st i k s : Nat) :
    (symsFrom lens st i)[k]? = some s ↔
      ∃ j, s = st + j ∧ lens[j]? = some i ∧ (lens.take j).count i = k := by
  induction lens generalizing st k with
  | nil => simp [symsFrom]
  | cons x xs ih =>
    rw [symsFrom_cons]
    by_cases h : x = i
    · subst h
      simp only [if_true]
      cases k with
      | zero =>
        constructor
        · intro h; exact ⟨0, by simpa using h.symm, by simp, by simp⟩
        · rintro ⟨j, rfl, h2, h3⟩
          cases j with
          | zero => simp
          | succ j => simp at h3
      | succ k =>
        rw [List.getElem?_cons_succ, ih]
        constructor
        · rintro ⟨j, rfl, h2, h3⟩
          exact ⟨j + 1, by omega, by simpa using h2, by simp [h3]⟩
        · rintro ⟨j, rfl, h2, h3⟩
          cases j with
          | zero => simp at h3
          | succ j => exact ⟨j, by omega, by simpa using h2, by simpa using h3⟩
    · simp only [h, if_false]
      rw [ih]
      constructor
      · rintro ⟨j, rfl, h2, h3⟩
        exact ⟨j + 1, by omega, by simpa using h2, by simp [h, h3]⟩
      · rintro ⟨j, rfl, h2, h3⟩
        cases j with
        | zero => simp at h2; exact absurd h2 h
        | succ j => exact ⟨j, by omega, by simpa using h2, by simpa [h] using h3⟩

/-- The leaves added at depth `i`. -/
def leaves (lens : List Nat) (i : Nat) : List Node :=
  if i = 0 then [] else (symsFrom lens 0 i).map .leaf

theorem leaves_length (lens : List Nat) (i : Nat) : (leaves lens i).length = blCount lens i := by
  unfold leaves blCount
  split <;> simp [symsFrom_length]

theorem leaves_getElem? (lens : List Nat) (i k : Nat) (n : Node) :
    (leaves lens i)[k]? = some n ↔
      ∃ s, n = .leaf s ∧ i ≠ 0 ∧ lens[s]? = some i ∧ (lens.take s).count i = k := by
  unfold leaves
  by_cases h : i = 0
  · simp [h]
  · simp only [h, if_false, List.getElem?_map, Option.map_eq_some_iff, symsFrom_getElem?]
    constructor
    · rintro ⟨s, ⟨j, rfl, h1, h2⟩, rfl⟩
      exact ⟨0 + j, rfl, h, by simpa using h1, by simpa using h2⟩
    · rintro ⟨s, rfl, _, h1, h2⟩
      exact ⟨s, ⟨s, by omega, h1, h2⟩, rfl⟩

theorem mapM_leaf (ps : List (Nat × Nat)) (h : ∀ p ∈ ps, p.2 ≤ 65535) :
    (ps.mapM fun p => if p.2 ≤ 65535 then (.ok (Node.leaf p.2) : Except Fail Node)
      else .error (.panic .unwrap)) = .ok (ps.map fun p => Node.leaf p.2) := by
  induction ps with
  | nil => rfl
  | cons p ps ih =>
    rw [List.mapM_cons, if_pos (h p (by simp)), ih (fun q hq => h q (by simp [hq]))]
    rfl

theorem leavesAt_eq {lens : List Nat} (hl : lens.length ≤ 65536) (i : Nat) :
    leavesAt lens i = .ok ((symsFrom lens 0 i).map .leaf) := by
  unfold leavesAt
  rw [mapM_leaf]
  · simp [symsFrom]
  · intro p hp
    have h1 := (List.mem_filter.1 hp).1
    have h2 := List.snd_lt_of_mem_zipIdx h1
    omega

theorem pairUp_length (ns : List Node) : (pairUp ns).length = ns.length / 2 := by
  match ns with
  | [] => rfl
  | [_] => simp [pairUp]
  | a :: b :: rest =>
    have := pairUp_length rest
    simp only [pairUp, List.length_cons, this]; omega

theorem pairUp_getElem? (ns : List Node) (k : Nat) (n : Node) :
    (pairUp ns)[k]? = some n ↔
      ∃ l r, n = .internal l r ∧ ns[2 * k]? = some l ∧ ns[2 * k + 1]? = some r := by
  match ns, k with
  | [], k => simp [pairUp]
  | [a], k =>
    simp only [pairUp, List.getElem?_nil, reduceCtorEq, false_iff]
    rintro ⟨l, r, _, _, h⟩
    simp at h
  | a :: b :: rest, 0 =>
    simp only [pairUp, List.getElem?_cons_zero, Option.some.injEq, Nat.mul_zero, Nat.zero_add,
      List.getElem?_cons_succ]
    constructor
    · rintro rfl; exact ⟨a, b, rfl, rfl, rfl⟩
    · rintro ⟨l, r, rfl, rfl, rfl⟩; rfl
  | a :: b :: rest, k + 1 =>
    simp only [pairUp, List.getElem?_cons_succ, Nat.mul_add, Nat.mul_one]
    exact pairUp_getElem? rest k n

theorem level_eq {lens : List Nat} (hl : lens.length ≤ 65536) (i : Nat) (ns : List Node) :
    level lens i ns =
      if ns.length % 2 = 0 then .ok (leaves lens i ++ pairUp ns) else .error (.err .notATree) := by
  unfold level
  by_cases h : ns.length % 2 = 0
  · rw [ensure_of (by simp [h]), Ex.ok_bind, if_pos h]
    by_cases h0 : i = 0
    · simp [leaves, h0]
    · rw [if_pos (by omega), leavesAt_eq hl]
      simp [leaves, h0]
  · have : (ns.length % 2 == 0) = false := by simp [h]
    rw [this, ensure_false, Ex.error_bind, if_neg h]

/-! ### The forest, level by level -/

/-- The nodes at depth `16 - j`. -/
def nodesAt (lens : List Nat) : Nat → List Node
  | 0 => []
  | j + 1 => leaves lens (15 - j) ++ pairUp (nodesAt lens j)

theorem levelsFrom_eq {lens : List Nat} (hl : lens.length ≤ 65536) (i : Nat) (hi : i ≤ 15)
    (out : List Node) :
    levelsFrom lens i (nodesAt lens (15 - i)) = .ok out ↔
      (∀ j, 15 - i ≤ j → j ≤ 15 → (nodesAt lens j).length % 2 = 0) ∧ out = nodesAt lens 16 := by
  induction i with
  | zero =>
    rw [levelsFrom, level_eq hl]
    simp only [Nat.sub_zero]
    by_cases h : (nodesAt lens 15).length % 2 = 0
    · rw [if_pos h]
      constructor
      · intro h'
        exact ⟨fun j h1 h2 => by rw [show j = 15 by omega]; exact h, (Except.ok.inj h').symm⟩
      · rintro ⟨_, rfl⟩; rfl
    · rw [if_neg h]
      constructor
      · intro h'; cases h'
      · rintro ⟨h', _⟩; exact absurd (h' 15 (by omega) (by omega)) h
  | succ i ih =>
    rw [levelsFrom, level_eq hl]
    have hs : nodesAt lens (15 - i) =
        leaves lens (i + 1) ++ pairUp (nodesAt lens (15 - (i + 1))) := by
      rw [show 15 - i = (15 - (i + 1)) + 1 by omega, nodesAt]
      congr 2; omega
    by_cases h : (nodesAt lens (15 - (i + 1))).length % 2 = 0
    · rw [if_pos h, Ex.ok_bind, ← hs, ih (by omega)]
      constructor
      · rintro ⟨h1, h2⟩
        refine ⟨fun j h3 h4 => ?_, h2⟩
        by_cases hj : j = 15 - (i + 1)
        · rw [hj]; exact h
        · exact h1 j (by omega) h4
      · rintro ⟨h1, h2⟩
        exact ⟨fun j h3 h4 => h1 j (by omega) h4, h2⟩
    · rw [if_neg h, Ex.error_bind]
      constructor
      · intro h'; cases h'
      · rintro ⟨h', _⟩; exact absurd (h' _ (Nat.le_refl _) (by omega)) h

theorem levelsFrom_error {lens : List Nat} (hl : lens.length ≤ 65536) (i : Nat) (ns : List Node)
    (e : Fail) (h : levelsFrom lens i ns = .error e) : e = .err .notATree := by
  induction i generalizing ns with
  | zero =>
    rw [levelsFrom, level_eq hl] at h
    split at h <;> simp_all
  | succ i ih =>
    rw [levelsFrom, level_eq hl] at h
    split at h
    · exact ih _ h
    · simp only [Ex.error_bind, Except.error.injEq] at h; exact h.symm

/-- Every level of the forest pairs up without a rest. -/
def Even (lens : List Nat) : Prop := ∀ j, j ≤ 15 → (nodesAt lens j).length % 2 = 0

theorem levels_eq {lens : List Nat} (hl : lens.length ≤ 65536) (out : List Node) :
    levelsFrom lens 15 [] = .ok out ↔ Even lens ∧ out = nodesAt lens 16 := by
  have := levelsFrom_eq hl 15 (by omega) out
  simp only [Nat.sub_self, nodesAt, Nat.zero_le, forall_const] at this
  exact this

theorem new_eq_ok {lens : List Nat} (hl : lens.length ≤ 65536) (t : CodeTree) :
    CodeTree.new lens = .ok t ↔
      2 ≤ lens.length ∧ Even lens ∧ nodesAt lens 16 = [.internal t.left t.right] := by
  unfold CodeTree.new
  by_cases h2 : 2 ≤ lens.length
  · rw [ensure_of (by simpa using h2), Ex.ok_bind, ensure_of (by simp; omega), Ex.ok_bind]
    constructor
    · intro h
      obtain ⟨nodes, h3, h4⟩ := Ex.bind_eq_ok.1 h
      obtain ⟨he, rfl⟩ := (levels_eq hl nodes).1 h3
      refine ⟨h2, he, ?_⟩
      obtain ⟨_, h5, h6⟩ := Ex.bind_eq_ok.1 h4
      rw [ensure_eq_ok] at h5
      simp only [beq_iff_eq] at h5
      obtain ⟨n, hn⟩ := List.length_eq_one_iff.1 h5.symm
      rw [hn] at h6 ⊢
      cases n with
      | leaf s => simp at h6
      | internal l r =>
        simp only [Ex.pure_eq, Except.ok.injEq] at h6
        subst h6; rfl
    · rintro ⟨_, he, hn⟩
      rw [(levels_eq hl _).2 ⟨he, rfl⟩, Ex.ok_bind, hn]
      rfl
  · have : decide (lens.length ≥ 2) = false := by simpa using h2
    rw [this, ensure_false, Ex.error_bind]
    constructor
    · intro h; cases h
    · rintro ⟨h, _⟩; exact absurd h h2

theorem ensure_error {c : Bool} {x : Err} {e : Fail} (h : ensure c x = .error e) :
    ∃ x, e = .err x := by
  cases c
  · exact ⟨x, (Except.error.inj h).symm⟩
  · cases h

theorem new_error {lens : List Nat} (hl : lens.length ≤ 65536) {e : Fail}
    (h : CodeTree.new lens = .error e) : ∃ x, e = .err x := by
  unfold CodeTree.new at h
  rcases Ex.bind_eq_error.1 h with h | ⟨_, _, h⟩
  · exact ensure_error h
  rcases Ex.bind_eq_error.1 h with h | ⟨_, _, h⟩
  · exact ensure_error h
  rcases Ex.bind_eq_error.1 h with h | ⟨nodes, hn, h⟩
  · exact ⟨_, levelsFrom_error hl _ _ _ h⟩
  obtain ⟨_, rfl⟩ := (levels_eq hl nodes).1 hn
  rcases Ex.bind_eq_error.1 h with h | ⟨_, h1, h⟩
  · exact ensure_error h
  rw [ensure_eq_ok] at h1
  simp only [beq_iff_eq] at h1
  obtain ⟨n, hn⟩ := List.length_eq_one_iff.1 h1.symm
  rw [hn] at h
  cases n with
  | leaf s =>
    have : (nodesAt lens 16)[0]? = some (.leaf s) := by rw [hn]; rfl
    rw [nodesAt, show leaves lens (15 - 15) = [] from rfl, List.nil_append] at this
    obtain ⟨_, _, h, _⟩ := (pairUp_getElem? _ _ _).1 this
    cases h
  | internal l r => cases h

/-! ### Paths -/

theorem sub_nodesAt {lens : List Nat} {root : Node} (he : Even lens)
    (hr : nodesAt lens 16 = [root]) (d : Nat) (hd : d ≤ 16) (p : List Bool) (n : Node)
    (hp : p.length = d) :
    root.sub p = some n ↔
      ∃ k, (nodesAt lens (16 - d))[k]? = some n ∧ p = msbBits d (nextCode lens d + k) := by
  induction d generalizing p n with
  | zero =>
    have : p = [] := List.length_eq_zero_iff.1 hp
    subst this
    rw [hr]
    constructor
    · intro h
      refine ⟨0, ?_, rfl⟩
      simpa [Node.sub] using h
    · rintro ⟨k, h, _⟩
      cases k with
      | zero => simpa [Node.sub] using h
      | succ k => simp at h
  | succ d ih =>
    have hne : p ≠ [] := by rintro rfl; simp at hp
    obtain ⟨q, x, rfl⟩ : ∃ q x, p = q ++ [x] :=
      ⟨p.dropLast, p.getLast hne, (List.dropLast_concat_getLast hne).symm⟩
    have hq : q.length = d := by simpa using hp
    have hN : nodesAt lens (16 - d) =
        leaves lens d ++ pairUp (nodesAt lens (16 - (d + 1))) := by
      rw [show 16 - d = (16 - (d + 1)) + 1 by omega, nodesAt]
      congr 2; omega
    have heven := he (16 - (d + 1)) (by omega)
    have hlen := leaves_length lens d
    have hval : ∀ j (b : Bool), msbBits (d + 1) (nextCode lens (d + 1) + (2 * j + b.toNat)) =
        msbBits d (nextCode lens d + (blCount lens d + j)) ++ [b] := by
      intro j b
      rw [msbBits_succ, nextCode]
      have h1 : (2 * (nextCode lens d + blCount lens d) + (2 * j + b.toNat)) / 2 =
          nextCode lens d + (blCount lens d + j) := by cases b <;> simp <;> omega
      have h2 : (2 * (nextCode lens d + blCount lens d) + (2 * j + b.toNat)) % 2 = b.toNat := by
        cases b <;> simp <;> omega
      rw [h1, h2]
      cases b <;> rfl
    rw [Node.sub_snoc]
    constructor
    · rintro ⟨l, r, h1, h2⟩
      obtain ⟨k, h3, h4⟩ := (ih (by omega) q _ hq).1 h1
      rw [hN] at h3
      by_cases hk : k < (leaves lens d).length
      · rw [List.getElem?_append_left hk, leaves_getElem?] at h3
        obtain ⟨s, h3, _⟩ := h3
        cases h3
      · rw [List.getElem?_append_right (by omega), pairUp_getElem?] at h3
        obtain ⟨l', r', h5, h6, h7⟩ := h3
        cases h5
        obtain ⟨j, rfl⟩ : ∃ j, k = (leaves lens d).length + j := ⟨k - (leaves lens d).length, by omega⟩
        rw [Nat.add_sub_cancel_left] at h6 h7
        rw [hlen] at h4
        refine ⟨2 * j + x.toNat, ?_, ?_⟩
        · cases x
          · simpa [h2] using h6
          · simpa [h2] using h7
        · rw [hval, h4]
    · rintro ⟨k, h3, h4⟩
      obtain ⟨j, b, rfl⟩ : ∃ j, ∃ b : Bool, k = 2 * j + b.toNat :=
        ⟨k / 2, k % 2 == 1, by
          rcases Nat.mod_two_eq_zero_or_one k with h | h <;> simp [h] <;> omega⟩
      rw [hval] at h4
      obtain ⟨h5, h6⟩ := List.append_inj' h4 rfl
      have h6 : x = b := by simpa using h6
      subst h6
      have hlt : 2 * j + 1 < (nodesAt lens (16 - (d + 1))).length := by
        have h7 := List.getElem?_eq_some_iff.1 h3
        obtain ⟨h7, _⟩ := h7
        cases x <;> simp at h7 <;> omega
      refine ⟨(nodesAt lens (16 - (d + 1)))[2 * j], (nodesAt lens (16 - (d + 1)))[2 * j + 1], ?_, ?_⟩
      · rw [ih (by omega) q _ hq]
        refine ⟨blCount lens d + j, ?_, h5⟩
        rw [hN, List.getElem?_append_right (by omega), pairUp_getElem?, hlen,
          Nat.add_sub_cancel_left]
        exact ⟨_, _, rfl, List.getElem?_eq_getElem _, List.getElem?_eq_getElem _⟩
      · cases x
        · simp at h3
          obtain ⟨_, h3⟩ := List.getElem?_eq_some_iff.1 h3
          simpa using h3.symm
        · simp at h3
          obtain ⟨_, h3⟩ := List.getElem?_eq_some_iff.1 h3
          simpa using h3.symm

theorem nodesAt_count {lens : List Nat} (he : Even lens) (h1 : (nodesAt lens 16).length = 1)
    (d : Nat) (hd : d ≤ 16) :
    nextCode lens d + (nodesAt lens (16 - d)).length = 2 ^ d := by
  induction d with
  | zero => simp [nextCode, h1]
  | succ d ih =>
    have hN : nodesAt lens (16 - d) =
        leaves lens d ++ pairUp (nodesAt lens (16 - (d + 1))) := by
      rw [show 16 - d = (16 - (d + 1)) + 1 by omega, nodesAt]
      congr 2; omega
    have heven := he (16 - (d + 1)) (by omega)
    have := ih (by omega)
    rw [hN, List.length_append, leaves_length, pairUp_length] at this
    rw [nextCode, Nat.pow_succ]
    omega

/-- The leaves of the tree are exactly the canonical codes. -/
theorem sub_leaf_iff {lens : List Nat} (hl : lens.length ≤ 65536) (h15 : ∀ l ∈ lens, l ≤ 15)
    {t : CodeTree} (h : CodeTree.new lens = .ok t) (p : List Bool) (s : Nat) :
    (Node.internal t.left t.right).sub p = some (.leaf s) ↔ codeOf lens s = some p := by
  obtain ⟨h2, he, hr⟩ := (new_eq_ok hl t).1 h
  have hleaf : ∀ d, d ≤ 15 → ∀ k : Nat, (nodesAt lens (16 - d))[k]? = some (Node.leaf s) ↔
      (leaves lens d)[k]? = some (Node.leaf s) := by
    intro d hd k
    have hN : nodesAt lens (16 - d) =
        leaves lens d ++ pairUp (nodesAt lens (16 - (d + 1))) := by
      rw [show 16 - d = (16 - (d + 1)) + 1 by omega, nodesAt]
      congr 2; omega
    rw [hN]
    by_cases hk : k < (leaves lens d).length
    · rw [List.getElem?_append_left hk]
    · rw [List.getElem?_append_right (by omega), pairUp_getElem?,
        List.getElem?_eq_none (l := leaves lens d) (by omega)]
      simp
  constructor
  · intro hs
    have hd : p.length ≤ 15 := by
      apply Decidable.byContradiction
      intro hlt
      have hlt : 16 ≤ p.length := by omega
      rw [← List.take_append_drop 16 p, Node.sub_append] at hs
      cases h16 : (Node.internal t.left t.right).sub (p.take 16) with
      | none => rw [h16] at hs; simp at hs
      | some n =>
        obtain ⟨k, h3, _⟩ := (sub_nodesAt he hr 16 (by omega) _ _ (by simp; omega)).1 h16
        simp [nodesAt] at h3
    obtain ⟨k, h3, h4⟩ := (sub_nodesAt he hr _ (by omega) p _ rfl).1 hs
    rw [hleaf _ hd, leaves_getElem?] at h3
    obtain ⟨s', h5, h6, h7, h8⟩ := h3
    cases h5
    have hg : lens.getD s 0 = p.length := by simp [List.getD, h7]
    simp only [codeOf, hg, h6, if_false, codeValue, h8]
    rw [← h4]
  · intro hc
    unfold codeOf at hc
    split at hc
    · cases hc
    rename_i hne
    have hs : s < lens.length := by
      apply Decidable.byContradiction
      intro hge
      apply hne
      simp [List.getD, List.getElem?_eq_none (by omega : lens.length ≤ s)]
    have hg : lens.getD s 0 = lens[s] := by simp [List.getD, hs]
    have hle : lens[s] ≤ 15 := h15 _ (List.getElem_mem hs)
    rw [hg] at hc hne
    simp only [Option.some.injEq] at hc
    rw [sub_nodesAt he hr lens[s] (by omega) p _ (by rw [← hc]; simp)]
    refine ⟨(lens.take s).count lens[s], ?_, ?_⟩
    · rw [hleaf _ hle, leaves_getElem?]
      exact ⟨s, rfl, hne, by simp [hs], rfl⟩
    · rw [← hc, codeValue, hg]

/-! ### The Kraft equality -/

/-- Weight of the leaves in the `j` deepest levels. -/
def weight (lens : List Nat) : Nat → Nat
  | 0 => 0
  | j + 1 => weight lens j + blCount lens (15 - j) * 2 ^ j

theorem weight_nodesAt {lens : List Nat} (j : Nat)
    (he : ∀ i, i ≤ j → (nodesAt lens i).length % 2 = 0) :
    (nodesAt lens (j + 1)).length * 2 ^ j = weight lens (j + 1) := by
  induction j with
  | zero => simp [nodesAt, weight, leaves_length, pairUp]
  | succ j ih =>
    have h1 := ih fun i hi => he i (by omega)
    have h2 := he (j + 1) (by omega)
    rw [nodesAt, List.length_append, pairUp_length, leaves_length, weight, ← h1]
    generalize (nodesAt lens (j + 1)).length = n at *
    obtain ⟨m, rfl⟩ : ∃ m, n = 2 * m := ⟨n / 2, by omega⟩
    rw [Nat.mul_div_cancel_left _ (by omega), Nat.add_mul, Nat.pow_succ, Nat.add_comm]
    congr 1
    rw [Nat.mul_comm 2 m, Nat.mul_assoc, Nat.mul_comm 2 (2 ^ j)]

theorem blCount_cons (x : Nat) (xs : List Nat) (n : Nat) :
    blCount (x :: xs) n = blCount xs n + if n ≠ 0 ∧ x = n then 1 else 0 := by
  unfold blCount
  by_cases h : n = 0
  · simp [h]
  · by_cases hx : x = n <;> simp [h, hx]

theorem weight_cons (x : Nat) (xs : List Nat) (j : Nat) (hj : j ≤ 16) :
    weight (x :: xs) j =
      weight xs j + if x ≠ 0 ∧ x ≤ 15 ∧ 15 - x < j then 2 ^ (15 - x) else 0 := by
  induction j with
  | zero => simp [weight]
  | succ j ih =>
    rw [weight, weight, ih (by omega), blCount_cons]
    by_cases hx : 15 - j ≠ 0 ∧ x = 15 - j
    · have h1 : ¬ (x ≠ 0 ∧ x ≤ 15 ∧ 15 - x < j) := by omega
      have h2 : x ≠ 0 ∧ x ≤ 15 ∧ 15 - x < j + 1 := by omega
      rw [if_pos hx, if_neg h1, if_pos h2, show 15 - x = j by omega, Nat.add_mul]
      omega
    · rw [if_neg hx, Nat.add_zero]
      by_cases h1 : x ≠ 0 ∧ x ≤ 15 ∧ 15 - x < j
      · rw [if_pos h1, if_pos (by omega)]; omega
      · rw [if_neg h1, if_neg (by omega)]; omega

theorem kraft_eq_weight {lens : List Nat} (h15 : ∀ l ∈ lens, l ≤ 15) :
    kraft lens = weight lens 16 := by
  induction lens with
  | nil => simp [kraft, weight, blCount]
  | cons x xs ih =>
    have hx := h15 x (by simp)
    have := ih fun l hl => h15 l (by simp [hl])
    rw [weight_cons _ _ _ (by omega), ← this]
    simp only [kraft, List.map_cons, List.sum_cons]
    by_cases h0 : x = 0
    · simp [h0]
    · rw [if_neg h0, if_pos (by omega)]; omega

theorem weight_add (lens : List Nat) (j m : Nat) :
    ∃ x, weight lens (j + m) = weight lens j + 2 ^ j * x := by
  induction m with
  | zero => exact ⟨0, by simp⟩
  | succ m ih =>
    obtain ⟨x, hx⟩ := ih
    refine ⟨x + blCount lens (15 - (j + m)) * 2 ^ m, ?_⟩
    rw [← Nat.add_assoc, weight, hx, Nat.pow_add, Nat.mul_add, Nat.add_assoc]
    congr 2
    rw [← Nat.mul_assoc, Nat.mul_comm _ (2 ^ j), Nat.mul_assoc]

theorem even_iff_complete {lens : List Nat} (h15 : ∀ l ∈ lens, l ≤ 15) :
    Even lens ∧ (nodesAt lens 16).length = 1 ↔ Complete lens := by
  unfold Complete
  rw [kraft_eq_weight h15]
  constructor
  · rintro ⟨he, h1⟩
    rw [← weight_nodesAt 15 he, h1, Nat.one_mul]
  · intro hk
    have he : ∀ j, j ≤ 15 → ∀ i, i ≤ j → (nodesAt lens i).length % 2 = 0 := by
      intro j hj
      induction j with
      | zero => intro i hi; rw [show i = 0 by omega]; rfl
      | succ j ih =>
        intro i hi
        have ihj := ih (by omega)
        by_cases hij : i ≤ j
        · exact ihj i hij
        · rw [show i = j + 1 by omega]
          have h1 := weight_nodesAt j ihj
          obtain ⟨x, hx⟩ := weight_add lens (j + 1) (15 - j)
          have h15 : (2 : Nat) ^ 15 = 2 ^ j * (2 * 2 ^ (14 - j)) := by
            rw [← Nat.pow_succ', ← Nat.pow_add, show j + (14 - j + 1) = 15 by omega]
          rw [show j + 1 + (15 - j) = 16 by omega, hk, ← h1, h15,
            Nat.pow_succ, Nat.mul_comm _ (2 ^ j), Nat.mul_assoc, ← Nat.mul_add] at hx
          have := Nat.eq_of_mul_eq_mul_left (Nat.pow_pos (Nat.zero_lt_succ 1)) hx
          omega
    have he' : Even lens := fun i hi => he 15 (by omega) i hi
    refine ⟨he', ?_⟩
    have := weight_nodesAt 15 he'
    rw [hk] at this
    exact Nat.eq_of_mul_eq_mul_right (Nat.pow_pos (Nat.zero_lt_succ 1)) (this.trans (Nat.one_mul _).symm)

theorem new_ok_iff_complete {lens : List Nat} (h2 : 2 ≤ lens.length) (hl : lens.length ≤ 65536)
    (h15 : ∀ l ∈ lens, l ≤ 15) : (∃ t, CodeTree.new lens = .ok t) ↔ Complete lens := by
  rw [← even_iff_complete h15]
  constructor
  · rintro ⟨t, h⟩
    obtain ⟨_, he, hn⟩ := (new_eq_ok hl t).1 h
    exact ⟨he, by simp [hn]⟩
  · rintro ⟨he, h1⟩
    obtain ⟨n, hn⟩ := List.length_eq_one_iff.1 h1
    have : (nodesAt lens 16)[0]? = some n := by rw [hn]; rfl
    rw [nodesAt, show leaves lens (15 - 15) = [] from rfl, List.nil_append] at this
    obtain ⟨l, r, rfl, _⟩ := (pairUp_getElem? _ _ _).1 this
    exact ⟨⟨l, r⟩, (new_eq_ok hl _).2 ⟨h2, he, hn⟩⟩

/-! ### Decoding -/

theorem exec_decodeNode {n : Node} {p rest : List Bool} {s : Nat}
    (h : n.sub p = some (.leaf s)) : (decodeNode n).exec (p ++ rest) = .ok s rest := by
  induction n generalizing p with
  | leaf x =>
    cases p with
    | nil => simp [Node.sub] at h; simp [decodeNode, h]
    | cons b p => simp [Node.sub] at h
  | internal l r ihl ihr =>
    cases p with
    | nil => simp [Node.sub] at h
    | cons b p =>
      cases b
      · simpa [decodeNode] using ihl h
      · simpa [decodeNode] using ihr h

theorem exec_decodeNode_inv {n : Node} {bs rest : List Bool} {s : Nat}
    (h : (decodeNode n).exec bs = .ok s rest) :
    ∃ p, bs = p ++ rest ∧ n.sub p = some (.leaf s) := by
  induction n generalizing bs with
  | leaf x =>
    simp only [decodeNode, BitProg.exec_done, ExecRes.ok.injEq] at h
    exact ⟨[], by simp [h.2], by simp [Node.sub, h.1]⟩
  | internal l r ihl ihr =>
    cases bs with
    | nil => simp [decodeNode] at h
    | cons b bs =>
      cases b
      · obtain ⟨p, h1, h2⟩ := ihl (by simpa [decodeNode] using h)
        exact ⟨false :: p, by simp [h1], by simpa [Node.sub] using h2⟩
      · obtain ⟨p, h1, h2⟩ := ihr (by simpa [decodeNode] using h)
        exact ⟨true :: p, by simp [h1], by simpa [Node.sub] using h2⟩

theorem exec_decodeNode_ne_fail {n : Node} {bs : List Bool} {e : Fail} :
    (decodeNode n).exec bs ≠ .fail e := by
  induction n generalizing bs with
  | leaf x => simp [decodeNode]
  | internal l r ihl ihr =>
    cases bs with
    | nil => simp [decodeNode]
    | cons b bs =>
      cases b
      · simpa [decodeNode] using ihl
      · simpa [decodeNode] using ihr

/-- The facts about a tree that the rest of the development uses: it decodes the codes of `lens`. -/
structure IsTree (lens : List Nat) (t : CodeTree) : Prop where
  len : lens.length ≤ 65536
  le15 : ∀ l ∈ lens, l ≤ 15
  built : CodeTree.new lens = .ok t

theorem IsTree.decode {lens : List Nat} {t : CodeTree} (h : IsTree lens t) {s : Nat}
    {c : List Bool} (hc : codeOf lens s = some c) (rest : List Bool) :
    t.decodeSymbol.exec (c ++ rest) = .ok s rest :=
  exec_decodeNode ((sub_leaf_iff h.len h.le15 h.built c s).2 hc)

theorem IsTree.decode_inv {lens : List Nat} {t : CodeTree} (h : IsTree lens t) {s : Nat}
    {bs rest : List Bool} (hd : t.decodeSymbol.exec bs = .ok s rest) :
    ∃ c, codeOf lens s = some c ∧ bs = c ++ rest := by
  obtain ⟨p, h1, h2⟩ := exec_decodeNode_inv hd
  exact ⟨p, (sub_leaf_iff h.len h.le15 h.built p s).1 h2, h1⟩

theorem IsTree.decode_ne_fail {t : CodeTree} {bs : List Bool} {e : Fail} :
    t.decodeSymbol.exec bs ≠ .fail e := exec_decodeNode_ne_fail

theorem codeOf_lt {lens : List Nat} {s : Nat} {c : List Bool} (h : codeOf lens s = some c) :
    ∃ hs : s < lens.length, c.length = lens[s] ∧ lens[s] ≠ 0 := by
  unfold codeOf at h
  split at h
  · cases h
  rename_i hne
  have hs : s < lens.length := by
    apply Decidable.byContradiction
    intro hge
    apply hne
    simp [List.getD, List.getElem?_eq_none (by omega : lens.length ≤ s)]
  have hg : lens.getD s 0 = lens[s] := by simp [List.getD, hs]
  rw [hg] at h hne
  simp only [Option.some.injEq] at h
  exact ⟨hs, by rw [← h]; simp, hne⟩

/-! ### Inverting -/

theorem storeCode_eq {n : Node} {pre : List Bool} {into : List (Option BitVector)}
    (hlt : ∀ p s, n.sub p = some (.leaf s) → s < into.length)
    (hnone : ∀ p s, n.sub p = some (.leaf s) → into[s]? = some none)
    (hinj : ∀ p q s, n.sub p = some (.leaf s) → n.sub q = some (.leaf s) → p = q) :
    ∃ into', storeCode into (BitVector.ofBits pre) n = .ok into' ∧ into'.length = into.length ∧
      (∀ p s, n.sub p = some (.leaf s) → into'[s]? = some (some (BitVector.ofBits (pre ++ p)))) ∧
      (∀ s, (∀ p, n.sub p ≠ some (.leaf s)) → into'[s]? = into[s]?) := by
  induction n generalizing pre into with
  | leaf x =>
    have h0 := hnone [] x rfl
    have hx := hlt [] x rfl
    refine ⟨into.set x (some (BitVector.ofBits pre)), ?_, by simp, ?_, ?_⟩
    · simp only [storeCode, index, h0, Ex.ok_bind]
      rw [show assert (none : Option BitVector).isNone = .ok () from rfl, Ex.ok_bind,
        indexSet_ok hx]
    · intro p s hp
      cases p with
      | nil =>
        simp only [Node.sub, Option.some.injEq, Node.leaf.injEq] at hp
        subst hp
        simp [hx]
      | cons b p => simp [Node.sub] at hp
    · intro s hs
      have : x ≠ s := by
        rintro rfl
        exact hs [] rfl
      rw [List.getElem?_set_ne this]
  | internal l r ihl ihr =>
    have hl : ∀ p s, l.sub p = some (.leaf s) → (Node.internal l r).sub (false :: p) = some (.leaf s) :=
      fun p s h => by simpa [Node.sub] using h
    have hr : ∀ p s, r.sub p = some (.leaf s) → (Node.internal l r).sub (true :: p) = some (.leaf s) :=
      fun p s h => by simpa [Node.sub] using h
    obtain ⟨i1, e1, len1, in1, out1⟩ := ihl (pre := pre ++ [false]) (into := into)
      (fun p s h => hlt _ s (hl p s h)) (fun p s h => hnone _ s (hl p s h))
      (fun p q s h1 h2 => by simpa using hinj _ _ s (hl p s h1) (hl q s h2))
    have hdis : ∀ p s, r.sub p = some (.leaf s) → ∀ q, l.sub q ≠ some (.leaf s) := by
      intro p s h1 q h2
      have := hinj _ _ s (hl q s h2) (hr p s h1)
      simp at this
    obtain ⟨i2, e2, len2, in2, out2⟩ := ihr (pre := pre ++ [true]) (into := i1)
      (fun p s h => by rw [len1]; exact hlt _ s (hr p s h))
      (fun p s h => by rw [out1 s (hdis p s h)]; exact hnone _ s (hr p s h))
      (fun p q s h1 h2 => by simpa using hinj _ _ s (hr p s h1) (hr q s h2))
    refine ⟨i2, ?_, by rw [len2, len1], ?_, ?_⟩
    · simp only [storeCode, BitVector.push_ofBits, Ex.ok_bind, e1, e2]
    · intro p s hp
      cases p with
      | nil => simp [Node.sub] at hp
      | cons b p =>
        cases b
        · have hp' : l.sub p = some (.leaf s) := by simpa [Node.sub] using hp
          have hn : ∀ q, r.sub q ≠ some (.leaf s) := fun q hq => hdis q s hq p hp'
          rw [out2 s hn, in1 p s hp']
          simp
        · have hp' : r.sub p = some (.leaf s) := by simpa [Node.sub] using hp
          rw [in2 p s hp']
          simp
    · intro s hs
      rw [out2 s (fun p hp => hs _ (hr p s hp)), out1 s (fun p hp => hs _ (hl p s hp))]

/-- `invert` gives the table of canonical codes. -/
theorem IsTree.invert_of {lens : List Nat} {t : CodeTree} (h : IsTree lens t)
    (h288 : ∀ s, 288 ≤ s → lens.getD s 0 = 0) :
    t.invert = .ok ((List.range 288).map fun s => (codeOf lens s).map BitVector.ofBits) := by
  have hleaf := sub_leaf_iff h.len h.le15 h.built
  have hrange : ∀ p s, (Node.internal t.left t.right).sub p = some (.leaf s) → s < 288 := by
    intro p s hp
    obtain ⟨hs, _, h0⟩ := codeOf_lt ((hleaf p s).1 hp)
    refine Nat.lt_of_not_le fun hge => h0 ?_
    have := h288 s hge
    simpa [List.getD, hs] using this
  obtain ⟨out, e, len, hin, hout⟩ := storeCode_eq (n := .internal t.left t.right) (pre := [])
    (into := List.replicate 288 none)
    (fun p s hp => by rw [List.length_replicate]; exact hrange p s hp)
    (fun p s hp => by rw [List.getElem?_replicate, if_pos (hrange p s hp)])
    (fun p q s hp hq => by
      have := (hleaf p s).1 hp
      rw [(hleaf q s).1 hq] at this
      simpa using this.symm)
  have hinv : t.invert = storeCode (List.replicate 288 none) (BitVector.ofBits [])
      (.internal t.left t.right) := by
    rw [BitVector.ofBits_nil]; rfl
  rw [hinv, e]
  congr 1
  apply List.ext_getElem?
  intro s
  by_cases hs : s < 288
  · have hmap : ((List.range 288).map fun s => (codeOf lens s).map BitVector.ofBits)[s]? =
        some ((codeOf lens s).map BitVector.ofBits) := by
      rw [List.getElem?_map, List.getElem?_range hs]; rfl
    rw [hmap]
    cases hc : codeOf lens s with
    | none =>
      rw [hout s (fun p hp => by rw [(hleaf p s).1 hp] at hc; cases hc),
        List.getElem?_replicate, if_pos hs]
      rfl
    | some c => simpa using hin c s ((hleaf c s).2 hc)
  · rw [List.getElem?_eq_none (by rw [len, List.length_replicate]; omega),
      List.getElem?_eq_none (by simp; omega)]

theorem IsTree.invert {lens : List Nat} {t : CodeTree} (h : IsTree lens t)
    (h288 : lens.length ≤ 288) :
    t.invert = .ok ((List.range 288).map fun s => (codeOf lens s).map BitVector.ofBits) :=
  h.invert_of fun s hs => by simp [List.getD, List.getElem?_eq_none (by omega : lens.length ≤ s)]

end CodeTree

end Rezip
