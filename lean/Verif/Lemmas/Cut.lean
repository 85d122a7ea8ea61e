import Verif.Props.Window

/-!
# Lemmas about cutting a block into several
-/

namespace Rezip

open Spec

namespace Cut

/-! ### The end of the block -/

/-- What is seen of the common prefix if the bytes end earlier. -/
theorem commonPrefix_cut (x y v : List UInt8) (h : x.length ≤ y.length) :
    commonPrefix x y = min (commonPrefix (x ++ v) (y ++ v)) x.length := by
  induction x generalizing y with
  | nil => simp [commonPrefix]
  | cons a x ih =>
    cases y with
    | nil => simp at h
    | cons b y =>
      rw [List.cons_append, List.cons_append, commonPrefix, commonPrefix]
      by_cases e : a = b
      · rw [if_pos e, if_pos e, ih y (by simpa using h), List.length_cons]
        omega
      · rw [if_neg e, if_neg e]
        simp

theorem three_cut (w v : List UInt8) {j : Nat} (h : j + 3 ≤ w.length) : three (w ++ v) j = three w j := by
  unfold three
  rw [List.drop_append_of_le_length (by omega)]
  have hl : (w.drop j).length = w.length - j := List.length_drop
  match hd : w.drop j with
  | [] => rw [hd] at hl; simp at hl; omega
  | [_] => rw [hd] at hl; simp at hl; omega
  | [_, _] => rw [hd] at hl; simp at hl; omega
  | _ :: _ :: _ :: _ => rfl

theorem three_end {w : List UInt8} {j : Nat} (h : w.length < j + 3) : three w j = none := by
  unfold three
  have : (w.drop j).length < 3 := by rw [List.length_drop]; omega
  match hd : w.drop j with
  | [] => rfl
  | [_] => rfl
  | [_, _] => rfl
  | a :: b :: c :: d => rw [hd] at this; simp at this; omega

/-- The candidates, if the bytes end earlier. -/
theorem candidates_cut (w v : List UInt8) (limit pos : Nat) (runs : List (Nat × Nat)) (h : pos + 3 ≤ w.length) :
    candidates w limit pos runs =
      (candidates (w ++ v) limit pos runs).map fun c => (c.1, min c.2 (w.length - pos)) := by
  have hs : searched (w ++ v) limit pos runs = searched w limit pos runs := by
    unfold searched
    congr 1
    refine List.filter_congr fun j hj => ?_
    have hj : j < pos := by simpa using hj
    unfold sameHash
    rw [three_cut w v h, three_cut w v (show j + 3 ≤ w.length by omega)]
  unfold candidates
  rw [hs, List.map_map]
  have hm : ∀ j ∈ searched w limit pos runs, j < pos := by
    intro j hj
    simpa using (List.mem_filter.1 (List.mem_of_mem_take hj)).1
  rw [List.filter_congr (q := fun j => decide (pos - j ≤ 32768) && three (w ++ v) j == three (w ++ v) pos) (by
    intro j hj
    have := hm j hj
    rw [three_cut w v h, three_cut w v (show j + 3 ≤ w.length by omega)])]
  refine List.map_congr_left fun j hj => ?_
  have := hm j (List.mem_filter.1 hj).1
  show (pos - j, min 258 (commonPrefix (w.drop pos) (w.drop j))) =
    (pos - j, min (min 258 (commonPrefix ((w ++ v).drop pos) ((w ++ v).drop j))) (w.length - pos))
  rw [List.drop_append_of_le_length (by omega), List.drop_append_of_le_length (by omega),
    commonPrefix_cut (w.drop pos) (w.drop j) v (by rw [List.length_drop, List.length_drop]; omega), List.length_drop]
  congr 1
  omega

theorem candidates_end {w : List UInt8} {limit pos : Nat} (runs : List (Nat × Nat)) (h : w.length < pos + 3) :
    candidates w limit pos runs = [] := by
  have : searched w limit pos runs = [] := by
    unfold searched
    rw [List.filter_eq_nil_iff.2, List.take_nil]
    intro j _
    unfold sameHash
    rw [three_end h]
    cases three w j <;> simp
  unfold candidates
  rw [this, List.filter_nil, List.map_nil]

theorem choose_cut {cap m : Nat} {cs : List (Nat × Nat)} {c : Nat × Nat} (h : choose cap cs = some c) (hm : c.2 ≤ m) :
    choose cap (cs.map fun c => (c.1, min c.2 m)) = some c := by
  unfold choose at h ⊢
  rw [List.find?_map]
  cases hf : cs.find? fun c => decide (cap ≤ c.2) with
  | some x =>
    rw [hf] at h
    cases h
    have hx : cap ≤ c.2 := by simpa using List.find?_some hf
    rw [show ((fun c : Nat × Nat => decide (cap ≤ c.2)) ∘ fun c : Nat × Nat => (c.1, min c.2 m)) =
      fun c => decide (cap ≤ c.2) from by
        funext y
        show decide (cap ≤ min y.2 m) = decide (cap ≤ y.2)
        rw [decide_eq_decide]
        omega, hf]
    show some (c.1, min c.2 m) = some c
    rw [Nat.min_eq_left hm]
  | none =>
    rw [hf] at h
    dsimp only at h
    have hall := List.find?_some h
    rw [List.all_eq_true] at hall
    have e : (cs.map fun c => (c.1, min c.2 m)) = cs := by
      rw [List.map_congr_left (g := id), List.map_id]
      intro y hy
      have : y.2 ≤ c.2 := by simpa using hall y hy
      show (y.1, min y.2 m) = y
      rw [Nat.min_eq_left (by omega)]
    rw [show ((fun c : Nat × Nat => decide (cap ≤ c.2)) ∘ fun c : Nat × Nat => (c.1, min c.2 m)) =
      (fun c => decide (cap ≤ min c.2 m)) from rfl]
    rw [List.find?_eq_none.2 (by
      intro y hy
      have := List.find?_eq_none.1 hf y hy
      simp only [decide_eq_true_eq] at this ⊢
      omega)]
    rw [e]
    exact h

theorem choose_nil (cap : Nat) : choose cap [] = none := rfl

theorem exists_longest (c : Nat × Nat) (l : List (Nat × Nat)) : ∃ m ∈ c :: l, ∀ d ∈ c :: l, d.2 ≤ m.2 := by
  induction l generalizing c with
  | nil => exact ⟨c, by simp, by simp⟩
  | cons d l ih =>
    obtain ⟨m, hm, hall⟩ := ih d
    by_cases h : m.2 ≤ c.2
    · refine ⟨c, by simp, fun x hx => ?_⟩
      rcases List.mem_cons.1 hx with rfl | hx
      · exact Nat.le_refl _
      · exact Nat.le_trans (hall x hx) h
    · refine ⟨m, List.mem_cons_of_mem _ hm, fun x hx => ?_⟩
      rcases List.mem_cons.1 hx with rfl | hx
      · omega
      · exact hall x hx

theorem choose_none {cap : Nat} {cs : List (Nat × Nat)} (h : choose cap cs = none) : cs = [] := by
  cases cs with
  | nil => rfl
  | cons c l =>
    exfalso
    unfold choose at h
    cases hf : (c :: l).find? fun c => decide (cap ≤ c.2) with
    | some x =>
      rw [hf] at h
      cases h
    | none =>
      rw [hf] at h
      dsimp only at h
      obtain ⟨m, hm, hall⟩ := exists_longest c l
      have := List.find?_eq_none.1 h m hm
      apply this
      rw [List.all_eq_true]
      intro d hd
      simpa using hall d hd

/-- The code at `pos` is guessed even if the bytes end after it. -/
theorem says_cut {st : Settings} {limit : Nat} {w v : List UInt8} {pos : Nat} {runs : List (Nat × Nat)} {c : Code}
    (hc : pos + c.emittedBytes ≤ w.length)
    (h : says (w ++ v) pos (guess st limit (w ++ v) pos runs) c = true) : says w pos (guess st limit w pos runs) c = true := by
  have key : ∀ x, choose st.nice ((candidates (w ++ v) limit pos runs).take st.chain) = some x → x.2 ≤ w.length - pos →
      pos + 3 ≤ w.length → choose st.nice ((candidates w limit pos runs).take st.chain) = some x := by
    intro x hx hle h3
    rw [candidates_cut w v limit pos runs h3, ← List.map_take]
    exact choose_cut hx hle
  cases c with
  | literal b =>
    have hc : pos + 1 ≤ w.length := hc
    simp only [says, Bool.and_eq_true, Option.isNone_iff_eq_none, beq_iff_eq] at h ⊢
    refine ⟨?_, by rw [List.getElem?_append_left (by omega)] at h; exact h.2⟩
    by_cases h3 : pos + 3 ≤ w.length
    · have hg := h.1
      unfold guess at hg ⊢
      cases hch : choose st.nice ((candidates (w ++ v) limit pos runs).take st.chain) with
      | none =>
        rw [candidates_cut w v limit pos runs h3, ← List.map_take, choose_none hch]
        rfl
      | some x =>
        rw [hch] at hg
        rw [key x hch ?_ h3]
        · exact hg
        · rw [Option.filter_some] at hg
          split at hg
          · cases hg
          · next hn =>
            simp only [Bool.or_eq_true, decide_eq_true_eq, not_or] at hn
            omega
    · unfold guess
      rw [candidates_end runs (by omega), List.take_nil, choose_nil]
      rfl
  | reference r =>
    have hc : pos + r.run ≤ w.length := hc
    have := r.three_le_run
    simp only [says, beq_iff_eq] at h ⊢
    unfold guess at h ⊢
    rw [Option.filter_eq_some_iff] at h ⊢
    exact ⟨key _ h.1 (by dsimp only; omega) (by omega), h.2⟩

/-! ### The start of the block -/

/-- The candidates, if the bytes in front are left out: only ones at distance 32768 are lost. -/
theorem candidates_front (x w : List UInt8) (limit pos : Nat) (hp : 32768 ≤ pos) :
    ∃ lost, candidates (x ++ w) limit (x.length + pos) [] = candidates w limit pos [] ++ lost ∧
      ∀ e ∈ lost, 32768 ≤ e.1 := by
  obtain ⟨q, rfl⟩ : ∃ q, pos = 1 + q := ⟨pos - 1, by omega⟩
  have hr : (List.range (x.length + (1 + q))).reverse =
      ((List.range q).reverse.map (fun j => x.length + (1 + j))) ++ (List.range (x.length + 1)).reverse := by
    rw [← Nat.add_assoc, List.range_add, List.reverse_append, ← List.map_reverse]
    congr 2
    funext j
    omega
  have hr' : (List.range (1 + q)).reverse = ((List.range q).reverse.map (fun j => 1 + j)) ++ [0] := by
    rw [List.range_add, List.reverse_append, ← List.map_reverse]
    rfl
  have e1 : ((fun j => decide (0 < j) && sameHash (x ++ w) j (x.length + (1 + q)) && !hidden [] j) ∘
      fun j => x.length + (1 + j)) =
      ((fun j => decide (0 < j) && sameHash w j (1 + q) && !hidden [] j) ∘ fun j => 1 + j) := by
    funext j
    show (decide (0 < x.length + (1 + j)) && sameHash (x ++ w) (x.length + (1 + j)) (x.length + (1 + q)) && true) =
      (decide (0 < 1 + j) && sameHash w (1 + j) (1 + q) && true)
    rw [sameHash_shift, decide_eq_true (by omega), decide_eq_true (by omega)]
  have e2 : ((fun j => decide (x.length + (1 + q) - j ≤ 32768) &&
      three (x ++ w) j == three (x ++ w) (x.length + (1 + q))) ∘ fun j => x.length + (1 + j)) =
      ((fun j => decide (1 + q - j ≤ 32768) && three w j == three w (1 + q)) ∘ fun j => 1 + j) := by
    funext j
    show (decide (x.length + (1 + q) - (x.length + (1 + j)) ≤ 32768) &&
      three (x ++ w) (x.length + (1 + j)) == three (x ++ w) (x.length + (1 + q))) = _
    rw [three_shift, three_shift, Nat.add_sub_add_left]
    rfl
  refine ⟨((((List.range (x.length + 1)).reverse.filter fun j => decide (0 < j) &&
    sameHash (x ++ w) j (x.length + (1 + q)) && !hidden [] j).take (limit - ((List.range q).reverse.filter
      ((fun j => decide (0 < j) && sameHash w j (1 + q) && !hidden [] j) ∘ fun j => 1 + j)).length)).filter
      fun j => decide (x.length + (1 + q) - j ≤ 32768) &&
        three (x ++ w) j == three (x ++ w) (x.length + (1 + q))).map
      fun j => (x.length + (1 + q) - j, min 258 (commonPrefix ((x ++ w).drop (x.length + (1 + q))) ((x ++ w).drop j))),
    ?_, ?_⟩
  · unfold candidates searched
    rw [hr, hr', List.filter_append, List.filter_append, List.filter_map, List.filter_map, e1,
      show List.filter (fun j => decide (0 < j) && sameHash w j (1 + q) && !hidden [] j) [0] = [] by simp,
      List.append_nil, List.take_append, List.filter_append, List.map_append, List.length_map]
    congr 1
    rw [← List.map_take, ← List.map_take, List.filter_map, List.filter_map, List.map_map, List.map_map, e2]
    refine List.map_congr_left fun j _ => ?_
    show (x.length + (1 + q) - (x.length + (1 + j)), _) = (1 + q - (1 + j), _)
    rw [Nat.add_sub_add_left]
    congr 2
    rw [List.drop_append, List.drop_append, List.drop_eq_nil_of_le (show x.length ≤ x.length + (1 + q) by omega),
      List.drop_eq_nil_of_le (show x.length ≤ x.length + (1 + j) by omega)]
    simp
  · intro e he
    obtain ⟨j, hj, rfl⟩ := List.mem_map.1 he
    have := List.mem_range.1 (List.mem_reverse.1 (List.mem_filter.1 (List.mem_of_mem_take (List.mem_filter.1 hj).1)).1)
    show 32768 ≤ x.length + (1 + q) - j
    omega

theorem candidates_three {w : List UInt8} {limit pos : Nat} {runs : List (Nat × Nat)} {c : Nat × Nat}
    (h : c ∈ candidates w limit pos runs) : 3 ≤ c.2 := by
  unfold candidates at h
  obtain ⟨j, hj, rfl⟩ := List.mem_map.1 h
  obtain ⟨h1, h2⟩ := List.mem_filter.1 hj
  have hh := (List.mem_filter.1 (List.mem_of_mem_take h1)).2
  simp only [Bool.and_eq_true, decide_eq_true_eq, beq_iff_eq] at h2 hh
  show 3 ≤ min 258 _
  have h3 := h2.2
  have hs := hh.1.2
  unfold sameHash at hs
  unfold three at h3 hs
  match hd : w.drop j, hp : w.drop pos with
  | a :: b :: c :: _, x :: y :: z :: _ =>
    rw [hd, hp] at h3
    cases h3
    simp only [commonPrefix, if_pos]
    omega
  | [], _ => rw [hd] at hs; simp at hs
  | [_], _ => rw [hd] at hs; simp at hs
  | [_, _], _ => rw [hd] at hs; simp at hs
  | _ :: _ :: _ :: _, [] => rw [hd, hp] at hs; simp at hs
  | _ :: _ :: _ :: _, [_] => rw [hd, hp] at hs; simp at hs
  | _ :: _ :: _ :: _, [_, _] => rw [hd, hp] at hs; simp at hs

theorem choose_front {cap : Nat} {a b : List (Nat × Nat)} {c : Nat × Nat} (h : choose cap (a ++ b) = some c)
    (hb : c ∉ b) : choose cap a = some c := by
  unfold choose at h ⊢
  rw [List.find?_append] at h
  cases hf : a.find? fun c => decide (cap ≤ c.2) with
  | some x =>
    rw [hf] at h
    exact h
  | none =>
    rw [hf] at h
    dsimp only [Option.none_or] at h
    cases hg : b.find? fun c => decide (cap ≤ c.2) with
    | some x =>
      rw [hg] at h
      cases h
      exact absurd (List.mem_of_find?_eq_some hg) hb
    | none =>
      rw [hg] at h
      dsimp only at h
      obtain ⟨hall, l₁, l₂, e, hno⟩ := List.find?_eq_some_iff_append.1 h
      rw [List.all_eq_true] at hall
      have hca : c ∈ a := by
        have : c ∈ a ++ b := by rw [e]; simp
        exact (List.mem_append.1 this).resolve_right hb
      show List.find? _ a = some c
      cases hx : a.find? fun c => a.all fun d => decide (d.2 ≤ c.2) with
      | none =>
        exfalso
        refine List.find?_eq_none.1 hx c hca ?_
        rw [List.all_eq_true]
        intro d hd
        exact hall d (List.mem_append.2 (.inl hd))
      | some x =>
        -- it is also the longest of all of them, and so it is found first
        have hxa := List.mem_of_find?_eq_some hx
        have hxall := List.find?_some hx
        rw [List.all_eq_true] at hxall
        have hxc : c.2 ≤ x.2 := by simpa using hxall c hca
        have : (a ++ b).find? (fun c => (a ++ b).all fun d => decide (d.2 ≤ c.2)) = some x := by
          rw [List.find?_append]
          have e' : a.find? (fun c => (a ++ b).all fun d => decide (d.2 ≤ c.2)) = some x := by
            obtain ⟨hp, m₁, m₂, em, hno'⟩ := List.find?_eq_some_iff_append.1 hx
            refine List.find?_eq_some_iff_append.2 ⟨?_, m₁, m₂, em, ?_⟩
            · rw [List.all_eq_true]
              intro d hd
              have : d.2 ≤ c.2 := by simpa using hall d hd
              simp only [decide_eq_true_eq]
              omega
            · intro y hy
              have := hno' y hy
              simp only [Bool.not_eq_true', List.all_eq_false] at this ⊢
              obtain ⟨d, hd, hd'⟩ := this
              exact ⟨d, List.mem_append.2 (.inl hd), hd'⟩
          rw [e']
          rfl
        rw [this] at h
        exact h

/-- The code at `pos` is guessed even if the bytes more than 32768 back are left out. -/
theorem says_front {st : Settings} (hn : 3 < st.nice) {limit : Nat} {x w : List UInt8} {pos : Nat} (hp : 32768 ≤ pos) {c : Code}
    (hc : ∀ r, c = .reference r → r.dist.toNat < 32768)
    (h : says (x ++ w) (x.length + pos) (guess st limit (x ++ w) (x.length + pos) []) c = true) :
    says w pos (guess st limit w pos []) c = true := by
  obtain ⟨lost, e, hl⟩ := candidates_front x w limit pos hp
  rw [says_shift] at h
  unfold guess at h ⊢
  rw [e, List.take_append] at h
  cases c with
  | literal b =>
    simp only [says, Bool.and_eq_true, Option.isNone_iff_eq_none] at h ⊢
    refine ⟨?_, h.2⟩
    have hg := h.1
    cases hch : choose st.nice ((candidates w limit pos []).take st.chain ++
        lost.take (st.chain - (candidates w limit pos []).length)) with
    | none =>
      rw [(List.append_eq_nil_iff.1 (choose_none hch)).1]
      rfl
    | some y =>
      rw [hch] at hg
      rw [Option.filter_some] at hg
      split at hg
      · cases hg
      next hy =>
        have h3 : y.2 ≤ 3 := by
          simp only [Bool.or_eq_true, decide_eq_true_eq, not_or] at hy
          omega
        cases ha : (candidates w limit pos []).take st.chain with
        | nil => rfl
        | cons z l =>
          have hz : 3 ≤ z.2 := by
            refine candidates_three (w := w) (limit := limit) (pos := pos) (runs := []) (List.mem_of_mem_take (i := st.chain) ?_)
            rw [ha]
            simp
          rw [ha] at hch
          have hyz : y = z := by
            unfold choose at hch
            split at hch
            · next c' hf =>
              cases hch
              have : st.nice ≤ y.2 := by simpa using List.find?_some hf
              omega
            · have hall := List.find?_some hch
              rw [List.all_eq_true] at hall
              rw [List.cons_append, List.find?_cons_of_pos] at hch
              · exact (Option.some.inj hch).symm
              · rw [List.all_eq_true]
                intro d hd
                have : d.2 ≤ y.2 := by simpa using hall d hd
                simp only [decide_eq_true_eq]
                omega
          subst hyz
          have hz : choose st.nice (y :: l) = some y := by
            unfold choose at hch ⊢
            split at hch
            · next c' hf =>
              cases hch
              have : st.nice ≤ y.2 := by simpa using List.find?_some hf
              omega
            · next hf =>
              have hall := List.find?_some hch
              rw [List.all_eq_true] at hall
              rw [List.find?_append, Option.or_eq_none_iff] at hf
              rw [hf.1]
              dsimp only
              rw [List.find?_cons_of_pos]
              rw [List.all_eq_true]
              intro d hd
              exact hall d (List.mem_append.2 (.inl hd))
          rw [hz, Option.filter_some, if_neg hy]
  | reference r =>
    simp only [says, beq_iff_eq] at h ⊢
    rw [Option.filter_eq_some_iff] at h ⊢
    refine ⟨choose_front h.1 ?_, h.2⟩
    intro hm
    have := hl _ (List.mem_of_mem_take hm)
    have := hc r rfl
    dsimp only at *
    omega

/-! ### Traces -/

/-- No reference is so long that positions inside it are hidden. -/
def Shown (st : Settings) (cs : List Code) : Prop := ∀ r, Code.reference r ∈ cs → ∀ l, st.insert = some l → r.run ≤ l

theorem Shown.of_none {st : Settings} (hi : st.insert = none) (cs : List Code) : Shown st cs := by
  intro r _ l hl
  rw [hi] at hl
  cases hl

theorem Shown.left {st : Settings} {cs ds : List Code} (h : Shown st (cs ++ ds)) : Shown st cs :=
  fun r hr => h r (List.mem_append.2 (.inl hr))

theorem Shown.right {st : Settings} {cs ds : List Code} (h : Shown st (cs ++ ds)) : Shown st ds :=
  fun r hr => h r (List.mem_append.2 (.inr hr))

/-- The trace of a part of the codes, where nothing is hidden. -/
theorem refTrace_cons {st : Settings} (limit : Nat) (w : List UInt8) (pos : Nat) (c : Code) (cs : List Code)
    (hi : Shown st (c :: cs)) :
    (∀ x ∈ refTrace st limit w pos [] (c :: cs), x = .correct) ↔
      says w pos (guess st limit w pos []) c = true ∧
      ∀ x ∈ refTrace st limit w (pos + c.emittedBytes) [] cs, x = .correct := by
  cases c with
  | literal b =>
    rw [refTrace, List.forall_mem_cons]
    refine and_congr ?_ Iff.rfl
    by_cases h : says w pos (guess st limit w pos []) (.literal b) = true
    · rw [if_pos h]
      exact ⟨fun _ => h, fun _ => rfl⟩
    · rw [if_neg h]
      exact ⟨fun h' => (nomatch h'), fun h' => absurd h' h⟩
  | reference r =>
    have hr : st.insert.any (fun l => decide (l < r.run)) = false := by
      cases hl : st.insert with
      | none => rfl
      | some l =>
        have := hi r (by simp) l hl
        exact decide_eq_false (by omega)
    rw [refTrace, List.forall_mem_cons, hr]
    refine and_congr ?_ Iff.rfl
    by_cases h : says w pos (guess st limit w pos []) (.reference r) = true
    · rw [if_pos h]
      exact ⟨fun _ => h, fun _ => rfl⟩
    · rw [if_neg h]
      exact ⟨fun h' => (nomatch h'), fun h' => absurd h' h⟩

theorem refTrace_append {st : Settings} (limit : Nat) (w : List UInt8) (pos : Nat) (cs ds : List Code)
    (hi : Shown st (cs ++ ds)) :
    (∀ x ∈ refTrace st limit w pos [] (cs ++ ds), x = .correct) ↔
      (∀ x ∈ refTrace st limit w pos [] cs, x = .correct) ∧
      ∀ x ∈ refTrace st limit w (pos + (cs.map Code.emittedBytes).sum) [] ds, x = .correct := by
  induction cs generalizing pos with
  | nil =>
    refine ⟨fun h => ⟨fun x hx => (nomatch hx), h⟩, fun h => h.2⟩
  | cons c cs ih =>
    rw [List.cons_append] at hi ⊢
    rw [refTrace_cons _ _ _ _ _ hi, refTrace_cons _ _ _ _ _ (Shown.left (ds := ds) hi), ih _ (Shown.right (cs := [c]) hi), and_assoc, List.map_cons, List.sum_cons, Nat.add_assoc]

theorem refTrace_cut {st : Settings} {limit : Nat} {w v : List UInt8} {pos : Nat} {cs : List Code} (hi : Shown st cs)
    (hc : pos + (cs.map Code.emittedBytes).sum ≤ w.length)
    (h : ∀ x ∈ refTrace st limit (w ++ v) pos [] cs, x = .correct) : ∀ x ∈ refTrace st limit w pos [] cs, x = .correct := by
  induction cs generalizing pos with
  | nil => intro x hx; cases hx
  | cons c cs ih =>
    rw [refTrace_cons _ _ _ _ _ hi] at h ⊢
    have hi := Shown.right (cs := [c]) hi
    rw [List.map_cons, List.sum_cons] at hc
    exact ⟨says_cut (by omega) h.1, ih hi (by omega) h.2⟩

theorem refTrace_front {st : Settings} (hn : 3 < st.nice) {limit : Nat} {x w : List UInt8} {pos : Nat}
    (hp : 32768 ≤ pos) {cs : List Code} (hi : Shown st cs) (hc : ∀ r, Code.reference r ∈ cs → r.dist.toNat < 32768)
    (h : ∀ y ∈ refTrace st limit (x ++ w) (x.length + pos) [] cs, y = .correct) :
    ∀ y ∈ refTrace st limit w pos [] cs, y = .correct := by
  induction cs generalizing pos with
  | nil => intro x hx; cases hx
  | cons c cs ih =>
    rw [refTrace_cons _ _ _ _ _ hi] at h ⊢
    have hi := Shown.right (cs := [c]) hi
    rw [Nat.add_assoc] at h
    exact ⟨says_front hn hp (fun r hr => hc r (by rw [hr]; simp)) h.1,
      ih (by omega) hi (fun r hr => hc r (List.mem_cons_of_mem _ hr)) h.2⟩

theorem window_append (h u : List UInt8) : window (h ++ u) = window (window h ++ u) := by
  unfold window
  rw [List.length_append, List.length_append, List.length_drop]
  generalize 32768 = n
  by_cases hl : h.length ≤ n
  · rw [Nat.sub_eq_zero_of_le hl, List.drop_zero, Nat.sub_zero]
  · rw [← List.drop_append_of_le_length (show h.length - n ≤ h.length by omega), List.drop_drop]
    congr 1
    omega

/-- A part of a block that is guessed is guessed as a block of its own. -/
theorem part {st : Settings} (hn : 3 < st.nice) {limit : Nat} {g u v : List UInt8} {cs : List Code} (hi : Shown st cs)
    (hs : (cs.map Code.emittedBytes).sum = u.length) (hc : ∀ r, Code.reference r ∈ cs → r.dist.toNat < 32768)
    (h : ∀ x ∈ refTrace st limit (g ++ (u ++ v)) g.length [] cs, x = .correct) :
    ∀ x ∈ refTrace st limit (window g ++ u) (window g).length [] cs, x = .correct := by
  rw [← List.append_assoc] at h
  have h := refTrace_cut hi (by rw [hs, List.length_append]; omega) h
  by_cases hl : g.length ≤ 32768
  · rw [window_short hl]
    exact h
  · obtain ⟨x, y, e, ew, hy⟩ := window_split (show 32768 ≤ g.length by omega)
    rw [ew]
    rw [e, List.append_assoc, List.length_append] at h
    exact refTrace_front hn hy hi hc h

end Cut

end Rezip
