import Verif.Lemmas.GzipDeflate

/-!
# Lemmas about how gzip chooses the codes at levels 4 to 9, and when there are few positions to search
-/

namespace Rezip

open Spec

namespace Spec.GzipDeflate

/-! ### Few positions -/

theorem sparse_mono {n m : Nat} {data : List UInt8} (h : Sparse n data) (hm : n ≤ m) : Sparse m data :=
  fun p => Nat.le_trans (h p) hm

theorem sparse_of_short {n : Nat} {data : List UInt8} (h : data.length ≤ n + 4) : Sparse n data := by
  intro p
  by_cases h3 : p + 3 ≤ data.length
  · cases p with
    | zero => simp
    | succ p =>
      rw [List.range_succ_eq_map, List.filter_cons_of_neg (by simp)]
      refine Nat.le_trans (List.length_filter_le _ _) ?_
      rw [List.length_map, List.length_range]
      omega
  · rw [List.filter_eq_nil_iff.2]
    · simp
    · intro j _
      unfold sameHash
      rw [three_none (show data.length < p + 3 by omega)]
      cases three data j <;> simp

theorem searched_length {n : Nat} {data : List UInt8} (hs : Sparse n data) (p : Nat) (runs : List (Nat × Nat)) :
    ((List.range p).reverse.filter fun j => decide (0 < j) && sameHash data j p && !hidden runs j).length ≤ n := by
  refine Nat.le_trans ?_ (hs p)
  rw [List.filter_reverse, List.length_reverse, ← List.countP_eq_length_filter, ← List.countP_eq_length_filter]
  refine List.countP_mono_left fun j _ h => ?_
  rw [Bool.and_eq_true] at h
  exact h.1

theorem earlier_length {n : Nat} {data : List UInt8} (hs : Sparse n data) {p : Nat} (h3 : p + 3 ≤ data.length)
    (runs : List (Nat × Nat)) : (earlier (key data runs (hashAt data p)) p).length ≤ n := by
  refine Nat.le_trans (Nat.le_of_eq ?_) (searched_length hs p runs)
  unfold earlier
  rw [List.filter_congr]
  intro j hj
  rw [sameHash_eq (by simpa using hj) h3]
  rfl

theorem searched_sparse {n a b : Nat} {data : List UInt8} (hs : Sparse n data) (ha : n ≤ a) (hb : n ≤ b) (p : Nat)
    (runs : List (Nat × Nat)) : searched data a p runs = searched data b p runs := by
  have := searched_length hs p runs
  unfold searched
  rw [List.take_of_length_le (by omega), List.take_of_length_le (by omega)]

theorem candidates_length (data : List UInt8) (n p : Nat) (runs : List (Nat × Nat)) :
    (candidates data n p runs).length ≤ n := by
  unfold candidates searched
  rw [List.length_map]
  refine Nat.le_trans (List.length_filter_le _ _) ?_
  rw [List.length_take]
  omega

/-- The guess, with few positions. -/
theorem guess_sparse {n : Nat} {data : List UInt8} (hs : Sparse n data) {st : Settings} {search : Nat} (h1 : n ≤ search)
    (h2 : n ≤ st.chain) (hf : st.dropFar = true) (p : Nat) (runs : List (Nat × Nat)) :
    guess st search data p runs = (guess { st with dropFar := false } st.chain data p runs).filter
      fun c => decide (3 < c.2) || decide (c.1 ≤ 4096) := by
  have e : candidates data search p runs = candidates data st.chain p runs := by
    unfold candidates
    rw [searched_sparse hs h1 h2]
  unfold guess
  rw [e, hf]
  dsimp only
  cases choose st.nice ((candidates data st.chain p runs).take st.chain) <;> simp

/-! ### `deflate_fast` -/

theorem find_sparse {n : Nat} {data : List UInt8} (hs : Sparse n data) {t : Tables} {p : Nat} {runs : List (Nat × Nat)}
    (h : Holds data t p runs) (hnear : Near data) (h3 : p + 3 ≤ data.length) (nice : Nat) {a b : Nat} (ha : n ≤ a)
    (hb : n ≤ b) : find nice a data t p = find nice b data t p := by
  have hp : ∀ j, 0 < j → j < p → hashAt data j = hashAt data p → p < j + maxDist := by
    intro j h0 hj e
    exact hnear j p h0 hj (by rw [sameHash_eq hj h3, e]; exact beq_self_eq_true _)
  have := earlier_length hs h3 runs
  rw [find_eq h hp, find_eq h hp, List.take_of_length_le (by omega), List.take_of_length_le (by omega)]

theorem fast_sparse {n : Nat} {data : List UInt8} (hs : Sparse n data) (hnear : Near data) (nice l : Nat) {a b : Nat}
    (ha : n ≤ a) (hb : n ≤ b) (fuel p : Nat) (t : Tables) (runs : List (Nat × Nat)) (h : Holds data t p runs) :
    fast nice l a data fuel p t = fast nice l b data fuel p t := by
  induction fuel generalizing p t runs with
  | zero => rfl
  | succ fuel ih =>
    rw [fast, fast]
    by_cases hd : p < data.length
    · rw [if_pos hd, if_pos hd]
      dsimp only
      rw [show (if t.head (hashAt data p) ≠ 0 ∧ p - t.head (hashAt data p) ≤ maxDist then
          longestMatch data (insertString data t p) p nice a (t.head (hashAt data p)) 2 0
          else (2, 0)) = find nice a data t p from rfl]
      rw [show (if t.head (hashAt data p) ≠ 0 ∧ p - t.head (hashAt data p) ≤ maxDist then
          longestMatch data (insertString data t p) p nice b (t.head (hashAt data p)) 2 0
          else (2, 0)) = find nice b data t p from rfl]
      by_cases h3 : p + 3 ≤ data.length
      · rw [find_sparse hs h hnear h3 nice ha hb]
        by_cases hl : 3 ≤ min (find nice b data t p).1 (data.length - p)
        · rw [if_pos hl, if_pos hl]
          congr 1
          by_cases hi : min (find nice b data t p).1 (data.length - p) ≤ l
          · rw [if_pos hi]
            refine ih _ _ runs ?_
            rw [show p + min (find nice b data t p).1 (data.length - p) =
              p + 1 + (min (find nice b data t p).1 (data.length - p) - 1) by omega]
            exact h.insert.inserts _
          · rw [if_neg hi]
            exact ih _ _ _ (h.insert.skip (by omega))
        · rw [if_neg hl, if_neg hl, ih _ _ runs h.insert]
      · rw [if_neg (by omega), if_neg (by omega), ih _ _ runs h.insert]
    · rw [if_neg hd, if_neg hd]

/-! ### The lazy search -/

theorem longestMatch_ge (data : List UInt8) (t : Tables) (p nice chain cur best start : Nat) :
    best ≤ (longestMatch data t p nice chain cur best start).1 := by
  induction chain generalizing cur best start with
  | zero => exact Nat.le_refl _
  | succ chain ih =>
    rw [longestMatch]
    dsimp only
    by_cases hb : best < equalBytes data cur p 258 ∧ nice ≤ equalBytes data cur p 258
    · rw [if_pos hb]
      exact Nat.le_of_lt hb.1
    · rw [if_neg hb]
      by_cases h' : best < equalBytes data cur p 258
      · rw [if_pos h']
        by_cases hn : p - maxDist < t.prev cur
        · rw [if_pos hn]
          exact Nat.le_trans (Nat.le_of_lt h') (ih _ _ _)
        · rw [if_neg hn]
          exact Nat.le_of_lt h'
      · rw [if_neg h']
        by_cases hn : p - maxDist < t.prev cur
        · rw [if_pos hn]
          exact ih _ _ _
        · rw [if_neg hn]
          exact Nat.le_refl _

/-- What `match_start` was before plays no part if something is found. -/
theorem longestMatch_start (data : List UInt8) (t : Tables) (p nice chain cur best s s' : Nat) :
    (longestMatch data t p nice chain cur best s = (best, s) ∧
      longestMatch data t p nice chain cur best s' = (best, s')) ∨
    (longestMatch data t p nice chain cur best s = longestMatch data t p nice chain cur best s' ∧
      best < (longestMatch data t p nice chain cur best s').1) := by
  induction chain generalizing cur with
  | zero => exact .inl ⟨rfl, rfl⟩
  | succ chain ih =>
    rw [longestMatch, longestMatch]
    dsimp only
    by_cases hb : best < equalBytes data cur p 258 ∧ nice ≤ equalBytes data cur p 258
    · rw [if_pos hb, if_pos hb]
      exact .inr ⟨rfl, hb.1⟩
    · rw [if_neg hb, if_neg hb]
      by_cases h' : best < equalBytes data cur p 258
      · rw [if_pos h', if_pos h']
        refine .inr ⟨rfl, ?_⟩
        by_cases hn : p - maxDist < t.prev cur
        · rw [if_pos hn]
          exact Nat.lt_of_lt_of_le h' (longestMatch_ge ..)
        · rw [if_neg hn]
          exact h'
      · rw [if_neg h', if_neg h']
        by_cases hn : p - maxDist < t.prev cur
        · rw [if_pos hn, if_pos hn]
          exact ih _
        · rw [if_neg hn, if_neg hn]
          exact .inl ⟨rfl, rfl⟩

theorem walk_found {data : List UInt8} {p nice : Nat} (l : List Nat) (best start : Nat) :
    (walk data p nice l best start).1 = best ∧ (∀ j ∈ l, equalBytes data j p 258 ≤ best) ∨
      ∃ j ∈ l, (walk data p nice l best start).1 = equalBytes data j p 258 ∧ best < equalBytes data j p 258 := by
  induction l generalizing best start with
  | nil => exact .inl ⟨rfl, fun j hj => by cases hj⟩
  | cons c l ih =>
    rw [walk]
    dsimp only
    by_cases hb : best < equalBytes data c p 258 ∧ nice ≤ equalBytes data c p 258
    · rw [if_pos hb]
      exact .inr ⟨c, by simp, rfl, hb.1⟩
    · rw [if_neg hb]
      by_cases h' : best < equalBytes data c p 258
      · rw [if_pos h']
        rcases ih (equalBytes data c p 258) c with ⟨h1, _⟩ | ⟨j, hj, h1, h2⟩
        · exact .inr ⟨c, by simp, h1, h'⟩
        · exact .inr ⟨j, List.mem_cons_of_mem _ hj, h1, by omega⟩
      · rw [if_neg h']
        rcases ih best start with ⟨h1, h2⟩ | ⟨j, hj, h1, h2⟩
        · refine .inl ⟨h1, fun j hj => ?_⟩
          rcases List.mem_cons.1 hj with rfl | hj
          · omega
          · exact h2 j hj
        · exact .inr ⟨j, List.mem_cons_of_mem _ hj, h1, h2⟩

/-- What `deflate` finds at `p`: `match_length` and `match_start`. -/
def foundAt (good maxLazy nice chain : Nat) (data : List UInt8) (t : Tables) (p prevLength prevMatch : Nat) : Nat × Nat :=
  if t.head (hashAt data p) ≠ 0 ∧ prevLength < maxLazy ∧ p - t.head (hashAt data p) ≤ maxDist then
    let m := longestMatch data (insertString data t p) p nice (if good ≤ prevLength then chain / 4 else chain)
      (t.head (hashAt data p)) prevLength prevMatch
    let len := min m.1 (data.length - p)
    if len = 3 ∧ 4096 < p - m.2 then (2, m.2) else (len, m.2)
  else (2, prevMatch)

theorem slow_succ (good maxLazy nice chain : Nat) (data : List UInt8) (fuel p : Nat) (t : Tables)
    (prevLength prevMatch : Nat) (available : Bool) (hd : p < data.length) :
    slow good maxLazy nice chain data (fuel + 1) p t prevLength prevMatch available =
      if 3 ≤ prevLength ∧ (foundAt good maxLazy nice chain data t p prevLength prevMatch).1 ≤ prevLength then
        .reference ⟨(p - 1 - prevMatch).toUInt16, (prevLength - 3).toUInt8⟩ ::
          slow good maxLazy nice chain data fuel (p + prevLength - 1)
            (insertStrings data (insertString data t p) (p + 1) (prevLength - 2)) 2
            (foundAt good maxLazy nice chain data t p prevLength prevMatch).2 false
      else if available then
        .literal (byte data (p - 1)) ::
          slow good maxLazy nice chain data fuel (p + 1) (insertString data t p)
            (foundAt good maxLazy nice chain data t p prevLength prevMatch).1
            (foundAt good maxLazy nice chain data t p prevLength prevMatch).2 true
      else slow good maxLazy nice chain data fuel (p + 1) (insertString data t p)
        (foundAt good maxLazy nice chain data t p prevLength prevMatch).1
        (foundAt good maxLazy nice chain data t p prevLength prevMatch).2 true := by
  rw [slow, if_pos hd]
  rfl

theorem foundAt_end {data : List UInt8} {p : Nat} (h3 : data.length < p + 3) (good maxLazy nice chain : Nat) (t : Tables)
    (prevLength prevMatch : Nat) : (foundAt good maxLazy nice chain data t p prevLength prevMatch).1 ≤ 2 := by
  unfold foundAt
  dsimp only
  by_cases hc : t.head (hashAt data p) ≠ 0 ∧ prevLength < maxLazy ∧ p - t.head (hashAt data p) ≤ maxDist
  · rw [if_pos hc]
    generalize longestMatch data (insertString data t p) p nice (if good ≤ prevLength then chain / 4 else chain)
      (t.head (hashAt data p)) prevLength prevMatch = m
    split
    · exact Nat.le_refl _
    · show min _ _ ≤ 2
      omega
  · rw [if_neg hc]
    exact Nat.le_refl _

/-- What was found at `p` is what is guessed there. -/
def Found (st : Settings) (data : List UInt8) (p : Nat) (m : Nat × Nat) : Prop :=
  (m.1 ≤ 2 ∧ guess st 65535 data p [] = none ∧ (m.1 = 2 ∨ data.length < p + 3)) ∨
  (3 ≤ m.1 ∧ m.1 ≤ 258 ∧ m.1 ≤ data.length - p ∧ m.2 < p ∧ p < m.2 + maxDist ∧
    guess st 65535 data p [] = some (p - m.2, m.1))

theorem foundAt_guess {n : Nat} {data : List UInt8} (hz : Clear data) (hnear : Near data) (hs : Sparse n data)
    {st : Settings} (h1 : n ≤ 65535) (h2 : n ≤ st.chain) (hf : st.dropFar = true) {t : Tables} {p : Nat}
    (h : Holds data t p []) (hd : p < data.length) {good maxLazy : Nat} (hg : 2 < good) (hl : 2 < maxLazy)
    (prevLength prevMatch : Nat) (hpl : prevLength = 2 ∨ data.length < p + 3) :
    Found st data p (foundAt good maxLazy st.nice st.chain data t p prevLength prevMatch) := by
  have hgs := guess_sparse hs h1 h2 hf p []
  have hfg := find_guess hz h hnear hd (st := { st with dropFar := false }) (search := st.chain) (Nat.le_refl _) rfl
  by_cases h3 : data.length < p + 3
  · refine .inl ⟨foundAt_end h3 .., ?_, .inr h3⟩
    rcases hfg with ⟨e, _⟩ | ⟨j, len, _, _, _, l3, _, _, e, _⟩
    · rw [hgs, e]
      rfl
    · have : len ≤ data.length - p := e ▸ Nat.min_le_right _ _
      exfalso
      clear e
      omega
  · have hpl : prevLength = 2 := hpl.resolve_right h3
    subst hpl
    dsimp only at hfg
    have none_case : guess { st with dropFar := false } st.chain data p [] = none → guess st 65535 data p [] = none := by
      intro e
      rw [hgs, e]
      rfl
    unfold find at hfg
    unfold foundAt
    by_cases hc : t.head (hashAt data p) ≠ 0 ∧ p - t.head (hashAt data p) ≤ maxDist
    · rw [if_pos hc] at hfg
      rw [if_pos ⟨hc.1, hl, hc.2⟩, if_neg (show ¬ good ≤ 2 by omega)]
      dsimp only
      rcases longestMatch_start data (insertString data t p) p st.nice st.chain (t.head (hashAt data p)) 2 prevMatch 0 with
        ⟨e1, e2⟩ | ⟨e1, e2⟩
      · rw [e2] at hfg
        rw [e1]
        dsimp only at hfg ⊢
        have hm : min 2 (data.length - p) = 2 := by omega
        rw [hm] at hfg ⊢
        rw [if_neg (by omega)]
        rcases hfg with ⟨e, _⟩ | ⟨j, len, _, _, _, l3, _, _, e, _⟩
        · exact .inl ⟨Nat.le_refl _, none_case e, .inl rfl⟩
        · omega
      · rw [e1]
        rcases hfg with ⟨_, e⟩ | ⟨j, len, j0, jp, jd, l3, l258, e, em, ej⟩
        · omega
        · rw [em, ej]
          by_cases hfar : len = 3 ∧ 4096 < p - j
          · rw [if_pos hfar]
            refine .inl ⟨Nat.le_refl _, ?_, .inl rfl⟩
            rw [hgs, e, Option.filter_some, if_neg]
            simp
            omega
          · rw [if_neg hfar]
            refine .inr ⟨l3, l258, by dsimp only; omega, jp, jd, ?_⟩
            rw [hgs, e, Option.filter_some, if_pos]
            simp
            omega
    · rw [if_neg hc] at hfg
      rw [if_neg (by intro h'; exact hc ⟨h'.1, h'.2.2⟩)]
      rcases hfg with ⟨e, _⟩ | ⟨j, len, _, _, _, l3, _, _, e, _⟩
      · exact .inl ⟨Nat.le_refl _, none_case e, .inl rfl⟩
      · have : min 2 (data.length - p) = len := e
        omega

theorem commonPrefix_drop_le (data : List UInt8) (j p : Nat) :
    commonPrefix (data.drop p) (data.drop j) ≤ data.length - p := by
  apply Decidable.byContradiction
  intro hn
  obtain ⟨b, hb, _⟩ := commonPrefix_spec (i := data.length - p) (Nat.lt_of_not_le hn)
  rw [List.getElem?_drop, List.getElem?_eq_none (by omega)] at hb
  cases hb

/-- The search after a match: a longer one is found if there is one. -/
theorem foundAt_longer {n : Nat} {data : List UInt8} (hz : Clear data) (hnear : Near data) (hs : Sparse n data)
    {nice chain : Nat} (h2 : n ≤ chain / 4) {t : Tables} {p : Nat} (h : Holds data t p []) (good maxLazy : Nat)
    {prevLength : Nat} (prevMatch : Nat) (hpl : 3 ≤ prevLength) :
    prevLength < (foundAt good maxLazy nice chain data t p prevLength prevMatch).1 ↔
      prevLength < maxLazy ∧ Longer data p prevLength := by
  by_cases h3 : p + 3 ≤ data.length
  · by_cases hl : prevLength < maxLazy
    · have hp : ∀ j, 0 < j → j < p → hashAt data j = hashAt data p → p < j + maxDist := by
        intro j h0 hj e
        exact hnear j p h0 hj (by rw [sameHash_eq hj h3, e]; exact beq_self_eq_true _)
      have hmem : ∀ j, j ∈ earlier (key data [] (hashAt data p)) p ↔ 0 < j ∧ j < p ∧ hashAt data j = hashAt data p := by
        intro j
        unfold earlier
        rw [List.mem_filter]
        simp [key, hidden]
        omega
      have hlong : Longer data p prevLength ↔
          ∃ j ∈ earlier (key data [] (hashAt data p)) p, prevLength < equalBytes data j p 258 := by
        constructor
        · rintro ⟨j, h0, hj, hlt⟩
          rw [← equalBytes_eq hz 258 j p h0 hj h3] at hlt
          refine ⟨j, (hmem j).2 ⟨h0, hj, ?_⟩, hlt⟩
          obtain ⟨b0, b1, b2⟩ := (equalBytes_three (data := data) j p 255).1 (by
            show 3 ≤ equalBytes data j p 258
            omega)
          unfold hashAt
          rw [b0, b1, b2]
        · rintro ⟨j, hj, hlt⟩
          obtain ⟨h0, hj, _⟩ := (hmem j).1 hj
          rw [equalBytes_eq hz 258 j p h0 hj h3] at hlt
          exact ⟨j, h0, hj, hlt⟩
      rw [hlong]
      have hlen := earlier_length hs h3 []
      unfold foundAt
      rw [h.head, latest]
      cases he : earlier (key data [] (hashAt data p)) p with
      | nil =>
        rw [if_neg (by simp)]
        constructor
        · intro h'
          have : prevLength < 2 := h'
          omega
        · rintro ⟨_, j, hj, _⟩
          cases hj
      | cons c rest =>
        obtain ⟨hc0, hcp, hch⟩ := (hmem c).1 (by rw [he]; simp)
        have := hp c hc0 hcp hch
        rw [List.headD_cons, if_pos ⟨by omega, hl, by omega⟩]
        dsimp only
        rw [longestMatch_eq h hp nice _ c rest prevLength prevMatch (.inl he), List.take_of_length_le (by
          rw [he] at hlen
          by_cases hgd : good ≤ prevLength
          · rw [if_pos hgd]
            omega
          · rw [if_neg hgd]
            omega)]
        rcases walk_found (data := data) (p := p) (nice := nice) (c :: rest) prevLength prevMatch with
          ⟨e, hno⟩ | ⟨j, hj, e, hlt⟩
        · rw [e]
          constructor
          · intro h'
            split at h' <;> dsimp only at h' <;> omega
          · rintro ⟨_, j, hj, hlt⟩
            have := hno j hj
            omega
        · rw [e]
          refine ⟨fun _ => ⟨hl, j, hj, hlt⟩, fun _ => ?_⟩
          obtain ⟨h0, hjp, _⟩ := (hmem j).1 (by rw [he]; exact hj)
          have hle := commonPrefix_drop_le data j p
          have heq := equalBytes_eq hz 258 j p h0 hjp h3
          have : min (equalBytes data j p 258) (data.length - p) = equalBytes data j p 258 := by omega
          rw [this, if_neg (by omega)]
          exact hlt
    · constructor
      · intro h'
        unfold foundAt at h'
        rw [if_neg (by intro h''; exact hl h''.2.1)] at h'
        have : prevLength < 2 := h'
        omega
      · intro h'
        exact absurd h'.1 hl
  · constructor
    · intro h'
      have := foundAt_end (show data.length < p + 3 by omega) good maxLazy nice chain t prevLength prevMatch
      omega
    · rintro ⟨_, j, h0, hj, hlt⟩
      have := commonPrefix_drop_le data j p
      omega

/-! ### All steps -/

/-- Wherever one of the codes starts and a match shorter than `maxLazy` is guessed, there is no longer one at the next
byte. -/
def Settled (st : Settings) (maxLazy : Nat) (data : List UInt8) (p : Nat) (cs : List Code) : Prop :=
  ∀ pre c post, cs = pre ++ c :: post → ∀ d len,
    guess st 65535 data (p + (pre.map Code.emittedBytes).sum) [] = some (d, len) → len < maxLazy →
      ¬ Longer data (p + (pre.map Code.emittedBytes).sum + 1) len

theorem settled_nil (st : Settings) (maxLazy : Nat) (data : List UInt8) (p : Nat) : Settled st maxLazy data p [] := by
  intro pre c post h
  cases pre <;> cases h

theorem settled_cons {st : Settings} {maxLazy : Nat} {data : List UInt8} {p : Nat} {c : Code} {cs : List Code} :
    Settled st maxLazy data p (c :: cs) ↔
      (∀ d len, guess st 65535 data p [] = some (d, len) → len < maxLazy → ¬ Longer data (p + 1) len) ∧
      Settled st maxLazy data (p + c.emittedBytes) cs := by
  constructor
  · intro h
    refine ⟨fun d len => h [] c cs rfl d len, ?_⟩
    intro pre x post e d len
    have := h (c :: pre) x post (by rw [e]; rfl) d len
    rw [List.map_cons, List.sum_cons, ← Nat.add_assoc] at this
    exact this
  · rintro ⟨h1, h2⟩ pre x post e d len
    cases pre with
    | nil =>
      cases e
      exact h1 d len
    | cons y pre =>
      cases e
      have := h2 pre x post rfl d len
      rw [List.map_cons, List.sum_cons, ← Nat.add_assoc]
      exact this

theorem slow_trace {n : Nat} {data : List UInt8} (hz : Clear data) (hnear : Near data) (hs : Sparse n data)
    {st : Settings} (h1 : n ≤ 65535) (h2 : n ≤ st.chain / 4) (hf : st.dropFar = true) (hi : st.insert = none)
    {good maxLazy : Nat} (hg : 2 < good) (hl : 2 < maxLazy) (fuel : Nat) :
    (∀ (p : Nat) (t : Tables) (m : Nat × Nat), Holds data t (p + 1) [] → p + 1 ≤ data.length →
      data.length ≤ p + fuel → Found st data p m →
      ((∀ x ∈ refTrace st 65535 data p [] (slow good maxLazy st.nice st.chain data fuel (p + 1) t m.1 m.2 true), x = .correct) ↔
        Settled st maxLazy data p (slow good maxLazy st.nice st.chain data fuel (p + 1) t m.1 m.2 true))) ∧
    (∀ (p : Nat) (t : Tables) (prevMatch : Nat), Holds data t p [] → p ≤ data.length → data.length < p + fuel →
      ((∀ x ∈ refTrace st 65535 data p [] (slow good maxLazy st.nice st.chain data fuel p t 2 prevMatch false), x = .correct) ↔
        Settled st maxLazy data p (slow good maxLazy st.nice st.chain data fuel p t 2 prevMatch false))) := by
  induction fuel with
  | zero =>
    refine ⟨fun p t m h hp hfu => by omega, fun p t m h hp hfu => by omega⟩
  | succ fuel ih =>
    obtain ⟨ihA, ihB⟩ := ih
    refine ⟨?_, ?_⟩
    · intro p t m h hp hfu hm
      have lit : ∀ cs, guess st 65535 data p [] = none →
          ((∀ x ∈ refTrace st 65535 data (p + 1) [] cs, x = .correct) ↔ Settled st maxLazy data (p + 1) cs) →
          ((∀ x ∈ refTrace st 65535 data p [] (.literal (byte data p) :: cs), x = .correct) ↔
            Settled st maxLazy data p (.literal (byte data p) :: cs)) := by
        intro cs hn hcs
        rw [settled_cons, refTrace, hn]
        have : byte data p = data[p] := by unfold byte; rw [List.getElem?_eq_getElem (by omega)]; rfl
        rw [if_pos (by rw [this]; simp [says, show p < data.length by omega]), List.forall_mem_cons]
        exact ⟨fun h => ⟨fun _ _ h' => (nomatch h'), hcs.1 h.2⟩, fun h => ⟨rfl, hcs.2 h.2⟩⟩
      by_cases hd : p + 1 < data.length
      · rw [slow_succ _ _ _ _ _ _ _ _ _ _ _ hd]
        rcases hm with ⟨m2, hgu, hpl⟩ | ⟨m3, m258, mle, mp, md, hgu⟩
        · rw [if_neg (by omega), if_pos rfl]
          refine lit _ hgu ?_
          exact ihA (p + 1) _ _ h.insert (by omega) (by omega)
            (foundAt_guess hz hnear hs h1 (by omega) hf h hd hg hl _ _ (by omega))
        · have hlong := foundAt_longer hz hnear hs (nice := st.nice) h2 h good maxLazy m.2 m3
          by_cases hle : (foundAt good maxLazy st.nice st.chain data t (p + 1) m.1 m.2).1 ≤ m.1
          · rw [if_pos ⟨m3, hle⟩]
            obtain ⟨x, e, xr, xd⟩ := Runs.back_run (d := p - m.2) m3 m258
            have e' : Code.reference ⟨(p + 1 - 1 - m.2).toUInt16, (m.1 - 3).toUInt8⟩ = .reference x := e
            have hx : x.dist.toNat = p - m.2 := by
              rw [xd]
              unfold maxDist at md
              show (UInt16.ofNat (p - m.2)).toNat = p - m.2
              rw [UInt16.toNat_ofNat_of_lt' (by show _ < 65536; omega)]
            rw [e', settled_cons, refTrace, hgu, hi, if_pos (by simp [says, hx, xr]), List.forall_mem_cons]
            rw [show (Code.reference x).emittedBytes = m.1 from xr, xr]
            have hB := ihB (p + m.1) (insertStrings data (insertString data t (p + 1)) (p + 1 + 1) (m.1 - 2))
              (foundAt good maxLazy st.nice st.chain data t (p + 1) m.1 m.2).2 (by
                rw [show p + m.1 = p + 1 + 1 + (m.1 - 2) by omega]
                exact h.insert.inserts _) (by omega) (by omega)
            rw [show p + 1 + m.1 - 1 = p + m.1 by omega]
            refine ⟨fun h => ⟨?_, hB.1 h.2⟩, fun h => ⟨rfl, hB.2 h.2⟩⟩
            intro d len e hlt hno
            cases e
            have := hlong.2 ⟨hlt, hno⟩
            omega
          · rw [if_neg (by omega), if_pos rfl, settled_cons, refTrace, hgu]
            have hl' := hlong.1 (by omega)
            constructor
            · intro h
              have := h _ (by exact List.mem_cons_self)
              simp [says] at this
            · intro h
              exact absurd hl'.2 (h.1 _ _ rfl hl'.1)
      · rw [slow, if_neg hd, if_pos rfl]
        refine lit [] ?_ ⟨fun _ => settled_nil _ _ _ _, fun _ x hx => by cases hx⟩
        rcases hm with ⟨_, hgu, _⟩ | ⟨m3, m258, mle, mp, md, hgu⟩
        · exact hgu
        · omega
    · intro p t prevMatch h hp hfu
      by_cases hd : p < data.length
      · rw [slow_succ _ _ _ _ _ _ _ _ _ _ _ hd, if_neg (by omega), if_neg (by simp)]
        exact ihA p _ _ h.insert (by omega) (by omega)
          (foundAt_guess hz hnear hs h1 (by omega) hf h hd hg hl _ _ (.inl rfl))
      · rw [slow, if_neg hd, if_neg (by simp)]
        exact ⟨fun _ => settled_nil _ _ _ _, fun _ x hx => by cases hx⟩

end Spec.GzipDeflate

end Rezip
