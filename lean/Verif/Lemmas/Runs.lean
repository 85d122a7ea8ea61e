import Verif.Spec.Runs
import Verif.Spec.FileTrace
import Verif.Lemmas.Circles

/-!
# Lemmas about a byte repeated
-/

namespace Rezip

open Spec

namespace Runs

theorem back_run {d r : Nat} (h3 : 3 ≤ r) (h258 : r ≤ 258) :
    ∃ x : Ref, back d r = .reference x ∧ x.run = r ∧ x.dist = d.toUInt16 := by
  refine ⟨⟨d.toUInt16, (r - 3).toUInt8⟩, rfl, ?_, rfl⟩
  show ((r - 3).toUInt8).toNat + 3 = r
  rw [Nat.toUInt8_eq, UInt8.toNat_ofNat_of_lt' (by show _ < 256; omega)]
  omega

/-! ### The guess in a window of one byte -/

theorem three_replicate (b : UInt8) (m j : Nat) :
    three (List.replicate m b) j = if j + 3 ≤ m then some (b, b, b) else none := by
  unfold three
  rw [List.drop_replicate]
  by_cases h : j + 3 ≤ m
  · obtain ⟨k, hk⟩ : ∃ k, m - j = k + 3 := ⟨m - j - 3, by omega⟩
    rw [hk, if_pos h]
    rfl
  · rw [if_neg h]
    have : m - j = 0 ∨ m - j = 1 ∨ m - j = 2 := by omega
    rcases this with e | e | e <;> rw [e] <;> rfl

theorem commonPrefix_replicate (b : UInt8) (x y : Nat) :
    commonPrefix (List.replicate x b) (List.replicate y b) = min x y := by
  induction x generalizing y with
  | zero => simp [commonPrefix]
  | succ x ih =>
    cases y with
    | zero => simp [commonPrefix, List.replicate_succ]
    | succ y =>
      rw [List.replicate_succ, List.replicate_succ, commonPrefix, if_pos rfl, ih]
      omega

/-- Without three bytes, nothing is found. -/
theorem guess_end (st : Settings) (search : Nat) (b : UInt8) (m pos : Nat) (runs : List (Nat × Nat)) (h : m < pos + 3) :
    guess st search (List.replicate m b) pos runs = none := by
  have : searched (List.replicate m b) search pos runs = [] := by
    unfold searched
    rw [List.filter_eq_nil_iff.2, List.take_nil]
    intro j _
    unfold sameHash
    rw [three_replicate b m pos, if_neg (by omega)]
    cases three (List.replicate m b) j <;> simp
  unfold guess candidates
  rw [this, List.filter_nil, List.map_nil, List.take_nil]
  rfl

/-- At the first two bytes, nothing is found. -/
theorem guess_start (st : Settings) (search : Nat) (w : List UInt8) (pos : Nat) (runs : List (Nat × Nat))
    (h : pos < 2) : guess st search w pos runs = none := by
  have : searched w search pos runs = [] := by
    unfold searched
    rw [List.filter_eq_nil_iff.2, List.take_nil]
    intro j hj
    have : j < pos := by simpa using hj
    have : j = 0 := by omega
    subst this
    simp
  unfold guess candidates
  rw [this, List.filter_nil, List.map_nil, List.take_nil]
  rfl

theorem filter_range_last {p : Nat → Bool} {pos j : Nat} (hj : j < pos) (hp : p j = true)
    (hn : ∀ i, j < i → i < pos → p i = false) : ∃ tl, (List.range pos).reverse.filter p = j :: tl := by
  induction pos with
  | zero => omega
  | succ pos ih =>
    rw [List.range_succ, List.reverse_append, List.reverse_singleton, List.singleton_append]
    by_cases h : j = pos
    · subst h
      exact ⟨_, List.filter_cons_of_pos hp⟩
    · rw [List.filter_cons_of_neg (by rw [hn pos (by omega) (by omega)]; simp)]
      exact ih (by omega) fun i h1 h2 => hn i h1 (by omega)

/-- Otherwise it is the nearest position that is searched. -/
theorem guess_run {st : Settings} {search : Nat} {b : UInt8} {m pos j : Nat} {runs : List (Nat × Nat)}
    (hs : 0 < search) (hc : 0 < st.chain) (hm : pos + 3 ≤ m) (h0 : 0 < j) (hj : j < pos) (hd : pos - j ≤ 4096)
    (hh : hidden runs j = false) (hn : ∀ i, j < i → i < pos → hidden runs i = true) :
    guess st search (List.replicate m b) pos runs = some (pos - j, min 258 (m - pos)) := by
  have same : ∀ i, i < pos → sameHash (List.replicate m b) i pos = true := by
    intro i hi
    unfold sameHash
    rw [three_replicate, three_replicate, if_pos hm, if_pos (by omega)]
    simp
  obtain ⟨tl, ht⟩ := filter_range_last (p := fun j => 0 < j && sameHash (List.replicate m b) j pos && !hidden runs j) hj
    (by simp [h0, same j hj, hh]) (by intro i h1 h2; simp [hn i h1 h2])
  have hmem : ∀ i ∈ tl, i < pos := by
    intro i hi
    have : i ∈ (List.range pos).reverse.filter
        (fun j => 0 < j && sameHash (List.replicate m b) j pos && !hidden runs j) := by
      rw [ht]
      exact List.mem_cons_of_mem _ hi
    simpa using (List.mem_filter.1 this).1
  have hsr : searched (List.replicate m b) search pos runs = j :: tl.take (search - 1) := by
    unfold searched
    rw [ht]
    obtain ⟨k, rfl⟩ : ∃ k, search = k + 1 := ⟨search - 1, by omega⟩
    rfl
  have hlen : ∀ i, i < pos → min 258 (commonPrefix ((List.replicate m b).drop pos) ((List.replicate m b).drop i)) =
      min 258 (m - pos) := by
    intro i hi
    rw [List.drop_replicate, List.drop_replicate, commonPrefix_replicate]
    omega
  obtain ⟨cs, hcs, hall⟩ : ∃ cs, candidates (List.replicate m b) search pos runs =
      (pos - j, min 258 (m - pos)) :: cs ∧ ∀ c ∈ cs, c.2 = min 258 (m - pos) := by
    unfold candidates
    rw [hsr, List.filter_cons_of_pos (by
      rw [three_replicate, three_replicate, if_pos hm, if_pos (by omega)]
      simp only [Bool.and_eq_true, decide_eq_true_eq, beq_self_eq_true, and_true]
      omega), List.map_cons, hlen j hj]
    refine ⟨_, rfl, ?_⟩
    intro c hc
    obtain ⟨i, hi, rfl⟩ := List.mem_map.1 hc
    exact hlen i (hmem i (List.mem_of_mem_take (List.mem_filter.1 hi).1))
  unfold guess
  rw [hcs]
  obtain ⟨k, hk⟩ : ∃ k, st.chain = k + 1 := ⟨st.chain - 1, by omega⟩
  rw [hk, List.take_succ_cons]
  have hch : choose st.nice ((pos - j, min 258 (m - pos)) :: cs.take k) = some (pos - j, min 258 (m - pos)) := by
    have hall' : ∀ c ∈ cs.take k, c.2 = min 258 (m - pos) := fun c hc => hall c (List.mem_of_mem_take hc)
    unfold choose
    by_cases hn : st.nice ≤ min 258 (m - pos)
    · rw [List.find?_cons_of_pos (by simpa using hn)]
    · have : ((pos - j, min 258 (m - pos)) :: cs.take k).find? (fun c => decide (st.nice ≤ c.2)) = none := by
        rw [List.find?_eq_none]
        intro c hc
        have : c.2 = min 258 (m - pos) := by
          rcases List.mem_cons.1 hc with rfl | hc
          · rfl
          · exact hall' c hc
        rw [this]
        simpa using hn
      rw [this]
      dsimp only
      rw [List.find?_cons_of_pos]
      rw [List.all_eq_true]
      intro c hc
      have : c.2 = min 258 (m - pos) := by
        rcases List.mem_cons.1 hc with rfl | hc
        · rfl
        · exact hall' c hc
      rw [this]
      simp
  rw [hch, Option.filter_some, if_pos]
  simp only [Bool.or_eq_true, Bool.not_eq_true', decide_eq_true_eq]
  exact .inr (by omega)

/-! ### The bytes of the codes -/

theorem lzCopy_replicate (b : UInt8) (h d n : Nat) (h1 : 1 ≤ d) (hd : d ≤ h) :
    lzCopy (List.replicate h b) d n = List.replicate n b := by
  induction n generalizing h with
  | zero => rfl
  | succ n ih =>
    have e : (List.replicate h b).getD (h - d) 0 = b := by
      rw [List.getD_eq_getElem?_getD, List.getElem?_replicate, if_pos (by omega)]
      rfl
    have e2 : List.replicate h b ++ [b] = List.replicate (h + 1) b := List.replicate_succ'.symm
    rw [lzCopy, List.length_replicate, e, e2, ih (h + 1) (by omega), List.replicate_succ]

/-- How many bytes the codes stand for. -/
abbrev total (cs : List Code) : Nat := (cs.map Code.emittedBytes).sum

/-- Literals of one byte, and references that do not reach too far. -/
def Stays (b : UInt8) : Nat → List Code → Prop
  | _, [] => True
  | pos, .literal x :: cs => x = b ∧ Stays b (pos + 1) cs
  | pos, .reference r :: cs => (1 ≤ r.dist.toNat ∧ r.dist.toNat ≤ min 32768 pos) ∧ Stays b (pos + r.run) cs

theorem Stays.expand {b : UInt8} {pos : Nat} {cs : List Code} (h : Stays b pos cs) :
    lzExpand 32768 (List.replicate pos b) cs = some (List.replicate (total cs) b) := by
  induction cs generalizing pos with
  | nil => rfl
  | cons c cs ih =>
    cases c with
    | literal x =>
      obtain ⟨rfl, h⟩ := h
      have e2 : List.replicate pos x ++ [x] = List.replicate (pos + 1) x := List.replicate_succ'.symm
      rw [lzExpand, lzCode]
      dsimp only
      rw [e2, ih h]
      show some ([x] ++ List.replicate (total cs) x) = some (List.replicate (1 + total cs) x)
      rw [Nat.add_comm, List.replicate_succ]
      rfl
    | reference r =>
      obtain ⟨h1, h⟩ := h
      rw [lzExpand, lzCode, List.length_replicate, if_pos h1,
        lzCopy_replicate b pos _ _ h1.1 (by omega)]
      dsimp only
      rw [List.replicate_append_replicate, ih h]
      show some (List.replicate r.run b ++ List.replicate (total cs) b) = some (List.replicate (r.run + total cs) b)
      rw [List.replicate_append_replicate]

/-! ### The guess is followed -/

/-- The codes of a byte repeated, from the given position on. -/
def From (b : UInt8) : Nat → List Code → Prop
  | _, [] => True
  | pos, .literal x :: cs => x = b ∧ (pos < 2 ∨ total cs < 2) ∧ From b (pos + 1) cs
  | pos, .reference r :: cs =>
    2 ≤ pos ∧ r.dist = 1 ∧ r.run = min 258 (r.run + total cs) ∧ From b (pos + r.run) cs

theorem total_append (cs₁ cs₂ : List Code) : total (cs₁ ++ cs₂) = total cs₁ + total cs₂ := by
  simp [total]

theorem From.split {b : UInt8} {pos : Nat} {cs₁ cs₂ : List Code} (h : From b pos (cs₁ ++ cs₂)) :
    From b pos cs₁ ∧ From b (pos + total cs₁) cs₂ := by
  induction cs₁ generalizing pos with
  | nil => exact ⟨trivial, h⟩
  | cons c cs ih =>
    cases c with
    | literal x =>
      obtain ⟨h1, h2, h⟩ := h
      obtain ⟨i1, i2⟩ := ih h
      have h2' := total_append cs cs₂
      change total (cs.append cs₂) = _ at h2'
      rw [h2'] at h2
      refine ⟨⟨h1, by omega, i1⟩, ?_⟩
      show From b (pos + (1 + total cs)) cs₂
      rw [← Nat.add_assoc]
      exact i2
    | reference r =>
      obtain ⟨h0, h1, h2, h⟩ := h
      obtain ⟨i1, i2⟩ := ih h
      have h2' := total_append cs cs₂
      change total (cs.append cs₂) = _ at h2'
      rw [h2'] at h2
      refine ⟨⟨h0, h1, by omega, i1⟩, ?_⟩
      show From b (pos + (r.run + total cs)) cs₂
      rw [← Nat.add_assoc]
      exact i2

theorem From.stays {b : UInt8} {pos : Nat} {cs : List Code} (h : From b pos cs) : Stays b pos cs := by
  induction cs generalizing pos with
  | nil => trivial
  | cons c cs ih =>
    cases c with
    | literal x => exact ⟨h.1, ih h.2.2⟩
    | reference r =>
      obtain ⟨h0, h1, _, h⟩ := h
      refine ⟨?_, ih h⟩
      rw [h1]
      show 1 ≤ 1 ∧ 1 ≤ min 32768 pos
      omega

theorem says_literal {b : UInt8} {m pos : Nat} {g : Option (Nat × Nat)} (hg : g = none) (h : pos < m) :
    says (List.replicate m b) pos g (.literal b) = true := by
  subst hg
  unfold says
  rw [List.getElem?_replicate, if_pos h]
  simp

theorem From.traced {st : Settings} {search : Nat} (hs : 0 < search) (hc : 0 < st.chain) (hi : st.insert = none)
    {b : UInt8} {pos : Nat} {cs : List Code} (h : From b pos cs) {q m : Nat} (hq : q = pos ∨ (2 ≤ q ∧ 2 ≤ pos))
    (hm : m = q + total cs) : refTrace st search (List.replicate m b) q [] cs = List.replicate cs.length .correct := by
  induction cs generalizing pos q with
  | nil => rfl
  | cons c cs ih =>
    cases c with
    | literal x =>
      obtain ⟨rfl, h2, h⟩ := h
      have hm : m = q + (1 + total cs) := hm
      have hg : guess st search (List.replicate m x) q [] = none := by
        by_cases h3 : total cs < 2
        · exact guess_end _ _ _ _ _ _ (by omega)
        · exact guess_start _ _ _ _ _ (by omega)
      rw [refTrace, says_literal hg (by omega), if_pos rfl, ih h (q := q + 1) (by omega) (by omega)]
      rfl
    | reference r =>
      obtain ⟨h0, h1, h2, h⟩ := h
      have hm : m = q + (r.run + total cs) := hm
      have h3 : 3 ≤ r.run := Nat.le_add_left _ _
      have hg : guess st search (List.replicate m b) q [] = some (1, r.run) := by
        rw [guess_run (j := q - 1) hs hc (by omega) (by omega) (by omega) (by omega) rfl
          (by intro i _ _; omega)]
        congr 2 <;> omega
      have hsay : says (List.replicate m b) q (guess st search (List.replicate m b) q []) (.reference r) = true := by
        rw [hg]
        show (some (1, r.run) == some (r.dist.toNat, r.run)) = true
        rw [h1]
        exact beq_self_eq_true _
      rw [refTrace, hsay, if_pos rfl, hi]
      show _ :: refTrace st search _ (q + r.run) [] cs = _
      rw [ih h (q := q + r.run) (by omega) (by omega)]
      rfl

theorem From.last (b : UInt8) {pos left : Nat} (hp : 2 ≤ pos) (h : left < 258) : From b pos (lastCodes b 1 left) := by
  unfold lastCodes
  by_cases h3 : left < 3
  · rw [if_pos h3]
    have : left = 0 ∨ left = 1 ∨ left = 2 := by omega
    rcases this with rfl | rfl | rfl
    · trivial
    · exact ⟨rfl, .inr Nat.two_pos, trivial⟩
    · exact ⟨rfl, .inr Nat.one_lt_two, rfl, .inr Nat.two_pos, trivial⟩
  · rw [if_neg h3]
    obtain ⟨x, e, e1, e2⟩ := back_run (d := 1) (r := left) (by omega) (by omega)
    rw [e]
    refine ⟨hp, e2, ?_, trivial⟩
    show x.run = min 258 (x.run + 0)
    omega

theorem total_last (b : UInt8) (d : Nat) {left : Nat} (h : left < 258) : total (lastCodes b d left) = left := by
  unfold lastCodes
  by_cases h3 : left < 3
  · rw [if_pos h3]
    simp [total, Code.emittedBytes]
  · rw [if_neg h3]
    obtain ⟨x, e, e1, e2⟩ := back_run (d := d) (r := left) (by omega) (by omega)
    rw [e]
    show x.run + 0 = left
    omega

theorem From.middle (b : UInt8) {pos k left : Nat} (hp : 2 ≤ pos) (h : left < 258) :
    From b pos (List.replicate k (back 1 258) ++ lastCodes b 1 left) := by
  induction k generalizing pos with
  | zero => exact From.last b hp h
  | succ k ih =>
    rw [List.replicate_succ, List.cons_append]
    obtain ⟨x, e, e1, e2⟩ := back_run (d := 1) (r := 258) (by omega) (by omega)
    rw [e, ← e]
    conv => arg 3; arg 1; rw [e]
    exact ⟨hp, e2, by omega, ih (by omega)⟩

theorem total_middle (b : UInt8) (d : Nat) {k left : Nat} (h : left < 258) :
    total (List.replicate k (back d 258) ++ lastCodes b d left) = 258 * k + left := by
  obtain ⟨x, e, e1, e2⟩ := back_run (d := d) (r := 258) (by omega) (by omega)
  rw [total_append, total_last b d h, e]
  have : total (List.replicate k (.reference x)) = 258 * k := by
    rw [total, List.map_replicate, List.sum_replicate_nat]
    show k * x.run = _
    rw [e1, Nat.mul_comm]
  rw [this]

theorem From.runCodes (b : UInt8) (n : Nat) : From b 0 (runCodes b n) := by
  unfold Spec.runCodes
  by_cases h : n < 2
  · have : n = 0 ∨ n = 1 := by omega
    rcases this with rfl | rfl
    · trivial
    · exact ⟨rfl, .inl (by decide), trivial⟩
  · rw [show min n 2 = 2 by omega]
    exact ⟨rfl, .inl (by decide), rfl, .inl (by decide), From.middle b (by decide) (Nat.mod_lt _ (by decide))⟩

theorem total_runCodes (b : UInt8) (n : Nat) : total (runCodes b n) = n := by
  unfold Spec.runCodes
  rw [total_append, total_middle b 1 (Nat.mod_lt _ (by decide)), Nat.div_add_mod]
  have : total (List.replicate (min n 2) (.literal b)) = min n 2 := by
    simp [total, Code.emittedBytes]
  omega

/-! ### Fast levels -/

/-- Only the start of the last run is visible behind `pos`. -/
def Covered (runs : List (Nat × Nat)) (pos : Nat) : Prop :=
  258 < pos ∧ hidden runs (pos - 258) = false ∧ (∀ i, pos - 258 < i → i < pos → hidden runs i = true) ∧
    ∀ i, pos ≤ i → hidden runs i = false

theorem hidden_append (runs : List (Nat × Nat)) (p n j : Nat) :
    hidden (runs ++ [(p, n)]) j = (hidden runs j || (decide (p < j) && decide (j < p + n))) := by
  simp [hidden, List.any_append]

theorem Covered.next {runs : List (Nat × Nat)} {pos : Nat} (hp : 0 < pos) (h : ∀ i, pos ≤ i → hidden runs i = false) :
    Covered (runs ++ [(pos, 258)]) (pos + 258) := by
  unfold Covered
  refine ⟨Nat.lt_add_of_pos_left hp, ?_, ?_, ?_⟩
  · rw [hidden_append, Nat.add_sub_cancel, h pos (Nat.le_refl _)]
    simp
  · intro i h1 h2
    rw [hidden_append]
    simp only [Bool.or_eq_true, Bool.and_eq_true, decide_eq_true_eq]
    exact .inr (by omega)
  · intro i h1
    rw [hidden_append, h i (by omega)]
    simp only [Bool.false_or, Bool.and_eq_false_iff, decide_eq_false_iff_not]
    exact .inr (by omega)

theorem Covered.guess {st : Settings} {search : Nat} (hs : 0 < search) (hc : 0 < st.chain) {runs : List (Nat × Nat)}
    {pos m : Nat} {b : UInt8} (h : Covered runs pos) (hm : pos + 3 ≤ m) :
    guess st search (List.replicate m b) pos runs = some (258, min 258 (m - pos)) := by
  obtain ⟨h1, h2, h3, _⟩ := h
  rw [guess_run (j := pos - 258) hs hc hm (by omega) (by omega) (by omega) h2 h3, show pos - (pos - 258) = 258 by omega]

theorem says_back {w : List UInt8} {pos d r : Nat} {g : Option (Nat × Nat)} (hd : d < 65536) (h3 : 3 ≤ r)
    (h258 : r ≤ 258) (hg : g = some (d, r)) : says w pos g (back d r) = true := by
  obtain ⟨x, e, e1, e2⟩ := back_run (d := d) h3 h258
  rw [e, hg]
  show (some (d, r) == some (x.dist.toNat, x.run)) = true
  rw [e1, e2, Nat.toUInt16_eq, UInt16.toNat_ofNat_of_lt' (by show _ < 65536; exact hd)]
  exact beq_self_eq_true _

/-- A step of the trace over a right reference. -/
theorem refTrace_back {st : Settings} {search : Nat} {w : List UInt8} {pos d r : Nat} {runs : List (Nat × Nat)}
    {cs : List Code} (h3 : 3 ≤ r) (h258 : r ≤ 258) (h : says w pos (guess st search w pos runs) (back d r) = true) :
    refTrace st search w pos runs (back d r :: cs) = .correct :: refTrace st search w (pos + r)
      (if st.insert.any (fun l => decide (l < r)) then runs ++ [(pos, r)] else runs) cs := by
  obtain ⟨x, e, e1, e2⟩ := back_run (d := d) h3 h258
  rw [e] at h ⊢
  rw [refTrace, h, if_pos rfl, e1]

theorem traced_literals {st : Settings} {search : Nat} {b : UInt8} {pos m left : Nat} {runs : List (Nat × Nat)}
    (h3 : left < 3) (hm : m = pos + left) :
    refTrace st search (List.replicate m b) pos runs (List.replicate left (.literal b)) =
      List.replicate left .correct := by
  induction left generalizing pos with
  | zero => rfl
  | succ left ih =>
    rw [List.replicate_succ, refTrace, says_literal (guess_end _ _ _ _ _ _ (by omega)) (by omega), if_pos rfl,
      ih (by omega) (by omega), List.replicate_succ]

theorem Covered.last {st : Settings} {search : Nat} (hs : 0 < search) (hc : 0 < st.chain) {runs : List (Nat × Nat)}
    {pos m left : Nat} {b : UInt8} (h : Covered runs pos) (hl : left < 258) (hm : m = pos + left) :
    refTrace st search (List.replicate m b) pos runs (lastCodes b 258 left) =
      List.replicate (lastCodes b 258 left).length .correct := by
  unfold lastCodes
  by_cases h3 : left < 3
  · rw [if_pos h3, traced_literals h3 hm, List.length_replicate]
  · rw [if_neg h3, refTrace_back (by omega) (by omega)
      (says_back (by omega) (by omega) (by omega) (by rw [h.guess hs hc (by omega)]; congr 2; omega))]
    rfl

theorem Covered.middle {st : Settings} {search l : Nat} (hs : 0 < search) (hc : 0 < st.chain)
    (hi : st.insert = some l) (hl : l < 258) {runs : List (Nat × Nat)} {pos m k left : Nat} {b : UInt8}
    (h : Covered runs pos) (hl : left < 258) (hm : m = pos + (258 * k + left)) :
    refTrace st search (List.replicate m b) pos runs (List.replicate k (back 258 258) ++ lastCodes b 258 left) =
      List.replicate (List.replicate k (back 258 258) ++ lastCodes b 258 left).length .correct := by
  induction k generalizing pos runs with
  | zero => exact h.last hs hc hl (by omega)
  | succ k ih =>
    rw [List.replicate_succ, List.cons_append, refTrace_back (by omega) (by omega)
      (says_back (by omega) (by omega) (by omega) (by rw [h.guess hs hc (by omega)]; congr 2; omega)), hi]
    rw [if_pos (by simpa using by assumption)]
    rw [ih (Covered.next (by have := h.1; omega) h.2.2.2) (by omega)]
    rfl

theorem fast_traced {st : Settings} {search l : Nat} (hs : 0 < search) (hc : 0 < st.chain)
    (hi : st.insert = some l) (hl : l < 258) (b : UInt8) (n : Nat) :
    refTrace st search (List.replicate n b) 0 [] (fastRunCodes b n) =
      List.replicate (fastRunCodes b n).length .correct := by
  unfold fastRunCodes
  by_cases h : n < 2
  · rw [show min n 2 = n by omega, if_pos (by omega), show n - 2 = 0 by omega]
    show refTrace st search _ 0 [] (_ ++ []) = List.replicate (_ ++ []).length _
    rw [List.append_nil, traced_literals (by omega) (by omega), List.length_replicate]
  · rw [show min n 2 = 2 by omega]
    obtain ⟨n, rfl⟩ : ∃ k, n = k + 2 := ⟨n - 2, by omega⟩
    rw [Nat.add_sub_cancel]
    have start : ∀ cs, refTrace st search (List.replicate (n + 2) b) 0 [] (List.replicate 2 (.literal b) ++ cs) =
        .correct :: .correct :: refTrace st search (List.replicate (n + 2) b) 2 [] cs := by
      intro cs
      show refTrace st search (List.replicate (n + 2) b) 0 [] (.literal b :: .literal b :: cs) = _
      rw [refTrace, says_literal (guess_start _ _ _ _ _ (by decide)) (by omega), if_pos rfl, refTrace,
        says_literal (guess_start _ _ _ _ _ (by decide)) (by omega), if_pos rfl]
    have first : 3 ≤ n → guess st search (List.replicate (n + 2) b) 2 [] = some (1, min 258 n) := by
      intro h3
      rw [guess_run (j := 1) hs hc (by omega) (by omega) (by omega) (by omega) rfl (by intro i _ _; omega)]
      congr 2
    rw [start]
    by_cases hn : n < 258
    · rw [if_pos hn]
      unfold lastCodes
      by_cases h3 : n < 3
      · rw [if_pos h3, traced_literals h3 (by omega)]
        simp [List.replicate_succ]
      · rw [if_neg h3, refTrace_back (by omega) (by omega)
          (says_back (by omega) (by omega) (by omega) (by rw [first (by omega)]; congr 2; omega))]
        rfl
    · rw [if_neg hn, refTrace_back (by omega) (by omega)
        (says_back (by omega) (by omega) (by omega) (by rw [first (by omega)]; congr 2; omega)), hi,
        if_pos (by simpa using hl)]
      have hmod : n % 258 < 258 := Nat.mod_lt _ (by decide)
      rw [Covered.middle hs hc hi hl (Covered.next (by decide) (by intro i _; rfl)) hmod
        (by have := Nat.div_add_mod n 258; have : 1 ≤ n / 258 := by omega
            omega)]
      rfl

theorem stays_literals (b : UInt8) (pos n : Nat) (cs : List Code) (h : Stays b (pos + n) cs) :
    Stays b pos (List.replicate n (.literal b) ++ cs) := by
  induction n generalizing pos with
  | zero => exact h
  | succ n ih => exact ⟨rfl, ih (pos + 1) (by rw [show pos + 1 + n = pos + (n + 1) by omega]; exact h)⟩

theorem stays_back {b : UInt8} {pos d r : Nat} {cs : List Code} (h1 : 1 ≤ d) (hd : d ≤ min 32768 pos) (h3 : 3 ≤ r)
    (h258 : r ≤ 258) (h : Stays b (pos + r) cs) : Stays b pos (back d r :: cs) := by
  obtain ⟨x, e, e1, e2⟩ := back_run (d := d) h3 h258
  rw [e]
  refine ⟨?_, by rw [e1]; exact h⟩
  rw [e2, Nat.toUInt16_eq, UInt16.toNat_ofNat_of_lt' (by show _ < 65536; omega)]
  exact ⟨h1, hd⟩

theorem stays_last {b : UInt8} {pos d left : Nat} (h1 : 1 ≤ d) (hd : d ≤ min 32768 pos) (hl : left < 258) :
    Stays b pos (lastCodes b d left) := by
  unfold lastCodes
  by_cases h3 : left < 3
  · rw [if_pos h3, ← List.append_nil (List.replicate _ _)]
    exact stays_literals b pos left [] trivial
  · rw [if_neg h3]
    exact stays_back h1 hd (by omega) (by omega) trivial

theorem stays_middle {b : UInt8} {pos d k left : Nat} (h1 : 1 ≤ d) (hd : d ≤ min 32768 pos) (hl : left < 258) :
    Stays b pos (List.replicate k (back d 258) ++ lastCodes b d left) := by
  induction k generalizing pos with
  | zero => exact stays_last h1 hd hl
  | succ k ih =>
    rw [List.replicate_succ, List.cons_append]
    exact stays_back h1 hd (by omega) (by omega) (ih (by omega))

theorem fast_stays (b : UInt8) (n : Nat) : Stays b 0 (fastRunCodes b n) := by
  unfold fastRunCodes
  apply stays_literals
  have hmod : (n - 2) % 258 < 258 := Nat.mod_lt _ (by decide)
  by_cases hn : n - 2 < 258
  · rw [if_pos hn]
    by_cases h0 : n - 2 = 0
    · rw [h0]
      trivial
    · exact stays_last (by decide) (by omega) hn
  · rw [if_neg hn]
    exact stays_back (by decide) (by omega) (by decide) (by decide) (stays_middle (by decide) (by omega) hmod)

theorem total_fast (b : UInt8) (n : Nat) : total (fastRunCodes b n) = n := by
  unfold fastRunCodes
  have hmod : (n - 2) % 258 < 258 := Nat.mod_lt _ (by decide)
  have : total (List.replicate (min n 2) (.literal b)) = min n 2 := by
    simp [total, Code.emittedBytes]
  rw [total_append, this]
  by_cases hn : n - 2 < 258
  · rw [if_pos hn, total_last b 1 hn]
    omega
  · rw [if_neg hn]
    obtain ⟨x, e, e1, e2⟩ := back_run (d := 1) (r := 258) (by omega) (by omega)
    rw [e]
    have : total (.reference x :: (List.replicate ((n - 2) / 258 - 1) (back 258 258) ++
        lastCodes b 258 ((n - 2) % 258))) = x.run + total (List.replicate ((n - 2) / 258 - 1) (back 258 258) ++
        lastCodes b 258 ((n - 2) % 258)) := rfl
    rw [this, total_middle b 258 hmod, e1]
    have := Nat.div_add_mod (n - 2) 258
    omega

end Runs
end Rezip
