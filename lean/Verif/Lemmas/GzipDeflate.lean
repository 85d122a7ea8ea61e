import Verif.Spec.GzipDeflate
import Verif.Props.Guess
import Verif.Lemmas.Runs
import Verif.Props.Window

/-!
# Lemmas about how gzip chooses the codes
-/

namespace Rezip

open Spec

namespace Spec.GzipDeflate

/-! ### Chains -/

/-- The positions below `n` with a property, nearest first. -/
def earlier (q : Nat → Bool) (n : Nat) : List Nat := (List.range n).reverse.filter q

theorem earlier_succ (q : Nat → Bool) (n : Nat) :
    earlier q (n + 1) = if q n = true then n :: earlier q n else earlier q n := by
  unfold earlier
  rw [List.range_succ, List.reverse_append, List.reverse_singleton, List.singleton_append, List.filter_cons]

theorem earlier_congr {q q' : Nat → Bool} {n : Nat} (h : ∀ j, j < n → q j = q' j) : earlier q n = earlier q' n := by
  unfold earlier
  refine List.filter_congr fun j hj => h j ?_
  simpa using hj

theorem earlier_skip {q : Nat → Bool} {m n : Nat} (hm : m ≤ n) (h : ∀ j, m ≤ j → j < n → q j = false) :
    earlier q n = earlier q m := by
  induction n with
  | zero => rw [show m = 0 by omega]
  | succ n ih =>
    by_cases e : m = n + 1
    · rw [e]
    · rw [earlier_succ, if_neg (by rw [h n (by omega) (by omega)]; simp)]
      exact ih (by omega) fun j h1 h2 => h j h1 (by omega)

theorem earlier_cons {q : Nat → Bool} {n c : Nat} {rest : List Nat} (h : earlier q n = c :: rest) :
    rest = earlier q c ∧ c < n ∧ q c = true := by
  induction n with
  | zero => cases h
  | succ n ih =>
    rw [earlier_succ] at h
    by_cases e : q n = true
    · rw [if_pos e] at h
      cases h
      exact ⟨rfl, by omega, e⟩
    · rw [if_neg e] at h
      obtain ⟨h1, h2, h3⟩ := ih h
      exact ⟨h1, by omega, h3⟩

theorem mem_earlier {q : Nat → Bool} {n j : Nat} (h : j ∈ earlier q n) : j < n ∧ q j = true := by
  obtain ⟨h1, h2⟩ := List.mem_filter.1 h
  exact ⟨by simpa using h1, h2⟩

/-- The last of them, 0 if there is none. -/
def latest (q : Nat → Bool) (n : Nat) : Nat := (earlier q n).headD 0

/-- Position `j` is on the chain of the hash `h`: it is not 0 and not inside one of the runs. -/
def key (data : List UInt8) (runs : List (Nat × Nat)) (h j : Nat) : Bool :=
  decide (0 < j) && (hashAt data j == h) && !hidden runs j

/-- The tables when everything before `p` was inserted except for what is inside the runs. -/
structure Holds (data : List UInt8) (t : Tables) (p : Nat) (runs : List (Nat × Nat)) : Prop where
  head : ∀ h, t.head h = latest (key data runs h) p
  prev : ∀ j, 0 < j → j < p → hidden runs j = false → t.prev j = latest (key data runs (hashAt data j)) j
  fresh : ∀ j, p ≤ j → hidden runs j = false

theorem Holds.empty (data : List UInt8) : Holds data empty 0 [] :=
  ⟨fun _ => rfl, fun _ _ h => by omega, fun _ _ => rfl⟩

theorem Holds.insert {data : List UInt8} {t : Tables} {p : Nat} {runs : List (Nat × Nat)} (h : Holds data t p runs) :
    Holds data (insertString data t p) (p + 1) runs := by
  refine ⟨?_, ?_, fun j hj => h.fresh j (by omega)⟩
  · intro k
    show (if k = hashAt data p then p else t.head k) = _
    unfold latest
    rw [earlier_succ]
    have hf := h.fresh p (Nat.le_refl _)
    by_cases e : k = hashAt data p
    · rw [if_pos e]
      by_cases e0 : p = 0
      · subst e0
        rw [if_neg (by simp [key])]
        rfl
      · rw [if_pos (by simp [key, hf, e]; omega)]
        rfl
    · rw [if_neg e, if_neg (by simp [key, hf]; intro _; exact fun h => e h.symm)]
      exact h.head k
  · intro j h0 hj hh
    show (if j = p then t.head (hashAt data p) else t.prev j) = _
    by_cases e : j = p
    · subst e
      rw [if_pos rfl]
      exact h.head _
    · rw [if_neg e]
      exact h.prev j h0 (by omega) hh

theorem Holds.inserts {data : List UInt8} {t : Tables} {p : Nat} {runs : List (Nat × Nat)} (n : Nat)
    (h : Holds data t p runs) : Holds data (insertStrings data t p n) (p + n) runs := by
  induction n generalizing t p with
  | zero => exact h
  | succ n ih =>
    rw [show p + (n + 1) = p + 1 + n by omega]
    exact ih h.insert

theorem hidden_append (runs : List (Nat × Nat)) (p len j : Nat) :
    hidden (runs ++ [(p, len)]) j = (hidden runs j || (decide (p < j) && decide (j < p + len))) := by
  unfold hidden
  rw [List.any_append]
  simp

/-- Skipping the inside of a run. -/
theorem Holds.skip {data : List UInt8} {t : Tables} {p len : Nat} {runs : List (Nat × Nat)} (hl : 0 < len)
    (h : Holds data t (p + 1) runs) : Holds data t (p + len) (runs ++ [(p, len)]) := by
  have below : ∀ k j, j ≤ p → key data (runs ++ [(p, len)]) k j = key data runs k j := by
    intro k j hj
    unfold key
    rw [hidden_append, show decide (p < j) = false by simpa using hj]
    simp
  refine ⟨?_, ?_, ?_⟩
  · intro k
    rw [h.head k]
    unfold latest
    rw [earlier_skip (m := p + 1) (n := p + len) (by omega) (by
      intro j h1 h2
      unfold key
      rw [hidden_append, show decide (p < j) = true from decide_eq_true h1, show decide (j < p + len) = true by simpa using h2]
      simp)]
    rw [earlier_congr fun j hj => below k j (by omega)]
  · intro j h0 hj hh
    rw [hidden_append, Bool.or_eq_false_iff] at hh
    have hp : j < p + 1 := by
      have := hh.2
      simp only [Bool.and_eq_false_iff, decide_eq_false_iff_not] at this
      omega
    rw [h.prev j h0 hp hh.1]
    unfold latest
    rw [earlier_congr fun i hi => below _ i (by omega)]
  · intro j hj
    rw [hidden_append, h.fresh j (by omega)]
    simp only [Bool.false_or, Bool.and_eq_false_iff, decide_eq_false_iff_not]
    omega

/-! ### The search -/

/-- The search, on a list of positions. -/
def walk (data : List UInt8) (p nice : Nat) : List Nat → Nat → Nat → Nat × Nat
  | [], best, start => (best, start)
  | cur :: l, best, start =>
    let len := equalBytes data cur p 258
    if best < len ∧ nice ≤ len then (len, cur)
    else
      let found := if best < len then (len, cur) else (best, start)
      walk data p nice l found.1 found.2

theorem longestMatch_eq {data : List UInt8} {t : Tables} {p : Nat} {runs : List (Nat × Nat)}
    (h : Holds data t p runs) (hp : ∀ j, 0 < j → j < p → hashAt data j = hashAt data p → p < j + maxDist)
    (nice chain c : Nat) (rest : List Nat) (best start : Nat)
    (hc : earlier (key data runs (hashAt data p)) p = c :: rest ∨
      ∃ n, n ≤ p ∧ earlier (key data runs (hashAt data p)) n = c :: rest) :
    longestMatch data (insertString data t p) p nice chain c best start =
      walk data p nice ((c :: rest).take chain) best start := by
  replace hc : ∃ n, n ≤ p ∧ earlier (key data runs (hashAt data p)) n = c :: rest := by
    rcases hc with hc | hc
    · exact ⟨p, Nat.le_refl _, hc⟩
    · exact hc
  induction chain generalizing c rest best start with
  | zero => rfl
  | succ chain ih =>
    obtain ⟨n, hn, hc⟩ := hc
    obtain ⟨h1, h2, h3⟩ := earlier_cons hc
    rw [longestMatch, List.take_succ_cons, walk]
    dsimp only
    by_cases hb : best < equalBytes data c p 258 ∧ nice ≤ equalBytes data c p 258
    · rw [if_pos hb, if_pos hb]
    · rw [if_neg hb, if_neg hb]
      have hk : 0 < c ∧ hashAt data c = hashAt data p ∧ hidden runs c = false := by
        simpa [key, and_assoc] using h3
      have hprev : (insertString data t p).prev c = rest.headD 0 := by
        show (if c = p then t.head (hashAt data p) else t.prev c) = _
        rw [if_neg (by omega), h.prev c hk.1 (by omega) hk.2.2, hk.2.1, h1]
        rfl
      rw [hprev]
      cases rest with
      | nil =>
        rw [if_neg (by simp), List.take_nil]
        rfl
      | cons c' rest' =>
        obtain ⟨_, hlt, hk'⟩ := earlier_cons h1.symm
        have h0 : 0 < c' ∧ hashAt data c' = hashAt data p ∧ hidden runs c' = false := by
          simpa [key, and_assoc] using hk'
        have := hp c' h0.1 (by omega) h0.2.1
        rw [List.headD_cons, if_pos (by omega)]
        exact ih c' rest' _ _ ⟨c, by omega, h1.symm⟩

/-- Positions that have less than three bytes in common do not matter. -/
theorem walk_filter {data : List UInt8} {p nice : Nat} {P : Nat → Bool} (l : List Nat) (best start : Nat)
    (hb : 2 ≤ best) (hP : ∀ j ∈ l, P j = false → equalBytes data j p 258 ≤ 2) :
    walk data p nice l best start = walk data p nice (l.filter P) best start := by
  induction l generalizing best start with
  | nil => rfl
  | cons j l ih =>
    have ih' := fun b s hb => ih b s hb fun i hi => hP i (List.mem_cons_of_mem _ hi)
    cases hj : P j with
    | false =>
      have := hP j (by simp) hj
      rw [List.filter_cons_of_neg (by rw [hj]; simp), walk]
      dsimp only
      rw [if_neg (by omega), if_neg (by omega)]
      exact ih' _ _ hb
    | true =>
      rw [List.filter_cons_of_pos hj, walk, walk]
      dsimp only
      by_cases h : best < equalBytes data j p 258 ∧ nice ≤ equalBytes data j p 258
      · rw [if_pos h, if_pos h]
      · rw [if_neg h, if_neg h]
        refine ih' _ _ ?_
        by_cases h' : best < equalBytes data j p 258
        · rw [if_pos h']
          show 2 ≤ equalBytes data j p 258
          omega
        · rw [if_neg h']
          exact hb

theorem walk_capped {data : List UInt8} {p nice : Nat} (l : List Nat) (m : Nat) (hm : equalBytes data m p 258 < nice) :
    walk data p nice l (equalBytes data m p 258) m =
      (equalBytes data (Iters.cappedMaxLoop nice (fun j => equalBytes data j p 258) m (equalBytes data m p 258) l) p 258,
        Iters.cappedMaxLoop nice (fun j => equalBytes data j p 258) m (equalBytes data m p 258) l) := by
  induction l generalizing m with
  | nil => rfl
  | cons j l ih =>
    rw [walk, Iters.cappedMaxLoop]
    dsimp only
    by_cases h : equalBytes data m p 258 < equalBytes data j p 258
    · rw [if_pos (show equalBytes data j p 258 > equalBytes data m p 258 from h)]
      by_cases h' : nice ≤ equalBytes data j p 258
      · rw [if_pos ⟨h, h'⟩, if_pos (show equalBytes data j p 258 > equalBytes data m p 258 from h),
          if_pos (show equalBytes data j p 258 ≥ nice from h')]
      · rw [if_neg (by omega), if_pos h, if_neg (show ¬ equalBytes data j p 258 ≥ nice from h')]
        exact ih j (by omega)
    · rw [if_neg (show ¬ equalBytes data j p 258 > equalBytes data m p 258 from h), if_neg (by omega), if_neg h]
      exact ih m hm

theorem choose_capped {cap c : Nat} {f : Nat → Nat} {l : List Nat} {g : Nat → Nat × Nat} (hg : ∀ j, (g j).2 = f j) :
    choose cap ((c :: l).map g) =
      some (g (if cap ≤ f c then c else Iters.cappedMaxLoop cap f c (f c) l)) := by
  have e : (fun j => decide (cap ≤ f j)) = ((fun x : Nat × Nat => decide (cap ≤ x.2)) ∘ g) := by
    funext j
    simp [hg]
  unfold choose
  rw [List.find?_map, ← e, List.find?_cons]
  by_cases hc : cap ≤ f c
  · rw [if_pos hc, show decide (cap ≤ f c) = true by simpa using hc]
    rfl
  · rw [if_neg hc, show decide (cap ≤ f c) = false by simpa using hc]
    dsimp only
    have := cappedMaxLoop_spec cap f l [] c [] (by simp) (by simp) (by omega)
    cases hf : l.find? (fun j => decide (cap ≤ f j)) with
    | some r =>
      rw [hf] at this
      dsimp only at this
      rw [this]
      rfl
    | none =>
      rw [hf] at this
      dsimp only at this
      obtain ⟨r, l₁, l₂, h1, h2, h3, h4⟩ := this
      rw [h1]
      rw [show [] ++ c :: [] ++ l = c :: l from rfl] at h2
      show List.find? _ _ = _
      rw [h2, List.find?_map, Option.map_eq_some_iff]
      refine ⟨r, ?_, rfl⟩
      rw [List.find?_eq_some_iff_append]
      refine ⟨?_, l₁, l₂, rfl, fun x hx => ?_⟩
      · simp only [Function.comp, List.all_eq_true, decide_eq_true_eq]
        intro y hy
        obtain ⟨x, hx, rfl⟩ := List.mem_map.1 hy
        rw [hg, hg]
        rcases List.mem_append.1 hx with hx | hx
        · exact Nat.le_of_lt (h3 x hx)
        · rcases List.mem_cons.1 hx with rfl | hx
          · exact Nat.le_refl _
          · exact h4 x hx
      · have := h3 x hx
        simp only [Function.comp, Bool.not_eq_true', List.all_eq_false, decide_eq_true_eq]
        exact ⟨g r, List.mem_map.2 ⟨r, by simp, rfl⟩, by rw [hg, hg]; omega⟩

/-- The search among positions that all have three bytes in common. -/
theorem walk_choose {data : List UInt8} {p nice : Nat} (l : List Nat) (hl : ∀ j ∈ l, 3 ≤ equalBytes data j p 258)
    (hp : ∀ j ∈ l, j < p) :
    (choose nice (l.map fun j => (p - j, equalBytes data j p 258)) = none ∧ walk data p nice l 2 0 = (2, 0)) ∨
    ∃ j ∈ l, choose nice (l.map fun j => (p - j, equalBytes data j p 258)) = some (p - j, equalBytes data j p 258) ∧
      walk data p nice l 2 0 = (equalBytes data j p 258, j) := by
  cases l with
  | nil => exact .inl ⟨rfl, rfl⟩
  | cons c l =>
    refine .inr ⟨_, ?_, choose_capped (f := fun j => equalBytes data j p 258) (fun _ => rfl), ?_⟩
    · by_cases hc : nice ≤ equalBytes data c p 258
      · rw [if_pos hc]
        simp
      · rw [if_neg hc]
        have := cappedMaxLoop_spec nice (fun j => equalBytes data j p 258) l [] c [] (by simp) (by simp) (by omega)
        cases hf : l.find? (fun j => decide (nice ≤ equalBytes data j p 258)) with
        | some r =>
          rw [hf] at this
          dsimp only at this
          rw [this]
          exact List.mem_cons_of_mem _ (List.mem_of_find?_eq_some hf)
        | none =>
          rw [hf] at this
          dsimp only at this
          obtain ⟨r, l₁, l₂, h1, h2, _, _⟩ := this
          rw [h1]
          rw [show [] ++ c :: [] ++ l = c :: l from rfl] at h2
          rw [h2]
          simp
    · rw [walk]
      dsimp only
      have h3 := hl c (by simp)
      by_cases hc : nice ≤ equalBytes data c p 258
      · rw [if_pos ⟨by omega, hc⟩, if_pos hc]
      · rw [if_neg (by omega), if_neg hc, if_pos (by omega)]
        exact walk_capped l c (by omega)

/-! ### The bytes -/

theorem byte_get {data : List UInt8} {i : Nat} (h : i < data.length) : data[i]? = some (byte data i) := by
  unfold byte
  rw [List.getElem?_eq_getElem h]
  rfl

/-- Comparing past the end makes no difference if the bytes differ there. -/
theorem equalBytes_prefix {data : List UInt8} (n i j : Nat) (hij : i < j) (hj : j ≤ data.length)
    (hz : commonPrefix (data.drop j) (data.drop i) = data.length - j →
      byte data (i + commonPrefix (data.drop j) (data.drop i)) ≠ 0) :
    equalBytes data i j n = min n (commonPrefix (data.drop j) (data.drop i)) := by
  induction n generalizing i j with
  | zero => simp [equalBytes]
  | succ n ih =>
    rw [equalBytes]
    have hi : i < data.length := by omega
    have bi : byte data i = data[i] := by unfold byte; rw [List.getElem?_eq_getElem hi]; rfl
    by_cases e : j = data.length
    · subst e
      have bj : byte data data.length = 0 := by unfold byte; rw [List.getElem?_eq_none (Nat.le_refl _)]; rfl
      have hcp : commonPrefix (data.drop data.length) (data.drop i) = 0 := by
        rw [List.drop_length]
        simp [commonPrefix]
      rw [hcp] at hz ⊢
      rw [if_neg (by rw [bj]; exact hz (by omega))]
      omega
    · have hj' : j < data.length := by omega
      have bj : byte data j = data[j] := by unfold byte; rw [List.getElem?_eq_getElem hj']; rfl
      rw [List.drop_eq_getElem_cons hi, List.drop_eq_getElem_cons hj', commonPrefix] at hz ⊢
      rw [bi, bj]
      by_cases h : data[i] = data[j]
      · rw [if_pos h.symm] at hz ⊢
        rw [if_pos h, ih (i + 1) (j + 1) (by omega) (by omega) (by
          intro hc
          have := hz (by omega)
          rw [show i + 1 + commonPrefix (data.drop (j + 1)) (data.drop (i + 1)) =
            i + (commonPrefix (data.drop (j + 1)) (data.drop (i + 1)) + 1) by omega]
          exact this)]
        omega
      · rw [if_neg h, if_neg fun h' => h h'.symm]
        simp

theorem three_some {data : List UInt8} {j : Nat} (h : j + 3 ≤ data.length) :
    three data j = some (byte data j, byte data (j + 1), byte data (j + 2)) := by
  unfold three byte
  rw [List.drop_eq_getElem_cons (show j < data.length by omega),
    List.drop_eq_getElem_cons (show j + 1 < data.length by omega),
    List.drop_eq_getElem_cons (show j + 1 + 1 < data.length by omega),
    List.getElem?_eq_getElem (show j < data.length by omega),
    List.getElem?_eq_getElem (show j + 1 < data.length by omega),
    List.getElem?_eq_getElem (show j + 2 < data.length by omega)]
  rfl

theorem three_none {data : List UInt8} {j : Nat} (h : data.length < j + 3) : three data j = none := by
  unfold three
  have : (data.drop j).length < 3 := by rw [List.length_drop]; omega
  match hd : data.drop j with
  | [] => rfl
  | [_] => rfl
  | [_, _] => rfl
  | a :: b :: c :: d => rw [hd] at this; simp at this; omega

theorem sameHash_eq {data : List UInt8} {j p : Nat} (hj : j < p) (h : p + 3 ≤ data.length) :
    sameHash data j p = (hashAt data j == hashAt data p) := by
  unfold sameHash hashAt
  rw [three_some h, three_some (show j + 3 ≤ data.length by omega)]

/-- Three bytes in common, or less. -/
theorem equalBytes_three {data : List UInt8} (j p : Nat) (n : Nat) :
    3 ≤ equalBytes data j p (n + 3) ↔
      byte data j = byte data p ∧ byte data (j + 1) = byte data (p + 1) ∧ byte data (j + 2) = byte data (p + 2) := by
  rw [equalBytes]
  by_cases h0 : byte data j = byte data p
  · rw [if_pos h0, equalBytes]
    by_cases h1 : byte data (j + 1) = byte data (p + 1)
    · rw [if_pos h1, equalBytes]
      by_cases h2 : byte data (j + 1 + 1) = byte data (p + 1 + 1)
      · rw [if_pos h2]
        exact ⟨fun _ => ⟨h0, h1, h2⟩, fun _ => by omega⟩
      · rw [if_neg h2]
        exact ⟨fun h => by omega, fun h => absurd h.2.2 h2⟩
    · rw [if_neg h1]
      exact ⟨fun h => by omega, fun h => absurd h.2.1 h1⟩
  · rw [if_neg h0]
    exact ⟨fun h => by omega, fun h => absurd h.1 h0⟩

theorem clear_of_nonzero {data : List UInt8} (h : 0 ∉ data) : Clear data :=
  fun _ _ hz => absurd (List.mem_of_getElem? hz) h

theorem equalBytes_eq {data : List UInt8} (hz : Clear data) (n i j : Nat) (hi : 0 < i) (hij : i < j) (hj : j + 3 ≤ data.length) :
    equalBytes data i j n = min n (commonPrefix (data.drop j) (data.drop i)) := by
  refine equalBytes_prefix n i j hij (by omega) ?_
  intro hc h0
  have hlt : i + (data.length - j) < data.length := by omega
  rw [hc] at h0
  have heq : ∀ k, k < data.length - j → byte data (j + k) = byte data (i + k) := by
    intro k hk
    obtain ⟨b, h1, h2⟩ := commonPrefix_spec (x := data.drop j) (y := data.drop i) (i := k) (by omega)
    rw [List.getElem?_drop, byte_get (by omega)] at h1 h2
    exact (Option.some.inj h1).trans (Option.some.inj h2).symm
  refine hz (i + (data.length - j)) (by omega) (by rw [byte_get hlt, h0]) ?_
  have e0 := heq (data.length - j - 3) (by omega)
  have e1 := heq (data.length - j - 2) (by omega)
  have e2 := heq (data.length - j - 1) (by omega)
  rw [three_some (show i + (data.length - j) - 3 + 3 ≤ data.length by omega),
    three_some (show data.length - 3 + 3 ≤ data.length by omega)]
  rw [show j + (data.length - j - 3) = data.length - 3 by omega,
    show i + (data.length - j - 3) = i + (data.length - j) - 3 by omega] at e0
  rw [show j + (data.length - j - 2) = data.length - 3 + 1 by omega,
    show i + (data.length - j - 2) = i + (data.length - j) - 3 + 1 by omega] at e1
  rw [show j + (data.length - j - 1) = data.length - 3 + 2 by omega,
    show i + (data.length - j - 1) = i + (data.length - j) - 3 + 2 by omega] at e2
  rw [e0, e1, e2]

/-! ### One step -/

/-- What `deflate_fast` finds at `p`: `best_len` and `match_start`. -/
def find (nice chain : Nat) (data : List UInt8) (t : Tables) (p : Nat) : Nat × Nat :=
  if t.head (hashAt data p) ≠ 0 ∧ p - t.head (hashAt data p) ≤ maxDist then
    longestMatch data (insertString data t p) p nice chain (t.head (hashAt data p)) 2 0
  else (2, 0)

theorem find_eq {data : List UInt8} {t : Tables} {p : Nat} {runs : List (Nat × Nat)} (h : Holds data t p runs)
    (hp : ∀ j, 0 < j → j < p → hashAt data j = hashAt data p → p < j + maxDist) (nice chain : Nat) :
    find nice chain data t p = walk data p nice ((earlier (key data runs (hashAt data p)) p).take chain) 2 0 := by
  unfold find
  rw [h.head, latest]
  cases he : earlier (key data runs (hashAt data p)) p with
  | nil =>
    rw [if_neg (by simp), List.take_nil]
    rfl
  | cons c rest =>
    obtain ⟨_, h2, h3⟩ := earlier_cons he
    have h0 : 0 < c ∧ hashAt data c = hashAt data p ∧ hidden runs c = false := by
      simpa [key, and_assoc] using h3
    have := hp c h0.1 h2 h0.2.1
    rw [List.headD_cons, if_pos ⟨by omega, by omega⟩]
    exact longestMatch_eq h hp nice chain c rest 2 0 (.inl he)

/-- What is found is what is guessed. -/
theorem find_guess {data : List UInt8} (hz : Clear data) {t : Tables} {p : Nat} {runs : List (Nat × Nat)}
    (h : Holds data t p runs) (hnear : Near data) (hd : p < data.length) {st : Settings} {search : Nat}
    (hs : search ≤ st.chain) (hf : st.dropFar = false) :
    (guess st search data p runs = none ∧ min (find st.nice search data t p).1 (data.length - p) < 3) ∨
    ∃ j len, 0 < j ∧ j < p ∧ p < j + maxDist ∧ 3 ≤ len ∧ len ≤ 258 ∧ guess st search data p runs = some (p - j, len) ∧
      min (find st.nice search data t p).1 (data.length - p) = len ∧ (find st.nice search data t p).2 = j := by
  by_cases h3 : p + 3 ≤ data.length
  · have hp : ∀ j, 0 < j → j < p → hashAt data j = hashAt data p → p < j + maxDist := by
      intro j h0 hj e
      exact hnear j p h0 hj (by rw [sameHash_eq hj h3, e]; exact beq_self_eq_true _)
    have hse : searched data search p runs = (earlier (key data runs (hashAt data p)) p).take search := by
      unfold searched
      congr 1
      unfold earlier
      refine List.filter_congr fun j hj => ?_
      rw [sameHash_eq (by simpa using hj) h3]
      rfl
    have hmem : ∀ j ∈ (earlier (key data runs (hashAt data p)) p).take search, 0 < j ∧ j < p ∧ p < j + maxDist := by
      intro j hj
      obtain ⟨h1, h2⟩ := mem_earlier (List.mem_of_mem_take hj)
      have h2 : 0 < j ∧ hashAt data j = hashAt data p ∧ hidden runs j = false := by
        simpa [key, and_assoc] using h2
      exact ⟨h2.1, h1, hp j h2.1 h1 h2.2.1⟩
    have hcand : candidates data search p runs =
        (((earlier (key data runs (hashAt data p)) p).take search).filter
          fun j => decide (3 ≤ equalBytes data j p 258)).map fun j => (p - j, equalBytes data j p 258) := by
      unfold candidates
      rw [hse]
      rw [show ((earlier (key data runs (hashAt data p)) p).take search).filter
            (fun j => decide (p - j ≤ 32768) && three data j == three data p) =
          ((earlier (key data runs (hashAt data p)) p).take search).filter
            (fun j => decide (3 ≤ equalBytes data j p 258)) from by
        refine List.filter_congr fun j hj => ?_
        have := hmem j hj
        unfold maxDist at this
        rw [three_some h3, three_some (show j + 3 ≤ data.length by omega), Bool.eq_iff_iff,
          decide_eq_true_iff, equalBytes_three j p 255]
        simp
        omega]
      refine List.map_congr_left fun j hj => ?_
      have := hmem j (List.mem_filter.1 hj).1
      rw [equalBytes_eq hz 258 j p this.1 this.2.1 (by omega)]
    have hlen : (candidates data search p runs).length ≤ search := by
      rw [hcand, List.length_map]
      refine Nat.le_trans (List.length_filter_le _ _) ?_
      rw [List.length_take]
      omega
    have hg : guess st search data p runs = choose st.nice (candidates data search p runs) := by
      unfold guess
      rw [List.take_of_length_le (by omega), hf]
      cases choose st.nice (candidates data search p runs) <;> rfl
    rw [hg, hcand, find_eq h hp, walk_filter _ 2 0 (Nat.le_refl _) (P := fun j => decide (3 ≤ equalBytes data j p 258))
      (by intro j _ hj; simp at hj; omega)]
    have hsub : ∀ j ∈ ((earlier (key data runs (hashAt data p)) p).take search).filter
        (fun j => decide (3 ≤ equalBytes data j p 258)), (0 < j ∧ j < p ∧ p < j + maxDist) ∧ 3 ≤ equalBytes data j p 258 := by
      intro j hj
      obtain ⟨h1, h2⟩ := List.mem_filter.1 hj
      exact ⟨hmem j h1, by simpa using h2⟩
    rcases walk_choose (data := data) (p := p) (nice := st.nice) _ (fun j hj => (hsub j hj).2)
      (fun j hj => (hsub j hj).1.2.1) with ⟨h1, h2⟩ | ⟨j, hj, h1, h2⟩
    · refine .inl ⟨h1, ?_⟩
      rw [h2]
      show min 2 _ < 3
      omega
    · obtain ⟨⟨j0, jp, jd⟩, j3⟩ := hsub j hj
      have e := equalBytes_eq hz 258 j p j0 jp (by omega)
      have hcp : commonPrefix (data.drop p) (data.drop j) ≤ data.length - p := by
        apply Decidable.byContradiction
        intro hn
        obtain ⟨b, hb, _⟩ := commonPrefix_spec (i := data.length - p) (Nat.lt_of_not_le hn)
        rw [List.getElem?_drop, List.getElem?_eq_none (by omega)] at hb
        cases hb
      refine .inr ⟨j, _, j0, jp, jd, j3, by omega, h1, ?_, ?_⟩
      · rw [h2]
        show min (equalBytes data j p 258) _ = _
        omega
      · rw [h2]
  · refine .inl ⟨?_, by omega⟩
    have : searched data search p runs = [] := by
      unfold searched
      rw [List.filter_eq_nil_iff.2, List.take_nil]
      intro j _
      unfold sameHash
      rw [three_none (show data.length < p + 3 by omega)]
      cases three data j <;> simp
    unfold guess candidates
    rw [this, List.filter_nil, List.map_nil, List.take_nil]
    rfl

/-! ### All steps -/

theorem near_of_short {data : List UInt8} (h : data.length ≤ 32507) : Near data := by
  intro j p h0 hj hs
  have : three data p ≠ none := by
    intro e
    unfold sameHash at hs
    rw [e] at hs
    cases three data j <;> simp at hs
  have hp : p + 3 ≤ data.length := by
    apply Decidable.byContradiction
    intro hn
    exact this (three_none (by omega))
  unfold maxDist
  omega

/-- The codes of `deflate_fast`, searching as few positions as the tracer does, are all as guessed. -/
theorem fast_trace {data : List UInt8} (hz : Clear data) (hn : Near data) {st : Settings} {search l : Nat}
    (hs : search ≤ st.chain) (hf : st.dropFar = false) (hi : st.insert = some l) (fuel p : Nat) (t : Tables)
    (runs : List (Nat × Nat)) (h : Holds data t p runs) (hp : p ≤ data.length) (hfuel : data.length - p ≤ fuel) :
    refTrace st search data p runs (fast st.nice l search data fuel p t) =
        List.replicate (fast st.nice l search data fuel p t).length .correct ∧
      ((fast st.nice l search data fuel p t).map Code.emittedBytes).sum = data.length - p := by
  induction fuel generalizing p t runs with
  | zero => exact ⟨rfl, by show 0 = _; omega⟩
  | succ fuel ih =>
    rw [fast]
    by_cases hd : p < data.length
    · rw [if_pos hd]
      dsimp only
      rw [show (if t.head (hashAt data p) ≠ 0 ∧ p - t.head (hashAt data p) ≤ maxDist then
          longestMatch data (insertString data t p) p st.nice search (t.head (hashAt data p)) 2 0
          else (2, 0)) = find st.nice search data t p from rfl]
      rcases find_guess hz h hn hd hs hf (st := st) with ⟨h1, h2⟩ | ⟨j, len, j0, jp, jd, l3, l258, h1, h2, h3⟩
      · rw [if_neg (by omega)]
        obtain ⟨i1, i2⟩ := ih (p + 1) _ runs h.insert (by omega) (by omega)
        refine ⟨?_, ?_⟩
        · rw [refTrace, h1, i1, List.length_cons, List.replicate_succ]
          congr 1
          have : byte data p = data[p] := by unfold byte; rw [List.getElem?_eq_getElem hd]; rfl
          rw [if_pos (by simp [says, this, hd])]
        · rw [List.map_cons, List.sum_cons, i2]
          show 1 + _ = _
          omega
      · rw [h2, h3, if_pos l3]
        obtain ⟨x, e, xr, xd⟩ := Runs.back_run (d := p - j) l3 l258
        have e' : Code.reference ⟨(p - j).toUInt16, (len - 3).toUInt8⟩ = .reference x := e
        rw [e']
        have hx : x.dist.toNat = p - j := by
          rw [xd]
          unfold maxDist at jd
          show (UInt16.ofNat (p - j)).toNat = p - j
          rw [UInt16.toNat_ofNat_of_lt' (by show _ < 65536; omega)]
        have hl : len ≤ data.length - p := by omega
        have hnext : Holds data
            (if len ≤ l then insertStrings data (insertString data t p) (p + 1) (len - 1) else insertString data t p)
            (p + len) (if st.insert.any (fun l => decide (l < x.run)) then runs ++ [(p, x.run)] else runs) := by
          rw [hi, xr, Option.any_some]
          by_cases hle : len ≤ l
          · rw [if_pos hle, if_neg (by simpa using hle), show p + len = p + 1 + (len - 1) by omega]
            exact h.insert.inserts _
          · rw [if_neg hle, if_pos (by simpa using hle)]
            exact h.insert.skip (by omega)
        obtain ⟨i1, i2⟩ := ih (p + len) _ _ hnext (by omega) (by omega)
        refine ⟨?_, ?_⟩
        · rw [refTrace, h1, xr]
          rw [xr] at i1
          rw [i1, List.length_cons, List.replicate_succ]
          congr 1
          rw [if_pos (by simp [says, hx, xr])]
        · rw [List.map_cons, List.sum_cons, i2]
          show x.run + _ = _
          omega
    · rw [if_neg hd]
      exact ⟨rfl, by show 0 = _; omega⟩

/-! ### The codes stand for the data -/

/-- What the tables refer to is before `p`. -/
structure Below (t : Tables) (p : Nat) : Prop where
  head : ∀ h, t.head h ≠ 0 → t.head h < p
  prev : ∀ j, t.prev j ≠ 0 → t.prev j < p

theorem Below.empty : Below empty 0 := ⟨fun _ h => absurd rfl h, fun _ h => absurd rfl h⟩

theorem Below.mono {t : Tables} {p q : Nat} (h : Below t p) (hq : p ≤ q) : Below t q :=
  ⟨fun k hk => Nat.lt_of_lt_of_le (h.head k hk) hq, fun k hk => Nat.lt_of_lt_of_le (h.prev k hk) hq⟩

theorem Below.prev_insert {data : List UInt8} {t : Tables} {p : Nat} (h : Below t p) (j : Nat)
    (hj : (insertString data t p).prev j ≠ 0) : (insertString data t p).prev j < p := by
  change (if j = p then t.head (hashAt data p) else t.prev j) ≠ 0 at hj
  show (if j = p then t.head (hashAt data p) else t.prev j) < p
  by_cases e : j = p
  · rw [if_pos e] at hj ⊢
    exact h.head _ hj
  · rw [if_neg e] at hj ⊢
    exact h.prev _ hj

theorem Below.insert {data : List UInt8} {t : Tables} {p : Nat} (h : Below t p) :
    Below (insertString data t p) (p + 1) := by
  refine ⟨?_, fun j hj => Nat.lt_succ_of_lt (h.prev_insert j hj)⟩
  intro k hk
  change (if k = hashAt data p then p else t.head k) ≠ 0 at hk
  show (if k = hashAt data p then p else t.head k) < p + 1
  by_cases e : k = hashAt data p
  · rw [if_pos e]
    omega
  · rw [if_neg e] at hk ⊢
    exact Nat.lt_succ_of_lt (h.head _ hk)

theorem Below.inserts {data : List UInt8} {t : Tables} {p : Nat} (n : Nat) (h : Below t p) :
    Below (insertStrings data t p n) (p + n) := by
  induction n generalizing t p with
  | zero => exact h
  | succ n ih =>
    rw [show p + (n + 1) = p + 1 + n by omega]
    exact ih h.insert

/-- A match at `p` of the given length and start. -/
def Sound (data : List UInt8) (p : Nat) (m : Nat × Nat) : Prop :=
  m.2 < p ∧ p - m.2 ≤ maxDist ∧ m.1 ≤ equalBytes data m.2 p 258

theorem longestMatch_sound {data : List UInt8} {t : Tables} {p : Nat} (ht : ∀ j, t.prev j ≠ 0 → t.prev j < p)
    (nice chain cur best start : Nat) (hc : cur < p) (hd : p - cur ≤ maxDist) :
    longestMatch data t p nice chain cur best start = (best, start) ∨
      Sound data p (longestMatch data t p nice chain cur best start) := by
  induction chain generalizing cur best start with
  | zero => exact .inl rfl
  | succ chain ih =>
    rw [longestMatch]
    dsimp only
    have hs : Sound data p (equalBytes data cur p 258, cur) := ⟨hc, hd, Nat.le_refl _⟩
    by_cases hb : best < equalBytes data cur p 258 ∧ nice ≤ equalBytes data cur p 258
    · rw [if_pos hb]
      exact .inr hs
    · rw [if_neg hb]
      by_cases hn : p - maxDist < t.prev cur
      · rw [if_pos hn]
        have hlt := ht cur (by omega)
        by_cases h' : best < equalBytes data cur p 258
        · rw [if_pos h']
          rcases ih (t.prev cur) (equalBytes data cur p 258) cur hlt (by omega) with h1 | h1
          · rw [h1]
            exact .inr hs
          · exact .inr h1
        · rw [if_neg h']
          exact ih (t.prev cur) best start hlt (by omega)
      · rw [if_neg hn]
        by_cases h' : best < equalBytes data cur p 258
        · rw [if_pos h']
          exact .inr hs
        · rw [if_neg h']
          exact .inl rfl

theorem equalBytes_le (data : List UInt8) (i j n : Nat) : equalBytes data i j n ≤ n := by
  induction n generalizing i j with
  | zero => exact Nat.le_refl _
  | succ n ih =>
    rw [equalBytes]
    by_cases h : byte data i = byte data j
    · rw [if_pos h]
      have := ih (i + 1) (j + 1)
      omega
    · rw [if_neg h]
      omega

theorem equalBytes_get {data : List UInt8} {i j n k : Nat} (h : k < equalBytes data i j n) :
    byte data (i + k) = byte data (j + k) := by
  induction n generalizing i j k with
  | zero => exact absurd h (Nat.not_lt_zero _)
  | succ n ih =>
    rw [equalBytes] at h
    by_cases e : byte data i = byte data j
    · rw [if_pos e] at h
      cases k with
      | zero => exact e
      | succ k =>
        have := ih (i := i + 1) (j := j + 1) (k := k) (by omega)
        rw [show i + (k + 1) = i + 1 + k by omega, show j + (k + 1) = j + 1 + k by omega]
        exact this
    · rw [if_neg e] at h
      omega

theorem expand_mono {W W' : Nat} (hW : W ≤ W') {h x : List UInt8} {cs : List Code} (hx : lzExpand W h cs = some x) :
    lzExpand W' h cs = some x := by
  induction cs generalizing h x with
  | nil => exact hx
  | cons c cs ih =>
    have hc : ∀ y, lzCode W h c = some y → lzCode W' h c = some y := by
      intro y hy
      cases c with
      | literal b => exact hy
      | reference r =>
        rw [lzCode] at hy ⊢
        by_cases hr : 1 ≤ r.dist.toNat ∧ r.dist.toNat ≤ min W h.length
        · rw [if_pos hr] at hy
          rw [if_pos (by omega)]
          exact hy
        · rw [if_neg hr] at hy
          cases hy
    rw [lzExpand] at hx ⊢
    cases hy : lzCode W h c with
    | none => rw [hy] at hx; cases hx
    | some y =>
      rw [hy] at hx
      rw [hc y hy]
      dsimp only at hx ⊢
      cases hz : lzExpand W (h ++ y) cs with
      | none => rw [hz] at hx; cases hx
      | some z =>
        rw [hz] at hx
        rw [ih hz]
        exact hx

theorem expand_near {W : Nat} {h x : List UInt8} {cs : List Code} (hx : lzExpand W h cs = some x) (r : Ref)
    (hr : .reference r ∈ cs) : r.dist.toNat ≤ W := by
  induction cs generalizing h x with
  | nil => cases hr
  | cons c cs ih =>
    rw [lzExpand] at hx
    cases hy : lzCode W h c with
    | none => rw [hy] at hx; cases hx
    | some y =>
      rw [hy] at hx
      dsimp only at hx
      cases hz : lzExpand W (h ++ y) cs with
      | none => rw [hz] at hx; cases hx
      | some z =>
        rcases List.mem_cons.1 hr with e | hr
        · subst e
          rw [lzCode] at hy
          by_cases hd : 1 ≤ r.dist.toNat ∧ r.dist.toNat ≤ min W h.length
          · omega
          · rw [if_neg hd] at hy
            cases hy
        · exact ih hz hr

theorem expand_literal {data : List UInt8} {p : Nat} (hp : p < data.length) {cs : List Code}
    (h : lzExpand maxDist (data.take (p + 1)) cs = some (data.drop (p + 1))) :
    lzExpand maxDist (data.take p) (.literal (byte data p) :: cs) = some (data.drop p) := by
  have e : byte data p = data[p] := by unfold byte; rw [List.getElem?_eq_getElem hp]; rfl
  have e1 : data.take p ++ [data[p]] = data.take (p + 1) := by
    rw [List.take_add_one, List.getElem?_eq_getElem hp]; rfl
  rw [lzExpand, lzCode, e]
  dsimp only
  rw [e1, h, List.drop_eq_getElem_cons hp]
  rfl

theorem expand_reference {data : List UInt8} {p j len : Nat} (hs : Sound data p (len, j)) (h3 : 3 ≤ len)
    (hl : p + len ≤ data.length) {cs : List Code}
    (h : lzExpand maxDist (data.take (p + len)) cs = some (data.drop (p + len))) :
    lzExpand maxDist (data.take p) (.reference ⟨(p - j).toUInt16, (len - 3).toUInt8⟩ :: cs) = some (data.drop p) := by
  obtain ⟨h1, h2, h4⟩ := hs
  dsimp only at h1 h2 h4
  have h258 : len ≤ 258 := Nat.le_trans h4 (equalBytes_le _ _ _ _)
  obtain ⟨x, e, xr, xd⟩ := Runs.back_run (d := p - j) h3 h258
  have e' : Code.reference ⟨(p - j).toUInt16, (len - 3).toUInt8⟩ = .reference x := e
  rw [e']
  have hx : x.dist.toNat = p - j := by
    unfold maxDist at h2
    rw [xd]
    show (UInt16.ofNat (p - j)).toNat = p - j
    rw [UInt16.toNat_ofNat_of_lt' (by show _ < 65536; omega)]
  have hcopy : lzCopy (data.take p) (p - j) len = (data.drop p).take len := by
    refine AllRefs.lzCopy_match (by omega) (by omega) ⟨hl, ?_⟩
    intro k hk
    have := equalBytes_get (Nat.lt_of_lt_of_le hk h4)
    unfold byte at this
    rw [List.getElem?_eq_getElem (show j + k < data.length by omega),
      List.getElem?_eq_getElem (show p + k < data.length by omega)] at this
    rw [List.getElem?_eq_getElem (show p + k < data.length by omega), show p + k - (p - j) = j + k by omega,
      List.getElem?_eq_getElem (show j + k < data.length by omega)]
    exact congrArg some this.symm
  rw [lzExpand, lzCode, hx, xr, List.length_take, if_pos (by omega), hcopy]
  dsimp only
  rw [← List.take_add, h]
  dsimp only
  rw [← List.drop_drop, List.take_append_drop]

theorem fast_expand (nice insert chain : Nat) (data : List UInt8) (fuel p : Nat) (t : Tables) (h : Below t p)
    (hp : p ≤ data.length) (hfuel : data.length - p ≤ fuel) :
    lzExpand maxDist (data.take p) (fast nice insert chain data fuel p t) = some (data.drop p) := by
  induction fuel generalizing p t with
  | zero =>
    rw [List.drop_of_length_le (by omega)]
    rfl
  | succ fuel ih =>
    rw [fast]
    by_cases hd : p < data.length
    · rw [if_pos hd]
      dsimp only
      rw [show (if t.head (hashAt data p) ≠ 0 ∧ p - t.head (hashAt data p) ≤ maxDist then
          longestMatch data (insertString data t p) p nice chain (t.head (hashAt data p)) 2 0
          else (2, 0)) = find nice chain data t p from rfl]
      have hfind : find nice chain data t p = (2, 0) ∨ Sound data p (find nice chain data t p) := by
        unfold find
        by_cases hh : t.head (hashAt data p) ≠ 0 ∧ p - t.head (hashAt data p) ≤ maxDist
        · rw [if_pos hh]
          exact longestMatch_sound h.prev_insert _ _ _ _ _ (h.head _ hh.1) hh.2
        · rw [if_neg hh]
          exact .inl rfl
      generalize find nice chain data t p = m at hfind
      by_cases h3 : 3 ≤ min m.1 (data.length - p)
      · rw [if_pos h3]
        rcases hfind with rfl | ⟨s1, s2, s3⟩
        · change 3 ≤ min 2 _ at h3
          omega
        · have hs : Sound data p (min m.1 (data.length - p), m.2) := ⟨s1, s2, Nat.le_trans (Nat.min_le_left _ _) s3⟩
          refine expand_reference hs h3 (by omega) (ih _ _ ?_ (by omega) (by omega))
          by_cases hi : min m.1 (data.length - p) ≤ insert
          · rw [if_pos hi, show p + min m.1 (data.length - p) = p + 1 + (min m.1 (data.length - p) - 1) by omega]
            exact h.insert.inserts _
          · rw [if_neg hi]
            exact h.insert.mono (by omega)
      · rw [if_neg h3]
        exact expand_literal hd (ih _ _ h.insert (by omega) (by omega))
    · rw [if_neg hd, List.drop_of_length_le (by omega)]
      rfl

theorem slow_expand (good maxLazy nice chain : Nat) (data : List UInt8) (fuel p : Nat) (t : Tables) (len start : Nat)
    (available : Bool) (h : Below t p) (hp : p ≤ data.length) (hfuel : data.length - p + 1 ≤ fuel)
    (ha : available = true → 0 < p)
    (hl : 3 ≤ len → available = true ∧ Sound data (p - 1) (len, start) ∧ p - 1 + len ≤ data.length) :
    lzExpand maxDist (data.take (p - available.toNat)) (slow good maxLazy nice chain data fuel p t len start available) =
      some (data.drop (p - available.toNat)) := by
  induction fuel generalizing p t len start available with
  | zero => omega
  | succ fuel ih =>
    rw [slow]
    by_cases hd : p < data.length
    · rw [if_pos hd]
      dsimp only
      generalize hfound : (if t.head (hashAt data p) ≠ 0 ∧ len < maxLazy ∧ p - t.head (hashAt data p) ≤ maxDist then
          if min (longestMatch data (insertString data t p) p nice (if good ≤ len then chain / 4 else chain)
              (t.head (hashAt data p)) len start).1 (data.length - p) = 3 ∧
              4096 < p - (longestMatch data (insertString data t p) p nice (if good ≤ len then chain / 4 else chain)
                (t.head (hashAt data p)) len start).2 then
            (2, (longestMatch data (insertString data t p) p nice (if good ≤ len then chain / 4 else chain)
              (t.head (hashAt data p)) len start).2)
          else (min (longestMatch data (insertString data t p) p nice (if good ≤ len then chain / 4 else chain)
              (t.head (hashAt data p)) len start).1 (data.length - p),
            (longestMatch data (insertString data t p) p nice (if good ≤ len then chain / 4 else chain)
              (t.head (hashAt data p)) len start).2)
        else (2, start)) = found
      have hf : found.1 ≤ max 2 len ∨ (Sound data p found ∧ p + found.1 ≤ data.length) := by
        by_cases hh : t.head (hashAt data p) ≠ 0 ∧ len < maxLazy ∧ p - t.head (hashAt data p) ≤ maxDist
        · rw [if_pos hh] at hfound
          have hs := longestMatch_sound (data := data) (h.prev_insert (data := data)) nice (if good ≤ len then chain / 4 else chain) _ len start
            (h.head _ hh.1) hh.2.2
          generalize longestMatch data (insertString data t p) p nice (if good ≤ len then chain / 4 else chain)
            (t.head (hashAt data p)) len start = m at hfound hs
          by_cases h4 : min m.1 (data.length - p) = 3 ∧ 4096 < p - m.2
          · rw [if_pos h4] at hfound
            rw [← hfound]
            exact .inl (by show 2 ≤ _; omega)
          · rw [if_neg h4] at hfound
            rw [← hfound]
            rcases hs with rfl | ⟨s1, s2, s3⟩
            · exact .inl (by show min len _ ≤ _; omega)
            · exact .inr ⟨⟨s1, s2, Nat.le_trans (Nat.min_le_left _ _) s3⟩, by show p + min _ _ ≤ _; omega⟩
        · rw [if_neg hh] at hfound
          rw [← hfound]
          exact .inl (by show 2 ≤ _; omega)
      by_cases he : 3 ≤ len ∧ found.1 ≤ len
      · rw [if_pos he]
        obtain ⟨a1, a2, a3⟩ := hl he.1
        subst a1
        have hp0 := ha rfl
        rw [show p - 1 - start = (p - true.toNat) - start from rfl]
        refine expand_reference a2 he.1 a3 ?_
        have := ih (p + len - 1) (insertStrings data (insertString data t p) (p + 1) (len - 2)) 2 found.2 false
          (by rw [show p + len - 1 = p + 1 + (len - 2) by omega]; exact h.insert.inserts _) (by omega) (by omega)
          (by simp) (by omega)
        rw [show p + len - 1 - false.toNat = p - 1 + len by show p + len - 1 - 0 = _; omega] at this
        exact this
      · rw [if_neg he]
        have next := ih (p + 1) (insertString data t p) found.1 found.2 true h.insert (by omega) (by omega)
          (by intro _; omega) (by
            intro h3
            refine ⟨rfl, ?_⟩
            rcases hf with hf | hf
            · omega
            · exact hf)
        rw [show p + 1 - true.toNat = p from rfl] at next
        cases available with
        | true =>
          have hp0 := ha rfl
          rw [if_pos rfl]
          refine expand_literal (p := p - 1) (by omega) ?_
          rw [show p - 1 + 1 = p by omega]
          exact next
        | false =>
          rw [if_neg (by simp)]
          exact next
    · rw [if_neg hd]
      cases available with
      | true =>
        have hp0 := ha rfl
        rw [if_pos rfl]
        refine expand_literal (p := p - 1) (by omega) ?_
        rw [show p - 1 + 1 = p by omega, List.drop_of_length_le (by omega)]
        rfl
      | false =>
        rw [if_neg (by simp), List.drop_of_length_le (by show _ ≤ p - 0; omega)]
        rfl

/-! ### Data with a match farther away than gzip looks -/

/-- Bytes with 1, 2, 3 right after the first one, and again `n + 3` bytes later. -/
def farData (n : Nat) : List UInt8 := 9 :: 1 :: 2 :: 3 :: (List.replicate n 7 ++ [1, 2, 3, 7])

theorem choose_mem {cap : Nat} {cs : List (Nat × Nat)} {c : Nat × Nat} (h : choose cap cs = some c) : c ∈ cs := by
  unfold choose at h
  cases hf : cs.find? (fun c => cap ≤ c.2) with
  | some d =>
    rw [hf] at h
    cases h
    exact List.mem_of_find?_eq_some hf
  | none =>
    rw [hf] at h
    exact List.mem_of_find?_eq_some h

theorem guess_mem {st : Settings} {search : Nat} {w : List UInt8} {pos : Nat} {runs : List (Nat × Nat)} {d l : Nat}
    (h : guess st search w pos runs = some (d, l)) :
    ∃ j, 0 < j ∧ j < pos ∧ l ≤ commonPrefix (w.drop pos) (w.drop j) := by
  unfold guess at h
  have hc := choose_mem (Option.eq_some_of_filter_eq_some h)
  have hm := List.mem_of_mem_take hc
  unfold candidates at hm
  obtain ⟨j, hj, e⟩ := List.mem_map.1 hm
  have hs := List.mem_of_mem_take (List.mem_filter.1 hj).1
  obtain ⟨h1, h2⟩ := List.mem_filter.1 hs
  simp only [Bool.and_eq_true, decide_eq_true_eq] at h2
  have el := (Prod.mk.inj e).2
  exact ⟨j, h2.1.1, by simpa using h1, by omega⟩

theorem farData_length (n : Nat) : (farData n).length = n + 8 := by simp [farData]

theorem farData_drop (n : Nat) : (farData n).drop (n + 4) = [1, 2, 3, 7] := by
  unfold farData
  rw [List.drop_succ_cons, List.drop_succ_cons, List.drop_succ_cons, List.drop_succ_cons, List.drop_left' (by simp)]

theorem farData_get {n i : Nat} (h2 : 2 ≤ i) (hi : i < n + 4) (b : UInt8) (hb : (farData n)[i]? = some b) : b ≠ 1 := by
  have : i = 2 ∨ i = 3 ∨ 4 ≤ i := by omega
  rcases this with rfl | rfl | h4
  · cases hb; decide
  · cases hb; decide
  · obtain ⟨k, rfl⟩ : ∃ k, i = k + 4 := ⟨i - 4, by omega⟩
    change (List.replicate n (7 : UInt8) ++ [1, 2, 3, 7])[k]? = some b at hb
    rw [List.getElem?_append_left (by simp; omega), List.getElem?_replicate, if_pos (by omega)] at hb
    cases hb
    decide

theorem farData_rest (n i : Nat) (hi : i < n + 2) :
    ∃ c, (List.replicate n (7 : UInt8) ++ [1, 2, 3, 7])[i]? = some c ∧ c.toNat % 32 ≠ 3 := by
  by_cases h : i < n
  · refine ⟨7, ?_, by decide⟩
    rw [List.getElem?_append_left (by simpa using h), List.getElem?_replicate, if_pos h]
  · rw [List.getElem?_append_right (by simp; omega), List.length_replicate]
    have : i - n = 0 ∨ i - n = 1 := by omega
    rcases this with e | e <;> rw [e]
    · exact ⟨1, rfl, by decide⟩
    · exact ⟨2, rfl, by decide⟩

/-- The guess at the second 1. -/
theorem farData_guess {st : Settings} {search n : Nat} {runs : List (Nat × Nat)} (hs : 0 < search) (hc : 0 < st.chain)
    (hn : 1 ≤ n) (hn2 : n + 3 ≤ 32768) (hh : hidden runs 1 = false) :
    guess st search (farData n) (n + 4) runs = some (n + 3, 4) := by
  have h3 : three (farData n) (n + 4) = some (1, 2, 3) := by
    unfold three; rw [farData_drop]
  have h31 : three (farData n) 1 = some (1, 2, 3) := rfl
  have hse : searched (farData n) search (n + 4) runs = [1] := by
    unfold searched
    rw [filter_only_one _ _ (by omega)]
    · cases search with
      | zero => omega
      | succ l => rw [List.take_succ_cons, List.take_nil]
    · rfl
    · unfold sameHash
      rw [h3, h31, hh]
      simp
    · intro j h2 hj
      obtain ⟨c, e1, e2⟩ := farData_rest n (j - 2) (by omega)
      rw [not_sameHash h3 (c := c) _ e2]
      · simp
      · obtain ⟨i, rfl⟩ : ∃ i, j = i + 2 := ⟨j - 2, by omega⟩
        exact e1
  have hcand : candidates (farData n) search (n + 4) runs = [(n + 3, 4)] := by
    unfold candidates
    rw [hse, List.filter_cons, h3, h31, if_pos (by simp; omega), List.filter_nil, List.map_cons, List.map_nil,
      farData_drop]
    obtain ⟨m, rfl⟩ : ∃ m, n = m + 1 := ⟨n - 1, by omega⟩
    rfl
  unfold guess
  rw [hcand]
  obtain ⟨k, hk⟩ : ∃ k, st.chain = k + 1 := ⟨st.chain - 1, by omega⟩
  rw [hk, List.take_succ_cons, List.take_nil]
  have : choose st.nice [(n + 3, 4)] = some (n + 3, 4) := by
    unfold choose
    by_cases h : st.nice ≤ 4 <;> simp [h]
  rw [this]
  simp

/-- Predicted codes refer back that far. -/
theorem farData_trace {st : Settings} {search n : Nat} (hs : 0 < search) (hc : 0 < st.chain) (hn : 1 ≤ n)
    (hn2 : n + 3 ≤ 32768) (cs : List Code) (pos : Nat) (runs : List (Nat × Nat)) (hp : pos ≤ n + 4)
    (hr : ∀ r ∈ runs, 0 < r.1) (hsum : (cs.map Code.emittedBytes).sum = n + 8 - pos)
    (ht : ∀ x ∈ refTrace st search (farData n) pos runs cs, x = .correct) :
    ∃ r, .reference r ∈ cs ∧ r.dist.toNat = n + 3 := by
  induction cs generalizing pos runs with
  | nil =>
    change 0 = _ at hsum
    omega
  | cons c cs ih =>
    by_cases e : pos = n + 4
    · subst e
      have hg := farData_guess (st := st) hs hc hn hn2 (runs := runs) (by
        unfold hidden
        rw [List.any_eq_false]
        intro r hm
        have := hr r hm
        simp
        omega)
      cases c with
      | literal b =>
        rw [refTrace, hg] at ht
        have := ht _ (List.mem_cons_self ..)
        simp [says] at this
      | reference r =>
        rw [refTrace, hg] at ht
        have := ht _ (List.mem_cons_self ..)
        refine ⟨r, by simp, ?_⟩
        by_cases h : (some (n + 3, 4) == some (r.dist.toNat, r.run)) = true
        · have := Option.some.inj (beq_iff_eq.1 h)
          exact (Prod.mk.inj this).1.symm
        · rw [says, if_neg h] at this
          cases this
    · cases c with
      | literal b =>
        rw [refTrace] at ht
        change 1 + (cs.map Code.emittedBytes).sum = _ at hsum
        obtain ⟨r, h1, h2⟩ := ih (pos + 1) runs (by omega) hr (by omega) fun x hx => ht x (List.mem_cons_of_mem _ hx)
        exact ⟨r, List.mem_cons_of_mem _ h1, h2⟩
      | reference x =>
        rw [refTrace] at ht
        have h0 := ht _ (List.mem_cons_self ..)
        have hsay : says (farData n) pos (guess st search (farData n) pos runs) (.reference x) = true := by
          apply Decidable.byContradiction
          intro h
          rw [if_neg h] at h0
          cases h0
        rw [says] at hsay
        obtain ⟨j, j0, jp, hl⟩ := guess_mem (beq_iff_eq.1 hsay)
        have hfit : pos + x.run ≤ n + 4 := by
          apply Decidable.byContradiction
          intro hno
          obtain ⟨b, e1, e2⟩ := commonPrefix_spec (i := n + 4 - pos) (Nat.lt_of_lt_of_le (by omega) hl)
          rw [List.getElem?_drop, show pos + (n + 4 - pos) = n + 4 by omega] at e1
          rw [List.getElem?_drop] at e2
          have e1' : (farData n)[n + 4]? = ((farData n).drop (n + 4))[0]? := by rw [List.getElem?_drop]
          rw [e1', farData_drop] at e1
          cases e1
          exact farData_get (by omega) (by omega) _ e2 rfl
        change x.run + (cs.map Code.emittedBytes).sum = _ at hsum
        obtain ⟨r, h1, h2⟩ := ih (pos + x.run) _ hfit (by
            intro r hm
            by_cases hi : st.insert.any (fun l => decide (l < x.run)) = true
            · rw [if_pos hi] at hm
              rcases List.mem_append.1 hm with hm | hm
              · exact hr r hm
              · rw [List.mem_singleton.1 hm]
                show 0 < pos
                omega
            · rw [if_neg hi] at hm
              exact hr r hm) (by omega) fun y hy => ht y (List.mem_cons_of_mem _ hy)
        exact ⟨r, List.mem_cons_of_mem _ h1, h2⟩

end Spec.GzipDeflate

end Rezip
