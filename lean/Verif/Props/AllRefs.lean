import Verif.Lemmas.AllRefs
import Verif.Model.Trace
import Verif.Spec.Iter

/-!
# C46-C52, C55: the position index, the candidate search, the picker, obscured positions
-/

namespace Rezip

open Rezip.Spec

/-! ### C46 -/

/-- C46. Building the index never fails; looking for candidates at any position, with any obscured
positions and limit, never fails and gives nothing exactly when fewer than three bytes are left.
Every candidate has distance 1..=32768 and run 3..=258, stays inside the window on both sides, and
copying `run` bytes from `dist` back gives the bytes that are there. -/
theorem C46_real_match (preroll data : List UInt8) (limit pos : Nat) (obscura : List Obscure) :
    ∃ a, AllRefs.withSixteen preroll data limit = .ok a ∧
      (((preroll ++ data).length < pos + 3 ∧ a.at_ pos obscura = .ok none) ∨
       (pos + 3 ≤ (preroll ++ data).length ∧ ∃ rs, a.at_ pos obscura = .ok (some rs) ∧
          ∀ r ∈ rs, RefOk r ∧ r.dist.toNat ≤ pos ∧ pos + r.run ≤ (preroll ++ data).length ∧
            lzCopy ((preroll ++ data).take pos) r.dist.toNat r.run =
              ((preroll ++ data).drop pos).take r.run)) := by
  obtain ⟨a, h1, rfl, rfl, h4, h5⟩ := AllRefs.withSixteen_ok preroll data limit
  refine ⟨a, h1, ?_⟩
  have := AllRefs.at_ok h5 pos obscura
  cases hk : threeAt a.win pos with
  | none =>
    rw [hk] at this
    left
    refine ⟨?_, this⟩
    apply Decidable.byContradiction
    intro hn
    rw [BackMap.threeAt_some (by show pos + 2 < (a.preroll ++ a.data).length; omega)] at hk
    cases hk
  | some k =>
    rw [hk] at this
    obtain ⟨rs, r1, r2, _⟩ := this
    have hl := BackMap.threeAt_lt hk
    right
    refine ⟨hl, rs, r1, fun r hr => ?_⟩
    obtain ⟨m1, m2, m3, m4, m5⟩ := r2 r hr
    have hrun := UInt8.toNat_lt r.runMinus3
    refine ⟨⟨m1, m2, by unfold Ref.run; omega, by unfold Ref.run; omega⟩, by omega, m4.1, ?_⟩
    exact AllRefs.lzCopy_match m1 (by omega) m4

/-- A candidate that overlaps its own copy. -/
example : (match AllRefs.withSixteen [] [1, 2, 3, 2, 3, 2, 3, 2, 9] 10 with
    | .ok a => a.at_ 3 []
    | .error e => .error e) = .ok (some [⟨2, 2⟩]) := by decide +kernel

/-! ### C47 -/

/-- C47. The run of every candidate is maximal: it is 258, or ends at the end of the data, or the
next byte differs. -/
theorem C47_maximal (preroll data : List UInt8) (limit pos : Nat) (obscura : List Obscure)
    (a : AllRefs) (ha : AllRefs.withSixteen preroll data limit = .ok a) (rs : List Ref)
    (hr : a.at_ pos obscura = .ok (some rs)) (r : Ref) (hmem : r ∈ rs) :
    r.run = 258 ∨ pos + r.run = (preroll ++ data).length ∨
      (preroll ++ data)[pos + r.run]? ≠ (preroll ++ data)[pos + r.run - r.dist.toNat]? := by
  obtain ⟨a', h1, rfl, rfl, h4, h5⟩ := AllRefs.withSixteen_ok preroll data limit
  rw [ha] at h1
  cases h1
  have := AllRefs.at_ok h5 pos obscura
  cases hk : threeAt a.win pos with
  | none => rw [hk, hr] at this; cases this
  | some k =>
    rw [hk, hr] at this
    obtain ⟨rs', r1, r2, _⟩ := this
    cases r1
    exact (r2 r hmem).maximal

/-- Stopped by a different byte, and by the end of the data. -/
example : (match AllRefs.withSixteen [7] [1, 2, 3, 4, 1, 2, 3, 5, 1, 2, 3] 10 with
    | .ok a => (a.at_ 5 [], a.at_ 9 [])
    | .error e => (.error e, .error e)) =
      (.ok (some [⟨4, 0⟩]), .ok (some [⟨4, 0⟩, ⟨8, 0⟩])) := by decide +kernel

/-! ### C48 -/

/-- The earlier positions worth a reference from `pos`: not the first, within 32768, same three
bytes; nearest first. -/
def usefulPositions (w : List UInt8) (pos : Nat) : List Nat :=
  latestFirst (fun j => decide (0 < j) && decide (pos - j ≤ 32768) &&
    (threeAt w j == threeAt w pos)) pos

theorem useful_filter (w : List UInt8) (pos : Nat) (k : Key) (hk : threeAt w pos = some k) :
    (latestFirst (fun j => decide (0 < j) && hashesTo w k.hash16 j) pos).filter
      (fun off => decide (pos - off ≤ 32768) && threeAt w off == some k) =
    usefulPositions w pos := by
  unfold usefulPositions
  rw [latestFirst_filter, hk]
  congr 1
  funext j
  by_cases h3 : threeAt w j = some k
  · have : hashesTo w k.hash16 j = true := by unfold hashesTo; rw [h3]; simp
    simp [h3, this]
  · have : (threeAt w j == some k) = false := by
      apply Bool.eq_false_iff.2
      intro h
      exact h3 (by simpa using h)
    simp [this]

/-- C48. With nothing obscured, and no more earlier positions with an equal hash than the limit, the
candidates refer to exactly the useful positions, nearest first. -/
theorem C48_complete (preroll data : List UInt8) (limit pos : Nat) (k : Key)
    (hk : threeAt (preroll ++ data) pos = some k)
    (hl : ((List.range pos).filter (hashesTo (preroll ++ data) k.hash16)).length ≤ limit) :
    ∃ a rs, AllRefs.withSixteen preroll data limit = .ok a ∧ a.at_ pos [] = .ok (some rs) ∧
      rs.map (fun r => pos - r.dist.toNat) = usefulPositions (preroll ++ data) pos := by
  obtain ⟨a, h1, rfl, rfl, rfl, h5⟩ := AllRefs.withSixteen_ok preroll data limit
  have := AllRefs.at_ok h5 pos []
  rw [show a.win = a.preroll ++ a.data from rfl, hk] at this
  obtain ⟨rs, r1, _, r3⟩ := this
  refine ⟨a, rs, h1, r1, ?_⟩
  rw [r3]
  have e : (latestFirst (fun j => decide (0 < j) && hashesTo (a.preroll ++ a.data) k.hash16 j)
      pos).filter (fun j => !Obscured.contains [] j) =
      latestFirst (fun j => decide (0 < j) && hashesTo (a.preroll ++ a.data) k.hash16 j) pos := by
    apply List.filter_eq_self.2
    intro j _
    rfl
  rw [e, List.take_of_length_le, useful_filter _ _ _ hk]
  unfold latestFirst
  rw [List.length_reverse]
  refine Nat.le_trans ?_ hl
  rw [← List.filter_filter]
  exact List.length_filter_le _ _

/-- In general (some positions obscured, or more than the limit) the candidates are some of the useful
positions, in the same order. -/
theorem C48_sound (preroll data : List UInt8) (limit pos : Nat) (obscura : List Obscure)
    (a : AllRefs) (ha : AllRefs.withSixteen preroll data limit = .ok a) (rs : List Ref)
    (hr : a.at_ pos obscura = .ok (some rs)) :
    (rs.map (fun r => pos - r.dist.toNat)).Sublist (usefulPositions (preroll ++ data) pos) ∧
      (usefulPositions (preroll ++ data) pos).Pairwise (· > ·) := by
  refine ⟨?_, latestFirst_sorted _ _⟩
  obtain ⟨a', h1, rfl, rfl, h4, h5⟩ := AllRefs.withSixteen_ok preroll data limit
  rw [ha] at h1
  cases h1
  have := AllRefs.at_ok h5 pos obscura
  cases hk : threeAt a.win pos with
  | none => rw [hk, hr] at this; cases this
  | some k =>
    rw [hk, hr] at this
    obtain ⟨rs', r1, _, r3⟩ := this
    cases r1
    show List.Sublist _ (usefulPositions a.win pos)
    rw [r3, ← useful_filter _ _ _ hk]
    exact List.Sublist.filter _ ((List.take_sublist _ _).trans List.filter_sublist)

/-- The bytes 1 2 3 occur at 0, 1 + 3, 1 + 6 and 1 + 9; from the last one the first is not
proposed. -/
example : threeAt [1, 2, 3, 0, 1, 2, 3, 1, 2, 3, 1, 2, 3] 10 = some ⟨1, 2, 3⟩ ∧
    usefulPositions [1, 2, 3, 0, 1, 2, 3, 1, 2, 3, 1, 2, 3] 10 = [7, 4] ∧
    ((List.range 10).filter (hashesTo [1, 2, 3, 0, 1, 2, 3, 1, 2, 3, 1, 2, 3]
      (Key.hash16 ⟨1, 2, 3⟩))).length = 3 := by decide +kernel

/-! ### C49 -/

/-- C49. Building the index never fails. Looking up the three bytes found at some position other than
the first terminates and lists, in strictly decreasing order, exactly the positions other than the
first whose three bytes have the same hash. -/
theorem C49_chain (preroll data : List UInt8) (j : Nat) (key : Key) (hj : 0 < j)
    (hk : threeAt (preroll ++ data) j = some key) :
    ∃ t l, BackMap.fromWindow preroll data = .ok t ∧ t.get key = .ok l ∧
      l.Pairwise (· > ·) ∧
      ∀ i, i ∈ l ↔ 0 < i ∧ ∃ k, threeAt (preroll ++ data) i = some k ∧ k.hash16 = key.hash16 := by
  obtain ⟨t, h1, h2⟩ := BackMap.fromWindow_ok preroll data
  have hh : hashesTo (preroll ++ data) key.hash16 j = true := by unfold hashesTo; rw [hk]; simp
  refine ⟨t, _, h1, BackMap.get_ok h2 hj hh, latestFirst_sorted _ _, fun i => ?_⟩
  rw [mem_latestFirst]
  simp only [Bool.and_eq_true, decide_eq_true_eq]
  constructor
  · rintro ⟨_, h0, hi⟩
    refine ⟨h0, ?_⟩
    unfold hashesTo at hi
    split at hi
    · exact ⟨_, by assumption, by simpa using hi⟩
    · cases hi
  · rintro ⟨h0, k, h3, h4⟩
    have := BackMap.threeAt_lt h3
    refine ⟨by omega, h0, ?_⟩
    unfold hashesTo
    rw [h3]
    simpa using h4

/-- Two different keys with the same hash: both are listed (the search compares the bytes). -/
example : Key.hash16 ⟨32, 0, 5⟩ = Key.hash16 ⟨0, 0, 5⟩ ∧
    (match BackMap.fromWindow [9] [32, 0, 5, 0, 0, 5, 1] with
      | .ok t => t.get ⟨32, 0, 5⟩
      | .error e => .error e) = .ok [4, 1] := by decide +kernel

/-- Hashes stay inside the table of 32768 heads, so indexing it cannot panic. -/
theorem Key.hash16_lt (k : Key) : k.hash16 < 32768 := by
  unfold Key.hash16
  have key : ∀ x : UInt16, (x &&& 0x7fff).toNat < 32768 := by
    intro x
    rw [UInt16.toNat_and]
    have : (0x7fff : UInt16).toNat = 2 ^ 15 - 1 := by decide
    rw [this, Nat.and_two_pow_sub_one_eq_mod]
    exact Nat.mod_lt _ (by decide)
  exact key _

/-! ### C50 (candidates) -/

/-- C50, for the candidate search: no candidate at any position refers to the first byte of the
window. (See `C50_guess` for whole guesses.) -/
theorem C50_candidates (preroll data : List UInt8) (limit pos : Nat) (obscura : List Obscure)
    (a : AllRefs) (ha : AllRefs.withSixteen preroll data limit = .ok a) (rs : List Ref)
    (hr : a.at_ pos obscura = .ok (some rs)) (r : Ref) (hmem : r ∈ rs) :
    r.dist.toNat ≤ pos ∧ pos - r.dist.toNat ≠ 0 := by
  obtain ⟨a', h1, rfl, rfl, h4, h5⟩ := AllRefs.withSixteen_ok preroll data limit
  rw [ha] at h1
  cases h1
  have := AllRefs.at_ok h5 pos obscura
  cases hk : threeAt a.win pos with
  | none => rw [hk, hr] at this; cases this
  | some k =>
    rw [hk, hr] at this
    obtain ⟨rs', r1, r2, _⟩ := this
    cases r1
    have := (r2 r hmem).dist_lt
    omega

/-- Only the first byte matches: no candidates. -/
example : (match AllRefs.withSixteen [] [5, 5, 5, 5] 10 with
    | .ok a => (a.at_ 1 [])
    | .error e => .error e) = .ok (some []) := by decide +kernel

/-! ### C51 -/

theorem cappedMaxLoop_spec {α : Type} (cap : Nat) (f : α → Nat) (l : List α) (pre : List α) (m : α)
    (post : List α) (h1 : ∀ x ∈ pre, f x < f m) (h2 : ∀ x ∈ post, f x ≤ f m) (h3 : f m < cap) :
    match l.find? (fun x => decide (cap ≤ f x)) with
    | some r => Iters.cappedMaxLoop cap f m (f m) l = r
    | none => ∃ r l₁ l₂, Iters.cappedMaxLoop cap f m (f m) l = r ∧
        pre ++ m :: post ++ l = l₁ ++ r :: l₂ ∧ (∀ x ∈ l₁, f x < f r) ∧ ∀ x ∈ l₂, f x ≤ f r := by
  induction l generalizing pre m post with
  | nil => exact ⟨m, pre, post, rfl, by simp, h1, h2⟩
  | cons c l ih =>
    rw [List.find?_cons]
    by_cases hc : cap ≤ f c
    · rw [show decide (cap ≤ f c) = true by simpa using hc]
      dsimp only
      rw [Iters.cappedMaxLoop]
      rw [if_pos (by omega), if_pos hc]
    · rw [show decide (cap ≤ f c) = false by simpa using hc]
      dsimp only
      rw [Iters.cappedMaxLoop]
      by_cases hg : f c > f m
      · rw [if_pos hg, if_neg (by omega)]
        have := ih (pre ++ m :: post) c [] (by
          intro x hx
          rcases List.mem_append.1 hx with hx | hx
          · have := h1 x hx; omega
          · rcases List.mem_cons.1 hx with rfl | hx
            · exact hg
            · have := h2 x hx; omega) (by simp) (by omega)
        simpa using this
      · rw [if_neg hg]
        have := ih pre m (post ++ [c]) h1 (by
          intro x hx
          rcases List.mem_append.1 hx with hx | hx
          · exact h2 x hx
          · simp at hx; subst hx; omega) h3
        simpa using this

/-- C51. Picking the longest of any candidates: nothing only if there are none; the first with a run of
at least the cap if there is one; otherwise the first of the longest. -/
theorem C51_pick_longest (candidates : List Ref) (cap : Nat) :
    (candidates = [] ∧ Picker.longest.pick candidates cap = none) ∨
    ∃ r l₁ l₂, Picker.longest.pick candidates cap = some r ∧ candidates = l₁ ++ r :: l₂ ∧
      ((cap ≤ r.run ∧ ∀ x ∈ l₁, x.run < cap) ∨
       ((∀ x ∈ candidates, x.run < cap) ∧ (∀ x ∈ l₁, x.run < r.run) ∧
         ∀ x ∈ l₂, x.run ≤ r.run)) := by
  cases candidates with
  | nil => exact .inl ⟨rfl, rfl⟩
  | cons c l =>
    right
    show ∃ r l₁ l₂, Iters.cappedMaxBy (c :: l) cap (fun r => r.run) = some r ∧ _
    rw [Iters.cappedMaxBy]
    by_cases hc : c.run ≥ cap
    · rw [if_pos hc]
      exact ⟨c, [], l, rfl, rfl, .inl ⟨hc, by simp⟩⟩
    · rw [if_neg hc]
      have := cappedMaxLoop_spec cap (fun r : Ref => r.run) l [] c [] (by simp) (by simp) (by omega)
      cases hf : l.find? (fun x => decide (cap ≤ x.run)) with
      | some r =>
        rw [hf] at this
        obtain ⟨hr, l₁, l₂, e, hall⟩ := List.find?_eq_some_iff_append.1 hf
        refine ⟨r, c :: l₁, l₂, by rw [this], by rw [e]; rfl, .inl ⟨by simpa using hr, ?_⟩⟩
        intro x hx
        rcases List.mem_cons.1 hx with rfl | hx
        · omega
        · have := hall x hx; simpa using this
      | none =>
        rw [hf] at this
        obtain ⟨r, l₁, l₂, h1, h2, h3, h4⟩ := this
        refine ⟨r, l₁, l₂, by rw [h1], by simpa using h2, .inr ⟨?_, h3, h4⟩⟩
        intro x hx
        rcases List.mem_cons.1 hx with rfl | hx
        · omega
        · have := List.find?_eq_none.1 hf x hx
          simpa using this

/-- Both cases: cap 8 reached by the second candidate, cap 100 not reached and a tie for the longest. -/
example : Picker.longest.pick [⟨1, 2⟩, ⟨2, 6⟩, ⟨3, 50⟩] 8 = some ⟨2, 6⟩ ∧
    Picker.longest.pick [⟨1, 2⟩, ⟨2, 6⟩, ⟨3, 6⟩] 100 = some ⟨2, 6⟩ := by decide

/-! ### C52 -/

/-- C52. With the far-threes rule: the result of the longest rule if its run is greater than 3 or its
distance at most 4096, and nothing otherwise. -/
theorem C52_far_threes (candidates : List Ref) (cap : Nat) (r : Ref) :
    Picker.dropFarThrees.pick candidates cap = some r ↔
      Picker.longest.pick candidates cap = some r ∧ (r.run > 3 ∨ r.dist.toNat ≤ 4096) := by
  show (Picker.pickLongest candidates cap).filter _ = some r ↔
    Picker.pickLongest candidates cap = some r ∧ _
  rw [Option.filter_eq_some_iff]
  simp

example : Picker.dropFarThrees.pick [⟨4096, 0⟩] 8 = some ⟨4096, 0⟩ ∧
    Picker.dropFarThrees.pick [⟨4097, 0⟩] 8 = none ∧
    Picker.dropFarThrees.pick [⟨4097, 1⟩] 8 = some ⟨4097, 1⟩ := by decide

/-! ### C55 -/

/-- C55. Filtering by obscured runs keeps, in order, exactly the positions that are not strictly inside
a run. -/
theorem C55_filter (positions : List Nat) (runs : List Obscure) :
    Obscured.obscure positions runs =
      positions.filter (fun n => runs.all fun p => !(p.1 < n && n < p.1 + p.2)) := by
  unfold Obscured.obscure
  congr 1
  funext n
  induction runs with
  | nil => rfl
  | cons p runs ih =>
    obtain ⟨s, l⟩ := p
    rw [Obscured.contains, List.all_cons, ← ih]
    by_cases h : (decide (n > s) && decide (n < s + l)) = true
    · rw [if_pos h]
      have : (decide (s < n) && decide (n < s + l)) = true := by simpa using h
      simp [this]
    · rw [if_neg h]
      have : (decide (s < n) && decide (n < s + l)) = false := by simpa using h
      simp only [this]
      simp

/-- The runs to be recorded for codes emitted from `pos` on: references longer than the limit. -/
def recordedRuns (limit : Option Nat) : Nat → List Code → List Obscure
  | _, [] => []
  | pos, .literal _ :: cs => recordedRuns limit (pos + 1) cs
  | pos, .reference r :: cs =>
    (match limit with
      | some l => if l < r.run then [(pos, r.run)] else []
      | none => []) ++ recordedRuns limit (pos + r.run) cs

/-- C55. After any codes the scanner has recorded exactly the references longer than the configured
limit (none if there is no limit), with their positions, and has advanced by the bytes emitted. -/
theorem C55_recorded (t : Technique) (s : Scanner) (codes : List Code) :
    Tracing.feedAll t s codes =
      { obscured := s.obscured ++
          recordedRuns t.config.wams.insertOnlyBelowLength s.pos codes
        pos := s.pos + (codes.map Code.emittedBytes).sum } := by
  induction codes generalizing s with
  | nil => simp [Tracing.feedAll, recordedRuns]
  | cons c cs ih =>
    rw [Tracing.feedAll, ih]
    unfold Technique.feedback
    cases hl : t.config.wams.insertOnlyBelowLength with
    | none =>
      cases c <;> simp [recordedRuns, Code.emittedBytes, Nat.add_assoc]
    | some l =>
      cases c with
      | literal b => simp [recordedRuns, Code.emittedBytes, Nat.add_assoc]
      | reference r =>
        by_cases hr : r.run ≤ l
        · have : ¬ l < r.run := by omega
          simp [recordedRuns, Code.emittedBytes, Nat.add_assoc, hr, this]
        · have : l < r.run := by omega
          simp [recordedRuns, Code.emittedBytes, Nat.add_assoc, hr, this]

example : recordedRuns (some 4) 7 [.literal 1, .reference ⟨1, 1⟩, .reference ⟨2, 2⟩] = [(12, 5)] ∧
    Obscured.obscure [17, 16, 13, 12, 11] [(12, 5)] = [17, 12, 11] := by decide

end Rezip
