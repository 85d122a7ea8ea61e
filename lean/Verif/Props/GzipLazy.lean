import Verif.Lemmas.GzipLazy
import Verif.Props.GzipDeflate

/-!
# C119: what gzip writes is recognised, at levels 2 to 9

Where few positions have the same hash (`Sparse`), the number of positions that gzip and the tracer search makes no
difference. Then levels 2 and 3 are recognised as level 1 is, and at levels 4 to 9 only the lazy search makes a difference.
-/

namespace Rezip

open Spec GzipDeflate Parse Serialise

/-- All of the codes that gzip chooses for the data are predicted. -/
def Recognised (level : Nat) (data : List UInt8) : Prop :=
  ∃ tr, Tracer.tryGzip level [] data (codes level data) = .ok tr ∧ ∀ x ∈ tr, x = .correct

/-- C119 at levels 1 to 3, for `Clear` and `Near` data with few positions to search: at most `max_insert`.
What is missing: `C119_not_two`, `C119_not_three`, and as for `C119_recognised_partial`. -/
theorem C119_sparse_partial (level : Nat) (h1 : 1 ≤ level) (h3 : level ≤ 3) (good insert nice chain : Nat)
    (hrow : gzipTable[level - 1]? = some (good, insert, nice, chain)) (data : List UInt8) (hz : Clear data)
    (hn : Near data) (hs : Sparse insert data) : Recognised level data := by
  refine (C119_fast level h1 h3 good insert nice chain hrow data hz hn _ (codes_expand h1 (by omega) data)).2 ?_
  obtain ⟨_, _, _, _, hrow', hle, _⟩ := fast_row h1 h3
  rw [hrow] at hrow'
  cases hrow'
  unfold codes
  rw [hrow]
  dsimp only
  rw [if_pos (by omega)]
  exact fast_sparse hs hn nice insert hle (Nat.le_refl _) data.length 0 empty [] (Holds.empty data)

/-- The row of levels 4 to 9: `good_length`, `max_lazy`, `nice_length` and `max_chain`. -/
theorem slow_row {level : Nat} (h4 : 4 ≤ level) (h9 : level ≤ 9) :
    ∃ good maxLazy nice chain, gzipTable[level - 1]? = some (good, maxLazy, nice, chain) ∧ 2 < good ∧ 2 < maxLazy ∧
      chain / 4 ≤ 65535 ∧
      gzipSettings level = some { nice := nice, chain := chain, dropFar := true, insert := none } := by
  have : level = 4 ∨ level = 5 ∨ level = 6 ∨ level = 7 ∨ level = 8 ∨ level = 9 := by omega
  rcases this with rfl | rfl | rfl | rfl | rfl | rfl <;>
    exact ⟨_, _, _, _, rfl, by decide, by decide, by decide, rfl⟩

/-- C119 at levels 4 to 9, for `Clear` and `Near` data with few positions to search, exactly: gzip's codes are
recognised if and only if, wherever one of them starts and a match shorter than `max_lazy` is guessed there, there is no longer
match at the next byte. -/
theorem C119_lazy (level : Nat) (h4 : 4 ≤ level) (h9 : level ≤ 9) (good maxLazy nice chain : Nat)
    (hrow : gzipTable[level - 1]? = some (good, maxLazy, nice, chain)) (st : Settings)
    (hst : gzipSettings level = some st) (data : List UInt8) (hz : Clear data) (hn : Near data)
    (hs : Sparse (chain / 4) data) :
    Recognised level data ↔ ∀ pre c post, codes level data = pre ++ c :: post →
      ∀ d len, guess st 65535 data (pre.map Code.emittedBytes).sum [] = some (d, len) → len < maxLazy →
        ¬ Longer data ((pre.map Code.emittedBytes).sum + 1) len := by
  obtain ⟨_, _, _, _, hrow', hg, hl, hc, hst'⟩ := slow_row h4 h9
  rw [hrow] at hrow'
  cases hrow'
  rw [hst] at hst'
  cases hst'
  have he := codes_expand (by omega) h9 data
  unfold Recognised
  rw [C70_try_gzip level _ hst data _ he]
  have hcodes : codes level data = slow good maxLazy nice chain data (data.length + 1) 0 empty 2 0 false := by
    unfold codes
    rw [hrow]
    dsimp only
    rw [if_neg (by omega)]
  have h := (slow_trace hz hn hs (st := ⟨nice, chain, true, none⟩) hc (Nat.le_refl _) rfl rfl hg hl
    (data.length + 1)).2 0 empty 0 (Holds.empty data) (Nat.zero_le _) (by omega)
  rw [← hcodes] at h
  unfold Settled at h
  simp only [Nat.zero_add] at h
  rw [← h]
  constructor
  · rintro ⟨tr, e, hx⟩
    cases e
    exact hx
  · intro hx
    exact ⟨_, rfl, hx⟩

/-- C119 at levels 4 to 9, for `Clear` and `Near` data with few positions to search, where a match is never followed by
a longer one at the next byte. What is missing: `C119_not_lazy`, and as for `C119_recognised_partial`. -/
theorem C119_settled_partial (level : Nat) (h4 : 4 ≤ level) (h9 : level ≤ 9) (good maxLazy nice chain : Nat)
    (hrow : gzipTable[level - 1]? = some (good, maxLazy, nice, chain)) (st : Settings)
    (hst : gzipSettings level = some st) (data : List UInt8) (hz : Clear data) (hn : Near data)
    (hs : Sparse (chain / 4) data)
    (hlazy : ∀ p d len, guess st 65535 data p [] = some (d, len) → len < maxLazy → ¬ Longer data (p + 1) len) :
    Recognised level data :=
  (C119_lazy level h4 h9 good maxLazy nice chain hrow st hst data hz hn hs).2 fun _ _ _ _ => hlazy _

/-- C119 at every level, for data in which no hash of three bytes occurs twice, apart from the first position. -/
theorem C119_distinct_partial (level : Nat) (h1 : 1 ≤ level) (h9 : level ≤ 9) (data : List UInt8)
    (hd : ∀ j p, 0 < j → j < p → sameHash data j p = false) : Recognised level data := by
  have hs : Sparse 0 data := by
    intro p
    rw [List.filter_eq_nil_iff.2]
    · simp
    · intro j hj hc
      rw [Bool.and_eq_true, decide_eq_true_iff, hd j p (by
        apply Nat.pos_of_ne_zero
        rintro rfl
        simp at hc) (by simpa using hj)] at hc
      cases hc.2
  have hn : Near data := by
    intro j p h0 hj hc
    rw [hd j p h0 hj] at hc
    cases hc
  have hz : Clear data := by
    intro z h4 hz hc
    have hlt := lt_of_getElem? hz
    have := hd (z - 3) (data.length - 3) (by omega) (by omega)
    unfold sameHash at this
    rw [hc, three_some (show data.length - 3 + 3 ≤ data.length by omega)] at this
    simp at this
  by_cases h3 : level ≤ 3
  · obtain ⟨good, insert, nice, chain, hrow, _, _⟩ := fast_row h1 h3
    exact C119_sparse_partial level h1 h3 good insert nice chain hrow data hz hn (sparse_mono hs (Nat.zero_le _))
  · obtain ⟨good, maxLazy, nice, chain, hrow, _, _, _, hst⟩ := slow_row (show 4 ≤ level by omega) h9
    refine C119_settled_partial level (by omega) h9 good maxLazy nice chain hrow _ hst data hz hn
      (sparse_mono hs (Nat.zero_le _)) ?_
    intro p d len hg
    have : searched data 65535 p [] = [] := by
      have := searched_length hs p []
      unfold searched
      rw [List.length_eq_zero_iff.1 (Nat.le_zero.1 this), List.take_nil]
    unfold guess candidates at hg
    rw [this, List.filter_nil, List.map_nil, List.take_nil] at hg
    cases hg

theorem longer_iff {data : List UInt8} {p len : Nat} :
    Longer data p len ↔ ((List.range p).any fun j =>
      decide (0 < j) && decide (len < min 258 (commonPrefix (data.drop p) (data.drop j)))) = true := by
  unfold Longer
  rw [List.any_eq_true]
  constructor
  · rintro ⟨j, h0, hj, h⟩
    exact ⟨j, by simpa using hj, by rw [Bool.and_eq_true, decide_eq_true_iff, decide_eq_true_iff]; exact ⟨h0, h⟩⟩
  · rintro ⟨j, hj, h⟩
    rw [Bool.and_eq_true, decide_eq_true_iff, decide_eq_true_iff] at h
    exact ⟨j, h.1, by simpa using hj, h.2⟩

/-- `zabcdefabc1abcdef` at level 6, with two references, meets the hypotheses. -/
example : Recognised 6 [122, 97, 98, 99, 100, 101, 102, 97, 98, 99, 49, 97, 98, 99, 100, 101, 102] := by
  refine C119_settled_partial 6 (by decide) (by decide) _ _ _ _ rfl _ rfl _ (clear_of_nonzero (by decide))
    (near_of_short (by decide)) (sparse_of_short (by decide)) ?_
  intro p d len hg _ hl
  have hp : p < 17 := by
    apply Decidable.byContradiction
    intro hp
    have : searched [122, 97, 98, 99, 100, 101, 102, 97, 98, 99, 49, 97, 98, 99, 100, 101, 102] 65535 p [] = [] := by
      unfold searched
      rw [List.filter_eq_nil_iff.2, List.take_nil]
      intro j _
      unfold sameHash
      rw [three_none (j := p) (by show 17 < p + 3; omega)]
      cases three _ j <;> simp
    unfold guess candidates at hg
    rw [this] at hg
    cases hg
  have all : ∀ p : Fin 17, ((guess ⟨128, 128, true, none⟩ 65535
      [122, 97, 98, 99, 100, 101, 102, 97, 98, 99, 49, 97, 98, 99, 100, 101, 102] p.1 []).all fun m =>
        !(List.range (p.1 + 1)).any fun j => decide (0 < j) && decide (m.2 < min 258 (commonPrefix
          (List.drop (p.1 + 1) [122, 97, 98, 99, 100, 101, 102, 97, 98, 99, 49, 97, 98, 99, 100, 101, 102])
          (List.drop j [122, 97, 98, 99, 100, 101, 102, 97, 98, 99, 49, 97, 98, 99, 100, 101, 102])))) = true := by
    decide +kernel
  have := all ⟨p, hp⟩
  dsimp only at this
  rw [show guess ⟨128, 128, true, none⟩ 65535
    [122, 97, 98, 99, 100, 101, 102, 97, 98, 99, 49, 97, 98, 99, 100, 101, 102] p [] = some (d, len) from hg,
    Option.all_some, longer_iff.1 hl] at this
  cases this

/-- Its codes. -/
example : codes 6 [122, 97, 98, 99, 100, 101, 102, 97, 98, 99, 49, 97, 98, 99, 100, 101, 102] =
    [.literal 122, .literal 97, .literal 98, .literal 99, .literal 100, .literal 101, .literal 102, .reference ⟨6, 0⟩,
      .literal 49, .reference ⟨10, 3⟩] := by decide +kernel

/-- The same data at level 3. -/
example : Recognised 3 [122, 97, 98, 99, 100, 101, 102, 97, 98, 99, 49, 97, 98, 99, 100, 101, 102] := by
  refine C119_sparse_partial 3 (by decide) (by decide) _ _ _ _ rfl _ (clear_of_nonzero (by decide))
    (near_of_short (by decide)) ?_
  intro p
  by_cases hp : p < 17
  · have all : ∀ p : Fin 17, ((List.range p.1).filter fun j => decide (0 < j) && sameHash
        [122, 97, 98, 99, 100, 101, 102, 97, 98, 99, 49, 97, 98, 99, 100, 101, 102] j p.1).length ≤ 6 := by
      decide +kernel
    exact all ⟨p, hp⟩
  · rw [List.filter_eq_nil_iff.2]
    · simp
    · intro j _
      unfold sameHash
      rw [three_none (j := p) (by show 17 < p + 3; omega)]
      cases three _ j <;> simp

/-- At level 6 a longer match at the next byte makes the difference: `xabcbcdeYabcde`. -/
example : ¬ Recognised 6 [120, 97, 98, 99, 98, 99, 100, 101, 89, 97, 98, 99, 100, 101] := by
  rintro ⟨tr, h, hx⟩
  obtain ⟨tr', h', x, hx', hne⟩ := C119_not_lazy 6 (by decide) (by decide)
  rw [h] at h'
  cases h'
  exact hne (hx x hx')

end Rezip
