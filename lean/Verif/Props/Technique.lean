import Verif.Lemmas.Technique

/-!
# C45, C50, C53, C54, C64: guesses
-/

namespace Rezip

open Rezip.Spec

/-! ### C45 -/

/-- C45. For every configuration, limit and state of the scanner before the end of the window, guessing
succeeds, returns at least one code, and the codes emit no more bytes than remain. -/
theorem C45_guess (config : Config) (preroll data : List UInt8) (limit : Nat) :
    ∃ a, AllRefs.withSixteen preroll data limit = .ok a ∧
      ∀ s : Scanner, s.pos < (preroll ++ data).length →
        ∃ cs, (Technique.mk config a).codes s = .ok cs ∧ cs ≠ [] ∧
          s.pos + (cs.map Code.emittedBytes).sum ≤ (preroll ++ data).length := by
  obtain ⟨a, h1, rfl, rfl, h4, h5⟩ := AllRefs.withSixteen_ok preroll data limit
  refine ⟨a, h1, fun s hs => ?_⟩
  obtain ⟨cs, c1, c2, c3⟩ := Technique.codes_ok (t := ⟨config, a⟩) h5 s hs
  exact ⟨cs, c1, c2, c3.bound⟩

/-- C45, and what they say is true: after the bytes before them they expand to the bytes there. -/
theorem C45_guess_correct (config : Config) (preroll data : List UInt8) (limit : Nat) (a : AllRefs)
    (ha : AllRefs.withSixteen preroll data limit = .ok a) (s : Scanner)
    (hs : s.pos < (preroll ++ data).length) (cs : List Code)
    (hc : (Technique.mk config a).codes s = .ok cs) :
    lzExpand 32768 ((preroll ++ data).take s.pos) cs =
      some (((preroll ++ data).drop s.pos).take (cs.map Code.emittedBytes).sum) := by
  obtain ⟨a', h1, rfl, rfl, h4, h5⟩ := AllRefs.withSixteen_ok preroll data limit
  rw [ha] at h1; cases h1
  obtain ⟨cs', c1, c2, c3⟩ := Technique.codes_ok (t := ⟨config, a⟩) h5 s hs
  rw [hc] at c1; cases c1
  exact c3.expand

/-- Lazy lookahead with a better match one byte later: a literal and a reference. -/
example : (match AllRefs.withSixteen [9, 1, 2, 3, 0, 2, 3, 4, 5, 6] [1, 2, 3, 4, 5, 6] 100 with
    | .ok a => (Technique.mk ⟨false, .gzip, .longest, Wams.greedy 258 100 100⟩ a).codes ⟨[], 10⟩
    | .error e => .error e) = .ok [.literal 1, .reference ⟨6, 2⟩] := by decide +kernel

/-! ### C50 (guesses) -/

/-- C50. In no guess, at any position, for any configuration and scanner state, does a reference reach
the first byte of the window: the position a reference copies from is always after it. -/
theorem C50_guess (config : Config) (preroll data : List UInt8) (limit : Nat) (a : AllRefs)
    (ha : AllRefs.withSixteen preroll data limit = .ok a) (s : Scanner)
    (hs : s.pos < (preroll ++ data).length) (cs : List Code)
    (hc : (Technique.mk config a).codes s = .ok cs) (before after : List Code) (r : Ref)
    (he : cs = before ++ .reference r :: after) :
    r.dist.toNat < s.pos + (before.map Code.emittedBytes).sum := by
  obtain ⟨a', h1, rfl, rfl, h4, h5⟩ := AllRefs.withSixteen_ok preroll data limit
  rw [ha] at h1; cases h1
  obtain ⟨cs', c1, c2, c3⟩ := Technique.codes_ok (t := ⟨config, a⟩) h5 s hs
  rw [hc] at c1; cases c1
  subst he
  clear hc hs
  generalize s.pos = pos at c3
  induction before generalizing pos with
  | nil => simpa using c3.1.dist_lt
  | cons c before ih =>
    cases c with
    | literal b =>
      have := ih (by simp) _ c3.2
      simp [Code.emittedBytes]; omega
    | reference r' =>
      have := ih (by simp) _ c3.2
      simp [Code.emittedBytes]; omega

/-- All bytes equal: the first byte is guessed as a literal, the second too (a reference would have to
reach the first byte), and only then a reference follows. -/
example : (match AllRefs.withSixteen [] [5, 5, 5, 5, 5, 5] 100 with
    | .ok a => [(Technique.mk ⟨true, .greedy, .longest, Wams.greedy 258 100 100⟩ a).codes ⟨[], 0⟩,
        (Technique.mk ⟨true, .greedy, .longest, Wams.greedy 258 100 100⟩ a).codes ⟨[], 1⟩,
        (Technique.mk ⟨true, .greedy, .longest, Wams.greedy 258 100 100⟩ a).codes ⟨[], 2⟩]
    | .error e => [.error e]) =
      [.ok [.literal 5], .ok [.literal 5], .ok [.reference ⟨1, 1⟩]] := by decide +kernel

/-! ### C53 -/

/-- The full claim C53 for a configuration with lookahead: with a run of at least the abort length the
search is skipped, with a shorter run it is performed (it finds something whenever the best candidate
search does and the reduced number of distances does not prevent it, here: a single candidate). -/
def AbortClaim (config : Config) (la : LookaheadConfig) : Prop :=
  ∀ (preroll data : List UInt8) (limit : Nat) (a : AllRefs) (s : Scanner) (pos run : Nat),
    AllRefs.withSixteen preroll data limit = .ok a → pos < (preroll ++ data).length →
    config.wams.lookahead = some la →
    (la.abortAboveLength ≤ run →
      ∃ b, (Technique.mk config a).bestCandidateBetterThan s pos (some run) = .ok (b, none)) ∧
    (run < la.abortAboveLength → ∀ r b,
      (Technique.mk config a).bestCandidateBetterThan s pos none = .ok (b, some r) →
      a.at_ pos s.obscured = .ok (some [r]) →
      (Technique.mk config a).bestCandidateBetterThan s pos (some run) = .ok (b, some r))

/-- C53 is false: at gzip level 6 (abort length 16) a search is performed with a run of 16, and skipped
with a run of 15. Both halves fail. -/
theorem C53_abort_false :
    ∃ config la, Config.gzip 6 = .ok config ∧ config.wams.lookahead = some la ∧
      la.abortAboveLength = 16 ∧
      ¬ AbortClaim config la ∧
      ∃ a, AllRefs.withSixteen [] [0, 1, 2, 3, 1, 2, 3] 100 = .ok a ∧
        (Technique.mk config a).bestCandidateBetterThan ⟨[], 4⟩ 4 (some 16) =
          .ok (1, some ⟨3, 0⟩) ∧
        (Technique.mk config a).bestCandidateBetterThan ⟨[], 4⟩ 4 (some 15) = .ok (1, none) ∧
        (Technique.mk config a).bestCandidateBetterThan ⟨[], 4⟩ 4 none = .ok (1, some ⟨3, 0⟩) := by
  refine ⟨⟨true, .greedy, .dropFarThrees, Wams.lookahead 128 128 8 16⟩, ⟨8, 16⟩, by decide, rfl, rfl,
    ?_, ?_⟩
  · intro h
    obtain ⟨a, h1, _⟩ := AllRefs.withSixteen_ok [] [0, 1, 2, 3, 1, 2, 3] 100
    obtain ⟨b, hb⟩ := (h [] [0, 1, 2, 3, 1, 2, 3] 100 a ⟨[], 4⟩ 4 16 h1 (by decide) rfl).1 (by decide)
    have e : (match AllRefs.withSixteen [] [0, 1, 2, 3, 1, 2, 3] 100 with
      | .ok a => (Technique.mk ⟨true, .greedy, .dropFarThrees, Wams.lookahead 128 128 8 16⟩
          a).bestCandidateBetterThan ⟨[], 4⟩ 4 (some 16)
      | .error e => .error e) = .ok (1, some ⟨3, 0⟩) := by decide +kernel
    rw [h1] at e
    dsimp only at e
    rw [hb] at e
    cases e
  · obtain ⟨a, h1, _⟩ := AllRefs.withSixteen_ok [] [0, 1, 2, 3, 1, 2, 3] 100
    have e : (match AllRefs.withSixteen [] [0, 1, 2, 3, 1, 2, 3] 100 with
      | .ok a => (fun l : Looker => (l 4 (some 16), l 4 (some 15), l 4 none))
          ((Technique.mk ⟨true, .greedy, .dropFarThrees, Wams.lookahead 128 128 8 16⟩
            a).bestCandidateBetterThan ⟨[], 4⟩)
      | .error e => (.error e, .error e, .error e)) =
        (.ok (1, some ⟨3, 0⟩), .ok (1, none), .ok (1, some ⟨3, 0⟩)) := by decide +kernel
    rw [h1] at e
    simp only [Prod.mk.injEq] at e
    exact ⟨a, h1, e.1, e.2.1, e.2.2⟩

/-- C53, what does hold (the comparison is the wrong way round): with a run *shorter* than the abort
length the search is skipped; otherwise it picks from the first candidates, a quarter as many if the
run is above the apathetic length. -/
theorem C53_inverted_partial (config : Config) (la : LookaheadConfig)
    (hla : config.wams.lookahead = some la) (preroll data : List UInt8) (limit : Nat) (a : AllRefs)
    (ha : AllRefs.withSixteen preroll data limit = .ok a) (s : Scanner) (pos run : Nat) (b : UInt8)
    (hb : (preroll ++ data)[pos]? = some b) :
    (run < la.abortAboveLength →
      (Technique.mk config a).bestCandidateBetterThan s pos (some run) = .ok (b, none)) ∧
    (la.abortAboveLength ≤ run → ∀ rs, a.at_ pos s.obscured = .ok (some rs) →
      (Technique.mk config a).bestCandidateBetterThan s pos (some run) =
        .ok (b, config.picker.pick
          (rs.take (if la.apatheticAboveLength < run then config.wams.limitCountOfDistances / 4
            else config.wams.limitCountOfDistances))
          config.wams.quitSearchAboveLength)) := by
  obtain ⟨a', h1, rfl, rfl, h4, h5⟩ := AllRefs.withSixteen_ok preroll data limit
  rw [ha] at h1; cases h1
  have hp := lt_of_getElem? hb
  have hg : a.get pos = .ok b := by
    rw [AllRefs.get_ok hp]
    rw [List.getElem?_eq_getElem hp] at hb
    exact congrArg Except.ok (Option.some.inj hb)
  unfold Technique.bestCandidateBetterThan
  dsimp only
  rw [hg, Ex.ok_bind, hla]
  dsimp only
  constructor
  · intro h
    rw [if_pos h]
    rfl
  · intro h rs hrs
    rw [if_neg (by omega), Technique.search]
    dsimp only
    rw [hrs, Ex.ok_bind]
    rfl

example : ∃ config, Config.gzip 9 = .ok config ∧ config.wams.lookahead = some ⟨32, 258⟩ :=
  ⟨_, rfl, rfl⟩

/-! ### C54 -/

/-- The codes for `b`'s bytes at `n` positions from `pos`, then a reference. -/
def literalsThen (b : Nat → UInt8) (pos n : Nat) (r : Ref) : List Code :=
  (List.range' pos n).map (fun p => .literal (b p)) ++ [.reference r]

theorem gzipLoop_shape (b : Nat → UInt8) (f : Nat → Option Nat → Option Ref) (fuel pos : Nat)
    (r : Ref) (ret : List Code) (hf : 259 ≤ fuel + r.run) :
    ∃ (rs : List Ref) (last : Ref),
      Lookahead.gzipLoop (fun p o => .ok (b p, f p o)) fuel pos (b pos) r ret =
        .ok (ret ++ literalsThen b pos rs.length last) ∧
      (rs ++ [last]).head? = some r ∧
      (∀ i x y, (rs ++ [last])[i]? = some x → (rs ++ [last])[i + 1]? = some y →
        f (pos + i + 1) (some x.run) = some y ∧ x.run < y.run) ∧
      (∀ y, f (pos + rs.length + 1) (some last.run) = some y → y.run ≤ last.run) := by
  induction fuel generalizing pos r ret with
  | zero => have := r.run_le; omega
  | succ fuel ih =>
    rw [Lookahead.gzipLoop]
    rw [Ex.ok_bind]
    cases hn : f (pos + 1) (some r.run) with
    | none =>
      refine ⟨[], r, rfl, rfl, ?_, ?_⟩
      · intro i x y hx hy; simp at hy
      · intro y hy; simp only [List.length_nil, Nat.add_zero] at hy; rw [hn] at hy; cases hy
    | some new =>
      dsimp only
      by_cases hlt : new.run > r.run
      · rw [if_pos hlt]
        obtain ⟨rs, last, h1, h2, h3, h4⟩ := ih (pos + 1) new (ret ++ [.literal (b pos)]) (by omega)
        refine ⟨r :: rs, last, ?_, rfl, ?_, ?_⟩
        · rw [h1]
          simp [literalsThen, List.range'_succ]
        · intro i x y hx hy
          cases i with
          | zero =>
            have hy' : (rs ++ [last])[0]? = some y := by simpa using hy
            rw [← List.head?_eq_getElem?, h2] at hy'
            simp only [List.cons_append, List.getElem?_cons_zero, Option.some.injEq] at hx
            cases hy'
            subst hx
            exact ⟨hn, hlt⟩
          | succ i =>
            have := h3 i x y (by simpa using hx) (by simpa using hy)
            rw [show pos + (i + 1) + 1 = pos + 1 + i + 1 by omega]
            exact this
        · intro y hy
          refine h4 y ?_
          rw [← hy, List.length_cons]
          congr 1
          omega
      · rw [if_neg hlt]
        refine ⟨[], r, rfl, rfl, ?_, ?_⟩
        · intro i x y hx hy; simp at hy
        · intro y hy
          simp only [List.length_nil, Nat.add_zero] at hy
          rw [hn] at hy
          cases hy
          omega

/-- C54. For every search function (`b` the bytes, `f` the best candidate at a position, given the
length to beat), the lazy lookahead terminates. With no candidate at `pos` it returns the literal.
Otherwise there is a chain of candidates, the first the one at `pos`, each next one found one byte later
and strictly longer, the last not beaten one byte later; it returns one literal, the byte there, for
every candidate but the last, then the last. -/
theorem C54_lazy (b : Nat → UInt8) (f : Nat → Option Nat → Option Ref) (pos : Nat) :
    (f pos none = none ∧
      Lookahead.gzip.lookahead (fun p o => .ok (b p, f p o)) pos = .ok [.literal (b pos)]) ∨
    ∃ (rs : List Ref) (last : Ref),
      Lookahead.gzip.lookahead (fun p o => .ok (b p, f p o)) pos =
        .ok ((List.range' pos rs.length).map (fun p => .literal (b p)) ++ [.reference last]) ∧
      f pos none = (rs ++ [last]).head? ∧
      (∀ i x y, (rs ++ [last])[i]? = some x → (rs ++ [last])[i + 1]? = some y →
        f (pos + i + 1) (some x.run) = some y ∧ x.run < y.run) ∧
      (∀ y, f (pos + rs.length + 1) (some last.run) = some y → y.run ≤ last.run) := by
  show (_ ∧ Lookahead.runGzip _ _ = _) ∨ ∃ rs last, Lookahead.runGzip _ _ = _ ∧ _
  rw [Lookahead.runGzip, Looker.best, Ex.ok_bind]
  cases h : f pos none with
  | none => exact .inl ⟨rfl, rfl⟩
  | some r =>
    right
    obtain ⟨rs, last, h1, h2, h3, h4⟩ := gzipLoop_shape b f 259 pos r [] (by omega)
    exact ⟨rs, last, h1, h2.symm, h3, h4⟩

/-- Two skipped candidates. -/
example : Lookahead.gzip.lookahead (fun p _ => .ok (p.toUInt8,
    if p < 13 then some ⟨1, (p - 10).toUInt8⟩ else none)) 10 =
      .ok [.literal 10, .literal 11, .reference ⟨1, 2⟩] := by decide

/-! ### C64 -/

/-- What the three-step lookahead should choose, given the bytes and best candidates at the position
and the next two: a reference longer than three at once; otherwise the candidate one later if it is
longer than three and not beaten by the one after (which must be longer than four to count); otherwise
that one; otherwise the three. -/
def threeStep (b0 b1 : UInt8) (first : Ref) (second third : Option Ref) : List Code :=
  let later : Nat → Option Ref → Nat := fun floor o =>
    match o with
    | some r => if floor < r.run then r.run else 0
    | none => 0
  if 3 < first.run then [.reference first]
  else
    match second, third with
    | some s, none => if 0 < later 3 (some s) then [.literal b0, .reference s] else [.reference first]
    | none, some t =>
      if 0 < later 4 (some t) then [.literal b0, .literal b1, .reference t] else [.reference first]
    | some s, some t =>
      if later 3 (some s) < later 4 (some t) ∧ later 3 (some s) < 258 then
        [.literal b0, .literal b1, .reference t]
      else if 0 < later 3 (some s) then [.literal b0, .reference s]
      else [.reference first]
    | none, none => [.reference first]

/-- C64. The three-step lookahead never fails on any search function and follows `threeStep`. -/
theorem C64_three_step (b : Nat → UInt8) (f : Nat → Option Nat → Option Ref) (pos : Nat) :
    Lookahead.threeZip.lookahead (fun p o => .ok (b p, f p o)) pos =
      .ok (match f pos none with
        | none => [.literal (b pos)]
        | some first =>
          threeStep (b pos) (b (pos + 1)) first (f (pos + 1) none) (f (pos + 2) none)) := by
  show Lookahead.runThreeZip _ _ = _
  rw [Lookahead.runThreeZip, Looker.best, Ex.ok_bind]
  cases h : f pos none with
  | none => rfl
  | some first =>
    dsimp only
    unfold threeStep
    by_cases h1 : first.run > 3
    · rw [if_pos h1, if_pos h1]; rfl
    · rw [if_neg h1, if_neg h1]
      have h3 : first.run = 3 := by have := first.three_le_run; omega
      rw [h3, assert_of (by rfl), Ex.ok_bind, Looker.best, Ex.ok_bind]
      dsimp only
      have hs : ∀ x : Ref, x.run ≤ 258 := fun x => x.run_le
      cases f (pos + 1) none with
      | none =>
        rw [if_neg (by simp), Looker.best, Ex.ok_bind]
        dsimp only
        cases f (pos + 2) none with
        | none => rfl
        | some t =>
          by_cases ht : 4 < t.run
          · have : 0 < t.run := by omega
            simp [Option.filter, ht, this]
          · simp [Option.filter, ht]
      | some s =>
        by_cases h4 : 3 < s.run
        · by_cases h258 : s.run = 258
          · rw [if_pos (by simp [h258])]
            cases f (pos + 2) none with
            | none => simp [Option.filter, h258]
            | some t => simp [Option.filter, h258]
          · rw [if_neg (by simp [h258]), Looker.best, Ex.ok_bind]
            dsimp only
            have h0 : 0 < s.run := by omega
            have hlt : s.run < 258 := by have := hs s; omega
            cases f (pos + 2) none with
            | none => simp [Option.filter, h4, h0]
            | some t =>
              by_cases ht : 4 < t.run
              · by_cases hst : s.run < t.run
                · simp [Option.filter, h4, ht, hst, hlt]
                · simp [Option.filter, h4, ht, hst, h0]
              · simp [Option.filter, h4, ht, h0]
        · rw [if_neg (by simp [h4]), Looker.best, Ex.ok_bind]
          dsimp only
          cases f (pos + 2) none with
          | none => simp [Option.filter, h4]
          | some t =>
            by_cases ht : 4 < t.run
            · have : 0 < t.run := by omega
              simp [Option.filter, h4, ht, this]
            · simp [Option.filter, h4, ht]

/-- Deferring pays: whenever literals come before the reference, its run is longer than the first
candidate's, by at least the number of literals. -/
theorem C64_defer (b : Nat → UInt8) (f : Nat → Option Nat → Option Ref) (pos : Nat) (first r : Ref)
    (cs : List Code) (h : f pos none = some first)
    (hc : Lookahead.threeZip.lookahead (fun p o => .ok (b p, f p o)) pos =
      .ok (cs ++ [.reference r])) : first.run + cs.length ≤ r.run := by
  rw [C64_three_step, h] at hc
  have hc := Except.ok.inj hc
  dsimp only at hc
  have fin : ∀ (l : List Code) (x : Ref), l ++ [.reference x] = cs ++ [.reference r] →
      first.run + l.length ≤ x.run → first.run + cs.length ≤ r.run := by
    intro l x e hx
    obtain ⟨e1, e2⟩ := List.append_inj' e rfl
    cases e1; cases e2; exact hx
  have h3 := first.three_le_run
  unfold threeStep at hc
  by_cases h1 : 3 < first.run
  · rw [if_pos h1] at hc; exact fin [] first hc (by simp)
  · rw [if_neg h1] at hc
    have hf : first.run = 3 := by omega
    have goFirst : [Code.reference first] = cs ++ [.reference r] → first.run + cs.length ≤ r.run :=
      fun e => fin [] first e (by simp)
    generalize f (pos + 1) none = o1 at hc
    generalize f (pos + 2) none = o2 at hc
    cases o1 with
    | none =>
      cases o2 with
      | none => exact goFirst hc
      | some t =>
        dsimp only at hc
        by_cases ht : 4 < t.run
        · simp only [if_pos ht, if_pos (show 0 < t.run by omega)] at hc
          exact fin [_, _] t hc (by simp; omega)
        · simp only [if_neg ht, if_neg (Nat.lt_irrefl 0)] at hc; exact goFirst hc
    | some s =>
      cases o2 with
      | none =>
        dsimp only at hc
        by_cases hs : 3 < s.run
        · simp only [if_pos hs, if_pos (show 0 < s.run by omega)] at hc
          exact fin [_] s hc (by simp; omega)
        · simp only [if_neg hs, if_neg (Nat.lt_irrefl 0)] at hc; exact goFirst hc
      | some t =>
        dsimp only at hc
        by_cases hs : 3 < s.run <;> by_cases ht : 4 < t.run
        · simp only [if_pos hs, if_pos ht] at hc
          by_cases hcnd : s.run < t.run ∧ s.run < 258
          · rw [if_pos hcnd] at hc
            exact fin [_, _] t hc (by simp; omega)
          · rw [if_neg hcnd, if_pos (by omega)] at hc
            exact fin [_] s hc (by simp; omega)
        · simp only [if_pos hs, if_neg ht] at hc
          rw [if_neg (by omega), if_pos (by omega)] at hc
          exact fin [_] s hc (by simp; omega)
        · simp only [if_neg hs, if_pos ht] at hc
          rw [if_pos (by omega)] at hc
          exact fin [_, _] t hc (by simp; omega)
        · simp only [if_neg hs, if_neg ht] at hc
          rw [if_neg (by omega), if_neg (by omega)] at hc
          exact goFirst hc

example : Lookahead.threeZip.lookahead (fun p _ => .ok (p.toUInt8,
    if p < 13 then some ⟨1, (p - 10).toUInt8⟩ else none)) 10 =
      .ok [.literal 10, .literal 11, .reference ⟨1, 2⟩] := by decide

end Rezip
