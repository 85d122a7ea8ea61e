import Verif.Lemmas.AnyConfig
import Verif.Props.Restore

/-!
# C115: guessing, tracing and restoring with any configuration, exactly
-/

namespace Rezip

open Spec

/-- C115. The codes guessed at a position, for every configuration: those of the reference description. -/
theorem C115_guess (config : Config) (preroll data : List UInt8) (search : Nat) (a : AllRefs)
    (ha : AllRefs.withSixteen preroll data search = .ok a) (s : Scanner) (hs : s.pos < (preroll ++ data).length) :
    (Technique.mk config a).codes s =
      .ok (guessCodes config search (preroll ++ data) s.pos s.obscured) :=
  codes_exact config preroll data search a ha s hs

theorem feedback_eq (config : Config) (a : AllRefs) (s : Scanner) (c : Code) :
    (Technique.mk config a).feedback s c =
      ⟨runsAfter (settingsOf config) s.pos s.obscured c, s.pos + c.emittedBytes⟩ := by
  have hp := Tracing.feedback_pos (Technique.mk config a) s c
  have hob : ((Technique.mk config a).feedback s c).obscured =
      s.obscured ++ recordedRuns config.wams.insertOnlyBelowLength s.pos [c] := by
    have := C55_recorded (Technique.mk config a) s [c]
    rw [Tracing.feedAll, Tracing.feedAll] at this
    rw [this]
  have hr : s.obscured ++ recordedRuns config.wams.insertOnlyBelowLength s.pos [c] =
      runsAfter (settingsOf config) s.pos s.obscured c := by
    cases c with
    | literal b => rw [recordedRuns, recordedRuns, List.append_nil]; rfl
    | reference r =>
      show _ = if (config.wams.insertOnlyBelowLength).any _ = true then _ else _
      cases config.wams.insertOnlyBelowLength with
      | none => simp [recordedRuns]
      | some l => by_cases hl : l < r.run <;> simp [hl, recordedRuns]
  rw [hr] at hob
  cases hf : (Technique.mk config a).feedback s c with
  | mk o p =>
    rw [hf] at hob hp
    rw [show o = _ from hob, show p = _ from hp]

theorem pendingAt_cons (config : Config) (search : Nat) (w : List UInt8) (pos : Nat) (runs : List (Nat × Nat))
    (g : Code) (gs : List Code) : pendingAt config search w pos runs (g :: gs) = g :: gs := if_neg (by simp)

theorem GuessFor.lt {w : List UInt8} {pos : Nat} {g : Code} {gs : List Code} (hg : GuessFor w pos (g :: gs)) :
    pos < w.length := by
  have hb := hg.bound
  have hge := g.emittedBytes_pos
  rw [List.map_cons, List.sum_cons] at hb
  omega

theorem GuessFor.tail {w : List UInt8} {pos : Nat} {g : Code} {gs : List Code} (hg : GuessFor w pos (g :: gs)) :
    GuessFor w (pos + g.emittedBytes) gs := by
  cases g with
  | literal b => exact hg.2
  | reference r => exact hg.2

/-- One round of the tracer, with guesses `gs`. -/
theorem refTraceAny_round (config : Config) (search : Nat) (a : AllRefs) (w : List UInt8) (gs : List Code) (s : Scanner)
    (cs : List Code) (hg : GuessFor w s.pos gs) :
    refTraceAny config search w s.pos s.obscured gs cs =
      (let m := (Tracing.sharedPrefix gs cs).1
       let s' := Tracing.feedAll ⟨config, a⟩ s m
       if m.length = gs.length then
         (refTraceAny config search w s'.pos s'.obscured [] (Tracing.sharedPrefix gs cs).2).map
           (List.replicate m.length .correct ++ ·)
       else match (Tracing.sharedPrefix gs cs).2 with
         | c :: rest =>
           let s'' := (Technique.mk config a).feedback s' c
           (refTraceAny config search w s''.pos s''.obscured [] rest).map
             (List.replicate m.length .correct ++ [Tracing.hintFor c] ++ ·)
         | [] => .error .explicit) := by
  induction gs generalizing s cs with
  | nil =>
    have : Tracing.sharedPrefix [] cs = ([], cs) := by cases cs <;> rfl
    rw [this]
    dsimp only
    rw [if_pos rfl, Tracing.feedAll]
    cases refTraceAny config search w s.pos s.obscured [] cs <;> rfl
  | cons g gs ih =>
    have hlt := GuessFor.lt hg
    cases cs with
    | nil =>
      rw [refTraceAny, if_pos hlt]
      rfl
    | cons c cs =>
      rw [refTraceAny, if_pos hlt]
      dsimp only
      rw [pendingAt_cons]
      by_cases e : c = g
      · subst e
        have hsp : Tracing.sharedPrefix (c :: gs) (c :: cs) =
            (c :: (Tracing.sharedPrefix gs cs).1, (Tracing.sharedPrefix gs cs).2) := by
          rw [Tracing.sharedPrefix, if_pos rfl]
        have ih' := ih ((Technique.mk config a).feedback s c) cs
          (by rw [feedback_eq]; exact GuessFor.tail hg)
        rw [hsp, List.head?_cons, if_pos rfl, if_pos rfl, List.tail_cons]
        rw [feedback_eq] at ih'
        dsimp only at ih' ⊢
        rw [ih']
        rw [Tracing.feedAll, feedback_eq]
        generalize Tracing.feedAll (Technique.mk config a) _ (Tracing.sharedPrefix gs cs).1 = s'
        by_cases hm : (Tracing.sharedPrefix gs cs).1.length = gs.length
        · rw [if_pos hm, if_pos (by simp [hm])]
          cases refTraceAny config search w s'.pos s'.obscured [] (Tracing.sharedPrefix gs cs).2 <;> rfl
        · rw [if_neg hm, if_neg (by simpa using hm)]
          cases (Tracing.sharedPrefix gs cs).2 with
          | nil => rfl
          | cons c' rest =>
            dsimp only
            generalize refTraceAny config search w _ _ [] rest = y
            cases y <;> rfl
      · have hsp : Tracing.sharedPrefix (g :: gs) (c :: cs) = ([], c :: cs) := by
          rw [Tracing.sharedPrefix, if_neg e]
        rw [hsp, List.head?_cons, if_neg (by simpa using fun h => e h.symm), if_neg (by simpa using fun h => e h.symm)]
        dsimp only
        rw [if_neg (by simp), Tracing.feedAll, feedback_eq]
        generalize refTraceAny config search w _ _ [] cs = y
        cases c <;> cases y <;> rfl

theorem refTraceAny_loop {config : Config} {preroll data : List UInt8} {search : Nat} {a : AllRefs}
    (ha : AllRefs.withSixteen preroll data search = .ok a) (fuel : Nat) (s : Scanner) (codes : List Code)
    (hf : (preroll ++ data).length < fuel + s.pos) (hf0 : fuel ≠ 0) :
    Tracing.traceLoop ⟨config, a⟩ fuel s codes =
      (refTraceAny config search (preroll ++ data) s.pos s.obscured [] codes).mapError .panic := by
  obtain ⟨a', h3, e1, e2, _, hb⟩ := AllRefs.withSixteen_ok preroll data search
  rw [ha] at h3; cases h3
  have hw : a.win = preroll ++ data := by rw [← e1, ← e2]; rfl
  induction fuel generalizing s codes with
  | zero => exact absurd rfl hf0
  | succ fuel ih =>
    by_cases hlt : s.pos < (preroll ++ data).length
    · obtain ⟨gs, g1, g2, g3⟩ := Technique.codes_ok (t := ⟨config, a⟩) hb s (by rw [hw]; exact hlt)
      have g4 := codes_exact config preroll data search a ha s hlt
      rw [g1] at g4
      have g4 := Except.ok.inj g4
      dsimp only at g3
      rw [hw] at g3
      have hgs : refTraceAny config search (preroll ++ data) s.pos s.obscured [] codes =
          refTraceAny config search (preroll ++ data) s.pos s.obscured gs codes := by
        cases codes with
        | nil => rw [refTraceAny, refTraceAny]
        | cons c cs =>
          rw [refTraceAny, refTraceAny]
          have : pendingAt config search (preroll ++ data) s.pos s.obscured [] =
              pendingAt config search (preroll ++ data) s.pos s.obscured gs := by
            unfold pendingAt
            rw [if_pos rfl, if_neg g2, g4]
          rw [this]
      rw [Tracing.traceLoop, Tracing.moreData_iff, if_pos (by rw [hw]; simpa using hlt), g1, Ex.ok_bind,
        assert_of (by simp [g2]), Ex.ok_bind, hgs, refTraceAny_round config search a _ gs s codes g3]
      have hpos : ∀ m s, s.pos ≤ (Tracing.feedAll ⟨config, a⟩ s m).pos ∧
          (m ≠ [] → s.pos < (Tracing.feedAll ⟨config, a⟩ s m).pos) := by
        intro m
        induction m with
        | nil => intro s; exact ⟨Nat.le_refl _, fun h => absurd rfl h⟩
        | cons c m ihm =>
          intro s
          have := (ihm ((Technique.mk config a).feedback s c)).1
          rw [Tracing.feedback_pos] at this
          have := c.emittedBytes_pos
          rw [Tracing.feedAll]
          exact ⟨by omega, fun _ => by omega⟩
      dsimp only
      have hp := hpos (Tracing.sharedPrefix gs codes).1 s
      generalize Tracing.feedAll (Technique.mk config a) s (Tracing.sharedPrefix gs codes).1 = s' at hp ⊢
      by_cases hm : (Tracing.sharedPrefix gs codes).1.length = gs.length
      · have hne : (Tracing.sharedPrefix gs codes).1 ≠ [] := by
          intro h
          rw [h] at hm
          exact g2 (List.length_eq_zero_iff.1 hm.symm)
        have := hp.2 hne
        rw [if_pos hm, if_pos hm, ih s' _ (by omega) (by omega)]
        cases refTraceAny config search (preroll ++ data) s'.pos s'.obscured [] (Tracing.sharedPrefix gs codes).2 <;>
          rfl
      · rw [if_neg hm, if_neg hm]
        cases (Tracing.sharedPrefix gs codes).2 with
        | nil => rfl
        | cons c rest =>
          dsimp only
          have := hp.1
          have := c.emittedBytes_pos
          rw [ih _ _ (by rw [Tracing.feedback_pos]; omega) (by omega)]
          generalize refTraceAny config search (preroll ++ data) _ _ [] rest = y
          cases y <;> rfl
    · have : refTraceAny config search (preroll ++ data) s.pos s.obscured [] codes = .ok [] := by
        cases codes <;> rw [refTraceAny, if_neg hlt]
      rw [this, Tracing.traceLoop, Tracing.moreData_iff, if_neg (by rw [hw]; simpa using hlt)]
      rfl

/-- C115. Tracing any codes with any configuration, exactly, panics included: the trace of the reference description. -/
theorem C115_trace (config : Config) (preroll data : List UInt8) (search : Nat) (codes : List Code) :
    ∃ a, AllRefs.withSixteen preroll data search = .ok a ∧
      Tracing.trace codes ⟨config, a⟩ =
        (refTraceAny config search (preroll ++ data) preroll.length [] [] codes).mapError .panic := by
  obtain ⟨a, ha, e1, e2, _⟩ := AllRefs.withSixteen_ok preroll data search
  refine ⟨a, ha, ?_⟩
  rw [Tracing.trace, refTraceAny_loop ha]
  · show Except.mapError _ (refTraceAny _ _ _ a.preroll.length _ _ _) = _
    rw [e1]
    rfl
  · show _ < a.dataLen + 1 + _
    rw [AllRefs.dataLen, e1, e2, List.length_append]
    omega
  · omega

/-- One round of restoring, with guesses `gs`. -/
theorem refRestoreAny_round (config : Config) (search : Nat) (a : AllRefs) (w : List UInt8) (gs : List Code)
    (s : Scanner) (tr : List Trace) (hg : GuessFor w s.pos gs) :
    (refRestoreAny config search w a.data s.pos s.obscured gs tr).mapError Fail.panic =
      (Tracing.restoreInner ⟨config, a⟩ gs s tr >>= fun x =>
        ((refRestoreAny config search w a.data x.1.pos x.1.obscured [] x.2.2).map (x.2.1 ++ ·)).mapError .panic) := by
  induction gs generalizing s tr with
  | nil =>
    rw [Tracing.restoreInner]
    show _ = Except.mapError _ (Except.map _ _)
    dsimp only
    cases refRestoreAny config search w a.data s.pos s.obscured [] tr <;> rfl
  | cons g gs ih =>
    have hlt := GuessFor.lt hg
    cases tr with
    | nil =>
      rw [refRestoreAny, if_pos hlt]
      rfl
    | cons x xs =>
      rw [refRestoreAny, if_pos hlt]
      dsimp only
      rw [pendingAt_cons]
      cases x with
      | correct =>
        have ih' := ih ((Technique.mk config a).feedback s g) xs
          (by rw [feedback_eq]; exact GuessFor.tail hg)
        rw [Tracing.restoreInner]
        show Except.mapError _ (Except.map _ (refRestoreAny _ _ _ _ _ _ gs xs)) =
          ((Tracing.restoreInner ⟨config, a⟩ gs ((Technique.mk config a).feedback s g) xs >>= fun x =>
            pure (x.1, g :: x.2.1, x.2.2)) >>= _)
        have e : ∀ (y : Except Panic (List Code)), Except.mapError Fail.panic (y.map (g :: ·)) =
            (Except.mapError Fail.panic y).map (g :: ·) := by intro y; cases y <;> rfl
        rw [e]
        rw [feedback_eq] at ih' ⊢
        dsimp only at ih' ⊢
        rw [ih']
        cases Tracing.restoreInner ⟨config, a⟩ gs
            ⟨runsAfter (settingsOf config) s.pos s.obscured g, s.pos + g.emittedBytes⟩ xs with
        | error p => rfl
        | ok x =>
          simp only [Ex.ok_bind, Ex.pure_eq]
          generalize refRestoreAny config search w a.data x.1.pos x.1.obscured [] x.2.2 = y
          cases y <;> rfl
      | actually r =>
        show _ = Except.mapError _ (Except.map _ (refRestoreAny _ _ _ _
          ((Technique.mk config a).feedback s (.reference r)).pos _ _ _))
        rw [feedback_eq]
        rfl
      | actuallyLiteral =>
        rw [Tracing.restoreInner]
        dsimp only
        rw [Tracing.restoreOne, Technique.byteAt, index]
        dsimp only
        cases a.data[s.pos]? with
        | none => rfl
        | some b =>
          show _ = Except.mapError _ (Except.map _ (refRestoreAny _ _ _ _
            ((Technique.mk config a).feedback s (.literal b)).pos _ _ _))
          rw [feedback_eq]
          rfl

theorem refRestoreAny_loop {config : Config} {preroll data : List UInt8} {search : Nat} {a : AllRefs}
    (ha : AllRefs.withSixteen preroll data search = .ok a) (fuel : Nat) (s : Scanner) (tr : List Trace)
    (hf : (preroll ++ data).length < fuel + s.pos) (hf0 : fuel ≠ 0) :
    Tracing.restoreLoop ⟨config, a⟩ fuel s tr =
      (refRestoreAny config search (preroll ++ data) data s.pos s.obscured [] tr).mapError .panic := by
  obtain ⟨a', h3, e1, e2, _, hb⟩ := AllRefs.withSixteen_ok preroll data search
  rw [ha] at h3; cases h3
  have hw : a.win = preroll ++ data := by rw [← e1, ← e2]; rfl
  induction fuel generalizing s tr with
  | zero => exact absurd rfl hf0
  | succ fuel ih =>
    by_cases hlt : s.pos < (preroll ++ data).length
    · obtain ⟨gs, g1, g2, g3⟩ := Technique.codes_ok (t := ⟨config, a⟩) hb s (by rw [hw]; exact hlt)
      have g4 := codes_exact config preroll data search a ha s hlt
      rw [g1] at g4
      have g4 := Except.ok.inj g4
      dsimp only at g3
      have hgs : refRestoreAny config search (preroll ++ data) data s.pos s.obscured [] tr =
          refRestoreAny config search (preroll ++ data) a.data s.pos s.obscured gs tr := by
        rw [e2]
        cases tr with
        | nil => rw [refRestoreAny, refRestoreAny]
        | cons c cs =>
          rw [refRestoreAny, refRestoreAny]
          have : pendingAt config search (preroll ++ data) s.pos s.obscured [] =
              pendingAt config search (preroll ++ data) s.pos s.obscured gs := by
            unfold pendingAt
            rw [if_pos rfl, if_neg g2, g4]
          rw [this]
      rw [Tracing.restoreLoop, Tracing.moreData_iff, if_pos (by rw [hw]; simpa using hlt), g1, Ex.ok_bind,
        assert_of (by simp [g2]), Ex.ok_bind, hgs, refRestoreAny_round config search a _ gs s tr (by rw [← hw]; exact g3)]
      rcases Tracing.restoreInner_any (t := ⟨config, a⟩) gs s tr g3 with ⟨used, rest, out, s', h1, h2, h3, h4, h5⟩ | ⟨h1, _⟩ | ⟨h1, _⟩
      · have hne := h2 g2
        have hpos : 1 ≤ (out.map Code.emittedBytes).sum := by
          have := Tracing.length_le_sum out
          cases out with
          | nil => exact absurd rfl hne
          | cons c out => simp only [List.length_cons] at *; omega
        rw [h1, h3, Ex.ok_bind, Ex.ok_bind]
        dsimp only
        rw [ih s' rest (by omega) (by omega), e2]
        cases refRestoreAny config search (preroll ++ data) data s'.pos s'.obscured [] rest <;> rfl
      · rw [h1]; rfl
      · rw [h1]; rfl
    · have : refRestoreAny config search (preroll ++ data) data s.pos s.obscured [] tr = .ok [] := by
        cases tr <;> rw [refRestoreAny, if_neg hlt]
      rw [this, Tracing.restoreLoop, Tracing.moreData_iff, if_neg (by rw [hw]; simpa using hlt)]
      rfl

/-- C115. Restoring any trace with any configuration, exactly, panics included: the codes of the reference
description. -/
theorem C115_restore (config : Config) (preroll data : List UInt8) (search : Nat) (tr : List Trace) :
    ∃ a, AllRefs.withSixteen preroll data search = .ok a ∧
      Tracing.restore tr ⟨config, a⟩ =
        (refRestoreAny config search (preroll ++ data) data preroll.length [] [] tr).mapError .panic := by
  obtain ⟨a, ha, e1, e2, _⟩ := AllRefs.withSixteen_ok preroll data search
  refine ⟨a, ha, ?_⟩
  rw [Tracing.restore, refRestoreAny_loop ha]
  · show Except.mapError _ (refRestoreAny _ _ _ _ a.preroll.length _ _ _) = _
    rw [e1]
    rfl
  · show _ < a.dataLen + 1 + _
    rw [AllRefs.dataLen, e1, e2, List.length_append]
    omega
  · omega

theorem choose_mem {cap : Nat} {cs : List (Nat × Nat)} {c : Nat × Nat} (h : choose cap cs = some c) : c ∈ cs := by
  unfold choose at h
  split at h
  · next c' h' => cases h; exact List.mem_of_find?_eq_some h'
  · exact List.mem_of_find?_eq_some h

theorem guess_le {st : Settings} {search : Nat} {w : List UInt8} {pos : Nat} {runs : List (Nat × Nat)} {m : Nat × Nat}
    (h : guess st search w pos runs = some m) : m.2 ≤ 258 := by
  have := List.mem_of_mem_take (choose_mem (Option.filter_eq_some_iff.1 h).1)
  rw [candidates, List.mem_map] at this
  obtain ⟨j, _, rfl⟩ := this
  exact Nat.min_le_left _ _

theorem lookAt_le {config : Config} {search : Nat} {w : List UInt8} {runs : List (Nat × Nat)} {pos : Nat}
    {beat : Option Nat} {m : Nat × Nat} (h : lookAt config search w runs pos beat = some m) : m.2 ≤ 258 := by
  unfold lookAt at h
  dsimp only at h
  split at h
  · split at h
    · cases h
    · exact guess_le h
  · exact guess_le h

/-- C115. Lazy evaluation only takes place for matches of at least the abort length: one shorter than that is guessed
just as without lookahead. -/
theorem C115_short (config : Config) (la : LookaheadConfig) (hl : config.wams.lookahead = some la)
    (preroll data : List UInt8) (search : Nat) (a : AllRefs) (ha : AllRefs.withSixteen preroll data search = .ok a)
    (s : Scanner) (hs : s.pos < (preroll ++ data).length) (r : Ref)
    (hr : (Technique.mk { config with lookahead := .greedy } a).codes s = .ok [.reference r])
    (hshort : r.run < la.abortAboveLength) :
    (Technique.mk { config with lookahead := .gzip } a).codes s = .ok [.reference r] := by
  rw [codes_exact _ preroll data search a ha s hs] at hr ⊢
  have hr := Except.ok.inj hr
  rw [← hr]
  congr 1
  unfold guessCodes at hr ⊢
  have hlook : lookAt { config with lookahead := .gzip } search (preroll ++ data) s.obscured =
    lookAt { config with lookahead := .greedy } search (preroll ++ data) s.obscured := rfl
  dsimp only at hr ⊢
  rw [hlook]
  cases hm : lookAt { config with lookahead := .greedy } search (preroll ++ data) s.obscured s.pos none with
  | none => rfl
  | some m =>
    rw [hm] at hr
    have hrun : m.2 = r.run := by
      obtain ⟨ro, _, h2, _⟩ :=
        looker_exact { config with lookahead := .greedy } preroll data search a ha s s.pos none hs
      rw [hm] at h2
      cases ro with
      | none => cases h2
      | some r' =>
        cases h2
        dsimp only at hr
        rw [guessedCode_pair] at hr
        cases hr
        rfl
    dsimp only
    rw [lazyCodes]
    have : lookAt { config with lookahead := .greedy } search (preroll ++ data) s.obscured (s.pos + 1) (some m.2) =
        none := by
      unfold lookAt
      dsimp only
      rw [hl]
      dsimp only
      rw [if_pos (by omega)]
    rw [this]

/-- C115. With an abort length of 258 or more, as in the preset of level 9, lazy evaluation never takes place. -/
theorem C115_never_lazy (config : Config) (la : LookaheadConfig) (hl : config.wams.lookahead = some la)
    (h258 : 258 ≤ la.abortAboveLength)
    (preroll data : List UInt8) (search : Nat) (a : AllRefs) (ha : AllRefs.withSixteen preroll data search = .ok a)
    (s : Scanner) (hs : s.pos < (preroll ++ data).length) :
    (Technique.mk { config with lookahead := .gzip } a).codes s =
      (Technique.mk { config with lookahead := .greedy } a).codes s := by
  rw [codes_exact _ preroll data search a ha s hs, codes_exact _ preroll data search a ha s hs]
  congr 1
  unfold guessCodes
  have hlook : lookAt { config with lookahead := .gzip } search (preroll ++ data) s.obscured =
    lookAt { config with lookahead := .greedy } search (preroll ++ data) s.obscured := rfl
  dsimp only
  rw [hlook]
  cases hm : lookAt { config with lookahead := .greedy } search (preroll ++ data) s.obscured s.pos none with
  | none => rfl
  | some m =>
    have hm := lookAt_le hm
    dsimp only
    rw [lazyCodes]
    cases h2 : lookAt { config with lookahead := .greedy } search (preroll ++ data) s.obscured (s.pos + 1) (some m.2) with
    | none => rfl
    | some m' =>
      have hm' := lookAt_le h2
      dsimp only
      by_cases hlt : m.2 < m'.2
      · unfold lookAt at h2
        dsimp only at h2
        rw [hl] at h2
        dsimp only at h2
        rw [if_pos (by omega)] at h2
        cases h2
      · rw [if_neg hlt]

/-- In `xabcXbcdeYabcde` the string `abc` occurs before, but `bcde` is longer: a greedy guesser takes the first, one
with lookahead the second. With the settings of level 6 it would do so only for matches of at least 16 bytes. -/
example :
    let w : List UInt8 := [120, 97, 98, 99, 88, 98, 99, 100, 101, 89, 97, 98, 99, 100, 101]
    let level6 : Config := ⟨true, .greedy, .dropFarThrees, ⟨128, 128, none, some ⟨8, 16⟩⟩⟩
    Config.gzip 6 = .ok level6 ∧
    guessCodes level6 100 w 10 [] = [.reference ⟨9, 0⟩] ∧
    guessCodes { level6 with lookahead := .gzip } 100 w 10 [] = [.reference ⟨9, 0⟩] ∧
    guessCodes { level6 with lookahead := .gzip, wams := ⟨128, 128, none, none⟩ } 100 w 10 [] =
      [.literal 97, .reference ⟨6, 1⟩] ∧
    (∃ spicy, Config.spicy = .ok spicy ∧
      guessCodes spicy 100 w 10 [] = [.literal 97, .reference ⟨6, 1⟩] ∧
      refTraceAny spicy 100 w 10 [] [] [.literal 97, .reference ⟨6, 1⟩] = .ok [.correct, .correct] ∧
      refTraceAny spicy 100 w 10 [] [] [.reference ⟨9, 0⟩, .literal 100, .literal 101] =
        .ok [.actually ⟨9, 0⟩, .correct, .correct] ∧
      refTraceAny spicy 100 w 10 [] [] [.literal 97] = .error .explicit ∧
      refRestoreAny spicy 100 w w 10 [] [] [.correct, .correct] = .ok [.literal 97, .reference ⟨6, 1⟩] ∧
      refRestoreAny spicy 100 w w 10 [] [] [.correct, .actuallyLiteral, .correct, .correct] =
        .ok [.literal 97, .literal 98, .reference ⟨6, 0⟩] ∧
      refRestoreAny spicy 100 w (w.drop 10) 10 [] [] [.correct, .actuallyLiteral] = .error .index ∧
      refRestoreAny spicy 100 w w 10 [] [] [.correct] = .error .unwrap) := by
  refine ⟨by decide +kernel, by decide +kernel, by decide +kernel, by decide +kernel, _, rfl, ?_⟩
  decide +kernel

/-- Level 9 meets the condition of `C115_never_lazy`. -/
example : ∃ config la, Config.gzip 9 = .ok config ∧ config.wams.lookahead = some la ∧ 258 ≤ la.abortAboveLength :=
  ⟨_, _, rfl, rfl, by decide⟩

end Rezip
