import Verif.Spec.RefRestore
import Verif.Props.Guess

/-!
# C74: restoring with a gzip preset, exactly
-/

namespace Rezip

open Spec

theorem guessedCode_eq {w : List UInt8} {pos : Nat} {g : Option (Nat × Nat)} {c : Code}
    (h : says w pos g c = true) : guessedCode w pos g = c := by
  cases c with
  | literal b =>
    simp only [says, Bool.and_eq_true, Option.isNone_iff_eq_none, beq_iff_eq] at h
    obtain ⟨rfl, h⟩ := h
    simp [guessedCode, h]
  | reference r =>
    simp only [says, beq_iff_eq] at h
    subst h
    have h1 : (r.run - 3).toUInt8 = r.runMinus3 := by simp [Ref.run]
    have h2 : r.dist.toNat.toUInt16 = r.dist := by simp
    simp only [guessedCode, h1, h2]

theorem refRestore_loop {config : Config} (hg : config.lookahead = .greedy) {preroll data : List UInt8}
    {search : Nat} {a : AllRefs} (ha : AllRefs.withSixteen preroll data search = .ok a)
    (fuel : Nat) (s : Scanner) (tr : List Trace) (hf : (preroll ++ data).length < fuel + s.pos) (hf0 : fuel ≠ 0) :
    Tracing.restoreLoop ⟨config, a⟩ fuel s tr =
      (refRestore config.settings search (preroll ++ data) data s.pos s.obscured tr).mapError .panic := by
  obtain ⟨a', h3, e1, e2, _⟩ := AllRefs.withSixteen_ok preroll data search
  rw [ha] at h3; cases h3
  have hw : a.win = preroll ++ data := by rw [← e1, ← e2]; rfl
  induction fuel generalizing s tr with
  | zero => exact absurd rfl hf0
  | succ fuel ih =>
    by_cases hlt : s.pos < (preroll ++ data).length
    · obtain ⟨g, g1, g2⟩ := C69_greedy config hg preroll data search a ha s hlt
      rw [Tracing.restoreLoop, Tracing.moreData_iff, if_pos (by rw [hw]; simpa using hlt), g1, Ex.ok_bind,
        assert_of (by simp), Ex.ok_bind]
      cases tr with
      | nil =>
        rw [refRestore, if_pos hlt]
        rfl
      | cons x xs =>
        have hob : ∀ c, ((Technique.mk config a).feedback s c).obscured =
            s.obscured ++ recordedRuns config.wams.insertOnlyBelowLength s.pos [c] := by
          intro c
          have := C55_recorded (Technique.mk config a) s [c]
          rw [Tracing.feedAll, Tracing.feedAll] at this
          rw [this]
        have step : ∀ c, ((Tracing.restoreLoop ⟨config, a⟩ fuel ((Technique.mk config a).feedback s c) xs) >>=
            fun rest => pure ([c] ++ rest)) = Except.mapError Fail.panic
              ((refRestore config.settings search (preroll ++ data) data (s.pos + c.emittedBytes)
                (runsAfter config.settings s.pos s.obscured c) xs).map (c :: ·)) := by
          intro c
          have hc := c.emittedBytes_pos
          have hr : s.obscured ++ recordedRuns config.wams.insertOnlyBelowLength s.pos [c] =
              runsAfter config.settings s.pos s.obscured c := by
            cases c with
            | literal b => rw [recordedRuns, recordedRuns, List.append_nil]; rfl
            | reference r =>
              show _ = if (config.wams.insertOnlyBelowLength).any _ = true then _ else _
              cases config.wams.insertOnlyBelowLength with
              | none => simp [recordedRuns]
              | some l => by_cases hl : l < r.run <;> simp [hl, recordedRuns]
          rw [ih _ _ (by rw [Tracing.feedback_pos]; omega) (by omega), Tracing.feedback_pos, hob, hr]
          cases refRestore config.settings search (preroll ++ data) data (s.pos + c.emittedBytes)
            (runsAfter config.settings s.pos s.obscured c) xs <;> rfl
        rw [refRestore, if_pos hlt]
        cases x with
        | correct =>
          rw [entryCode, guessedCode_eq ((g2 g).2 rfl)]
          exact step g
        | actually r => exact step (.reference r)
        | actuallyLiteral =>
          have hd : (Technique.mk config a).byteAt s.pos = index data s.pos := by rw [Technique.byteAt, ← e2]
          rw [Tracing.restoreInner]
          dsimp only
          rw [Tracing.restoreOne, hd, index, entryCode]
          cases hx : data[s.pos]? with
          | none => rfl
          | some b => exact step (.literal b)
    · have : ∀ tr, refRestore config.settings search (preroll ++ data) data s.pos s.obscured tr = .ok [] := by
        intro tr
        cases tr <;> rw [refRestore, if_neg hlt]
      rw [this, Tracing.restoreLoop, Tracing.moreData_iff, if_neg (by rw [hw]; simpa using hlt)]
      rfl

/-- C74. Restoring with a gzip preset, exactly, for any preroll, data and trace: the codes are those of the reference
description, and so are the panics. -/
theorem C74_gzip (level : Nat) (st : Settings) (hst : gzipSettings level = some st)
    (preroll data : List UInt8) (search : Nat) (tr : List Trace) :
    ∃ config a, Config.gzip level = .ok config ∧
      AllRefs.withSixteen preroll data search = .ok a ∧
      Tracing.restore tr ⟨config, a⟩ =
        (refRestore st search (preroll ++ data) data preroll.length [] tr).mapError .panic := by
  obtain ⟨config, hc, hset, hg⟩ := gzip_settings hst
  obtain ⟨a, ha, e1, e2, _⟩ := AllRefs.withSixteen_ok preroll data search
  refine ⟨config, a, hc, ha, ?_⟩
  rw [Tracing.restore, refRestore_loop hg ha, hset]
  · show Except.mapError _ (refRestore _ _ _ _ a.preroll.length _ _) = _
    rw [e1]
    rfl
  · show _ < a.dataLen + 1 + _
    rw [AllRefs.dataLen, e1, e2, List.length_append]
    omega
  · omega

/-- A damaged trace with a preroll: the literal is looked up at the wrong place, which here is beyond the data. -/
example : gzipSettings 1 = some ⟨8, 4, false, some 4⟩ ∧
    refRestore ⟨8, 4, false, some 4⟩ 4 [120, 97, 98, 99, 100, 97, 98, 99] [120, 97, 98, 99, 100, 97, 98, 99] 0 []
      (List.replicate 9 .correct) =
      .ok [.literal 120, .literal 97, .literal 98, .literal 99, .literal 100, .reference ⟨4, 0⟩] ∧
    refRestore ⟨8, 4, false, some 4⟩ 4 [120, 97, 98, 99, 100, 97, 98, 99] [97, 98, 99] 5 []
      [.actuallyLiteral, .correct, .correct] = .error .index ∧
    refRestore ⟨8, 4, false, some 4⟩ 4 [120, 97, 98, 99, 100, 97, 98, 99] [97, 98, 99] 5 [] [] = .error .unwrap := by
  decide +kernel

end Rezip
