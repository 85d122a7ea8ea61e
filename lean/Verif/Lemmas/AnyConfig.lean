import Verif.Spec.AnyConfig
import Verif.Props.RestoreExact

/-!
# The guesses of any configuration
-/

namespace Rezip

open Spec

/-- A reference as distance and length. -/
def pairOf (r : Ref) : Nat × Nat := (r.dist.toNat, r.run)

theorem guessedCode_pair (w : List UInt8) (pos : Nat) (r : Ref) :
    guessedCode w pos (some (pairOf r)) = .reference r := by
  have h1 : (r.run - 3).toUInt8 = r.runMinus3 := by simp [Ref.run]
  have h2 : r.dist.toNat.toUInt16 = r.dist := by simp
  simp only [guessedCode, pairOf, h1, h2]

theorem search_exact (config : Config) (preroll data : List UInt8) (search : Nat) (a : AllRefs)
    (ha : AllRefs.withSixteen preroll data search = .ok a) (s : Scanner) (pos : Nat) (b : UInt8) (limit : Nat) :
    ∃ ro, (Technique.mk config a).search s b pos limit = .ok (b, ro) ∧
      ro.map pairOf =
        guess { settingsOf config with chain := limit } search (preroll ++ data) pos s.obscured := by
  obtain ⟨a', h1, h2⟩ := C68_candidates preroll data search pos s.obscured
  rw [ha] at h1; cases h1
  rw [Technique.search]
  dsimp only
  rcases h2 with ⟨h2, h4⟩ | ⟨_, rs, h4, h5⟩
  · rw [h4]
    refine ⟨none, rfl, ?_⟩
    have : ∀ j, sameHash (preroll ++ data) j pos = false := by
      intro j; unfold sameHash; rw [h2]; cases three (preroll ++ data) j <;> rfl
    have e : candidates (preroll ++ data) search pos s.obscured = [] := by
      unfold candidates searched
      have e : (List.range pos).reverse.filter
          (fun j => 0 < j && sameHash (preroll ++ data) j pos && !hidden s.obscured j) = [] :=
        List.filter_eq_nil_iff.2 (by intro j _; simp [this])
      rw [e, List.take_nil]
      rfl
    unfold guess
    rw [e]
    simp [choose]
  · rw [h4]
    refine ⟨_, rfl, ?_⟩
    show Option.map (fun r : Ref => (r.dist.toNat, r.run)) _ = _
    rw [pick_map]
    unfold guess
    rw [List.map_take, h5]
    rfl

/-- A search function agrees with a reference description of it. -/
def Agrees (w : List UInt8) (l : Looker) (look : Nat → Option Nat → Option (Nat × Nat)) : Prop :=
  ∀ pos other, pos < w.length → ∃ ro, l pos other = .ok (w.getD pos 0, ro) ∧ ro.map pairOf = look pos other ∧
    ∀ r, ro = some r → AllRefs.IsMatch w pos r

theorem looker_exact (config : Config) (preroll data : List UInt8) (search : Nat) (a : AllRefs)
    (ha : AllRefs.withSixteen preroll data search = .ok a) (s : Scanner) :
    Agrees (preroll ++ data) ((Technique.mk config a).bestCandidateBetterThan s)
      (lookAt config search (preroll ++ data) s.obscured) := by
  obtain ⟨a'', h3, e1, e2, e3, e4⟩ := AllRefs.withSixteen_ok preroll data search
  rw [ha] at h3; cases h3
  have hw : a.win = preroll ++ data := by rw [← e1, ← e2]; rfl
  intro pos other hp
  obtain ⟨b, ro, h1, h2, h3⟩ := Technique.looker_ok (t := ⟨config, a⟩) e4 s pos other (by rw [hw]; exact hp)
  dsimp only at h1 h3
  rw [hw] at h1 h3
  have hb : (preroll ++ data).getD pos 0 = b := by rw [List.getD_eq_getElem?_getD, h1]; rfl
  refine ⟨ro, by rw [h2, hb], ?_, h3⟩
  have hget : a.get pos = .ok b := by
    have hlt : pos < a.win.length := by rw [hw]; exact hp
    rw [AllRefs.get_ok hlt]
    congr 1
    rw [← hw, List.getElem?_eq_getElem hlt] at h1
    exact Option.some.inj h1
  rw [Technique.bestCandidateBetterThan, hget, Ex.ok_bind] at h2
  have key : ∀ limit, (Technique.mk config a).search s b pos limit = .ok (b, ro) → ro.map pairOf =
      guess { settingsOf config with chain := limit } search (preroll ++ data) pos s.obscured := by
    intro limit h
    obtain ⟨ro', k1, k2⟩ := search_exact config preroll data search a ha s pos b limit
    rw [k1] at h
    cases h
    exact k2
  cases other with
  | none =>
    have : lookAt config search (preroll ++ data) s.obscured pos none =
        guess (settingsOf config) search (preroll ++ data) pos s.obscured := by
      unfold lookAt; cases config.wams.lookahead <;> rfl
    rw [this]
    exact key _ h2
  | some run =>
    dsimp only at h2
    unfold lookAt
    cases hl : config.wams.lookahead with
    | none =>
      rw [hl] at h2
      exact key _ h2
    | some la =>
      rw [hl] at h2
      dsimp only at h2 ⊢
      by_cases h : la.abortAboveLength > run
      · rw [if_pos h] at h2
        rw [if_pos h]
        cases h2
        rfl
      · rw [if_neg h] at h2
        rw [if_neg h]
        exact key _ h2

namespace Lookahead

variable {w : List UInt8} {l : Looker} {look : Nat → Option Nat → Option (Nat × Nat)}

theorem gzipLoop_exact (hl : Agrees w l look) (fuel steps pos : Nat) (r : Ref) (ret : List Code)
    (hr : AllRefs.IsMatch w pos r) (hf : 259 ≤ fuel + r.run) (hs : 258 ≤ steps + r.run) :
    gzipLoop l fuel pos (w.getD pos 0) r ret = .ok (ret ++ lazyCodes look w steps pos (pairOf r)) := by
  induction fuel generalizing steps pos r ret with
  | zero => have := r.run_le; omega
  | succ fuel ih =>
    have hlt : pos + 1 < w.length := by have := hr.le; have := r.three_le_run; omega
    obtain ⟨ro, h1, h2, h3⟩ := hl (pos + 1) (some r.run) hlt
    rw [gzipLoop]
    rw [h1, Ex.ok_bind]
    have stop : ∀ m', look (pos + 1) (some r.run) = m' → (∀ x, m' = some x → x.2 ≤ r.run) →
        lazyCodes look w steps pos (pairOf r) = [.reference r] := by
      intro m' e hm
      cases steps with
      | zero => rw [lazyCodes, guessedCode_pair]
      | succ steps =>
        rw [lazyCodes]
        show (match look (pos + 1) (some r.run) with | some m' => _ | none => _) = _
        rw [e]
        cases m' with
        | none => show [guessedCode _ _ _] = _; rw [guessedCode_pair]
        | some x =>
          show (if r.run < x.2 then _ else _) = _
          rw [if_neg (by have := hm x rfl; omega), guessedCode_pair]
    cases ro with
    | none =>
      rw [stop none h2.symm (by simp)]
      rfl
    | some new =>
      dsimp only
      by_cases hn : new.run > r.run
      · rw [if_pos hn, ih (steps - 1) (pos + 1) new (ret ++ [Code.literal (w.getD pos 0)]) (h3 new rfl) (by omega)
          (by omega)]
        have hst : steps = (steps - 1) + 1 := by have := new.run_le; omega
        have : lazyCodes look w steps pos (pairOf r) =
            .literal (w.getD pos 0) :: lazyCodes look w (steps - 1) (pos + 1) (pairOf new) := by
          conv => lhs; rw [hst]
          rw [lazyCodes]
          show (match look (pos + 1) (some r.run) with | some m' => _ | none => _) = _
          rw [← h2]
          show (if r.run < new.run then _ else _) = _
          rw [if_pos hn]
          rfl
        rw [this, List.append_assoc]
        rfl
      · rw [if_neg hn, stop _ h2.symm (by
          intro x hx
          cases hx
          show new.run ≤ _
          omega)]
        rfl

theorem third_none (x : Ref) : ((some x).map pairOf).filter (fun m : Nat × Nat => decide (4 < m.2) &&
    (none : Option (Nat × Nat)).all fun y => decide (y.2 < m.2)) = if 4 < x.run then some (pairOf x) else none := by
  rw [Option.map_some, Option.filter_some, Option.all_none, Bool.and_true]
  show (if decide (4 < x.run) = true then _ else _) = _
  by_cases h : 4 < x.run
  · rw [if_pos (decide_eq_true h), if_pos h]
  · rw [if_neg (by simpa using h), if_neg h]

theorem third_some (x y : Ref) : ((some x).map pairOf).filter (fun m : Nat × Nat => decide (4 < m.2) &&
    (some (pairOf y)).all fun y => decide (y.2 < m.2)) =
      if 4 < x.run ∧ y.run < x.run then some (pairOf x) else none := by
  rw [Option.map_some, Option.filter_some, Option.all_some]
  show (if (decide (4 < x.run) && decide (y.run < x.run)) = true then _ else _) = _
  by_cases h : 4 < x.run ∧ y.run < x.run
  · rw [if_pos (by simpa using h), if_pos h]
  · rw [if_neg (by simpa using h), if_neg h]

theorem runThreeZip_exact (hl : Agrees w l look) {pos : Nat} {r : Ref} (hp : pos < w.length)
    (h0 : l pos none = .ok (w.getD pos 0, some r)) (hr : AllRefs.IsMatch w pos r) :
    runThreeZip l pos = .ok (threeCodes look w pos (pairOf r)) := by
  rw [runThreeZip, Looker.best, h0, Ex.ok_bind]
  dsimp only
  unfold threeCodes
  show _ = Except.ok (if 3 < r.run then _ else _)
  by_cases hrun : r.run > 3
  · rw [if_pos hrun, if_pos hrun, guessedCode_pair]
    rfl
  · rw [if_neg hrun, if_neg hrun]
    have h3r : r.run = 3 := by have := r.three_le_run; omega
    rw [h3r, assert_of (by rfl), Ex.ok_bind]
    have hle := hr.le
    obtain ⟨ro2, s2, s3, _⟩ := hl (pos + 1) none (by omega)
    obtain ⟨ro3, t2, t3, _⟩ := hl (pos + 2) none (by omega)
    have t258 : ∀ x, ro3 = some x → x.run ≤ 258 := fun x _ => x.run_le
    rw [Looker.best, s2, Ex.ok_bind]
    dsimp only
    rw [← s3, ← t3]
    rw [guessedCode_pair]
    cases ro2 with
    | none =>
      rw [if_neg (by simp), Looker.best, t2, Ex.ok_bind]
      dsimp only
      cases ro3 with
      | none => rfl
      | some x =>
        by_cases hx : 4 < x.run
        · rw [Option.filter_some, if_pos (by simpa using hx)]
          rw [show ((none : Option Ref).map pairOf).filter (fun x => decide (3 < x.2)) = none from rfl, third_none,
            if_pos hx]
          show _ = Except.ok [_, _, guessedCode _ _ _]
          rw [guessedCode_pair]
          rfl
        · rw [Option.filter_some, if_neg (by simpa using hx)]
          rw [show ((none : Option Ref).map pairOf).filter (fun x => decide (3 < x.2)) = none from rfl, third_none,
            if_neg hx]
          rfl
    | some y =>
      by_cases hy : 3 < y.run
      · have e2 : (some y).filter (fun x => decide (x.run > 3)) = some y := by simp [hy]
        have e3 : ((some y).map pairOf).filter (fun x => decide (3 < x.2)) = some (pairOf y) := by
          simp [pairOf, hy]
        rw [e2, e3]
        by_cases h258 : y.run = 258
        · rw [if_pos (by simp [h258])]
          cases ro3 with
          | none => show _ = Except.ok [_, guessedCode _ _ _]; rw [guessedCode_pair]; rfl
          | some x =>
            have := t258 x rfl
            rw [third_some, if_neg (by omega)]
            show _ = Except.ok [_, guessedCode _ _ _]
            rw [guessedCode_pair]
            rfl
        · rw [if_neg (by simp [h258]), Looker.best, t2, Ex.ok_bind]
          dsimp only
          cases ro3 with
          | none => show _ = Except.ok [_, guessedCode _ _ _]; rw [guessedCode_pair]; rfl
          | some x =>
            rw [third_some, Option.filter_some]
            by_cases hx : 4 < x.run
            · rw [if_pos (by simpa using hx)]
              dsimp only
              by_cases hc : x.run > y.run
              · rw [if_pos hc, if_pos (by omega)]
                show _ = Except.ok [_, _, guessedCode _ _ _]
                rw [guessedCode_pair]
                rfl
              · rw [if_neg hc, if_neg (by omega)]
                show _ = Except.ok [_, guessedCode _ _ _]
                rw [guessedCode_pair]
                rfl
            · rw [if_neg (by simpa using hx), if_neg (by omega)]
              show _ = Except.ok [_, guessedCode _ _ _]
              rw [guessedCode_pair]
              rfl
      · have e2 : (some y).filter (fun x => decide (x.run > 3)) = none := by simp; omega
        have e3 : ((some y).map pairOf).filter (fun x => decide (3 < x.2)) = none := by
          simp [pairOf]; omega
        rw [e2, e3]
        rw [if_neg (by simp), Looker.best, t2, Ex.ok_bind]
        dsimp only
        cases ro3 with
        | none => rfl
        | some x =>
          by_cases hx : 4 < x.run
          · rw [Option.filter_some, if_pos (by simpa using hx), third_none, if_pos hx]
            show _ = Except.ok [_, _, guessedCode _ _ _]
            rw [guessedCode_pair]
            rfl
          · rw [Option.filter_some, if_neg (by simpa using hx), third_none, if_neg hx]
            rfl

end Lookahead

/-- The guesses of any configuration, exactly. -/
theorem codes_exact (config : Config) (preroll data : List UInt8) (search : Nat) (a : AllRefs)
    (ha : AllRefs.withSixteen preroll data search = .ok a) (s : Scanner) (hs : s.pos < (preroll ++ data).length) :
    (Technique.mk config a).codes s =
      .ok (guessCodes config search (preroll ++ data) s.pos s.obscured) := by
  have hl := looker_exact config preroll data search a ha s
  obtain ⟨ro, h1, h2, h3⟩ := hl s.pos none hs
  rw [Technique.codes]
  unfold guessCodes
  dsimp only
  rw [← h2]
  cases ro with
  | none =>
    cases config.lookahead with
    | greedy => show Lookahead.runGreedy _ _ = _; rw [Lookahead.runGreedy, Looker.best, h1]; rfl
    | gzip => show Lookahead.runGzip _ _ = _; rw [Lookahead.runGzip, Looker.best, h1]; rfl
    | threeZip => show Lookahead.runThreeZip _ _ = _; rw [Lookahead.runThreeZip, Looker.best, h1]; rfl
  | some r =>
    rw [Option.map_some]
    dsimp only
    cases config.lookahead with
    | greedy =>
      show Lookahead.runGreedy _ _ = _
      rw [Lookahead.runGreedy, Looker.best, h1]
      show _ = Except.ok [guessedCode _ _ _]
      rw [guessedCode_pair]
      rfl
    | gzip =>
      show Lookahead.runGzip _ _ = _
      rw [Lookahead.runGzip, Looker.best, h1, Ex.ok_bind]
      exact Lookahead.gzipLoop_exact hl 259 255 s.pos r [] (h3 r rfl) (by omega) (by have := r.three_le_run; omega)
    | threeZip => exact Lookahead.runThreeZip_exact hl hs h1 (h3 r rfl)

end Rezip
