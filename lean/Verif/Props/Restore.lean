import Verif.Props.Trace
import Verif.Spec.Restore

/-!
# Restoring any trace

C74.
-/

namespace Rezip

open Spec

theorem RestoredAfter.length {d look : List UInt8} {pos : Nat} {xs : List Trace} {cs : List Code}
    (h : RestoredAfter d look pos xs cs) : xs.length = cs.length := by
  induction xs generalizing pos cs with
  | nil => cases cs with
    | nil => rfl
    | cons c cs => exact h.elim
  | cons x xs ih => cases cs with
    | nil => exact h.elim
    | cons c cs => rw [List.length_cons, List.length_cons, ih h.2.2]

theorem RestoredAfter.append {d look : List UInt8} {pos : Nat} {xs ys : List Trace} {cs ds : List Code}
    (h : RestoredAfter d look pos xs cs)
    (h2 : RestoredAfter d look (pos + (cs.map Code.emittedBytes).sum) ys ds) :
    RestoredAfter d look pos (xs ++ ys) (cs ++ ds) := by
  induction xs generalizing pos cs with
  | nil => cases cs with
    | nil => simpa using h2
    | cons c cs => exact h.elim
  | cons x xs ih => cases cs with
    | nil => exact h.elim
    | cons c cs =>
      refine ⟨h.1, h.2.1, ih h.2.2 ?_⟩
      rw [List.map_cons, List.sum_cons, ← Nat.add_assoc] at h2
      exact h2

/-- Without a preroll literals are looked up in the right place. -/
theorem RestoredAfter.same {d : List UInt8} {pos : Nat} {xs : List Trace} {cs : List Code}
    (h : RestoredAfter d d pos xs cs) : Restored d pos xs cs := by
  induction xs generalizing pos cs with
  | nil => cases cs with
    | nil => trivial
    | cons c cs => exact h.elim
  | cons x xs ih => cases cs with
    | nil => exact h.elim
    | cons c cs =>
      refine ⟨h.1, ?_, ih h.2.2⟩
      have := h.2.1
      cases x <;> exact this

theorem Restored.length {d : List UInt8} {pos : Nat} {xs : List Trace} {cs : List Code}
    (h : Restored d pos xs cs) : xs.length = cs.length := by
  induction xs generalizing pos cs with
  | nil => cases cs with
    | nil => rfl
    | cons c cs => exact h.elim
  | cons x xs ih => cases cs with
    | nil => exact h.elim
    | cons c cs => rw [List.length_cons, List.length_cons, ih h.2.2]

namespace Tracing

/-- A literal that was not guessed cannot be looked up, after the first entries of `tr`. -/
def NoByte (w look : List UInt8) (pos : Nat) (tr : List Trace) : Prop :=
  ∃ used rest out, tr = used ++ .actuallyLiteral :: rest ∧ RestoredAfter w look pos used out ∧
    pos + (out.map Code.emittedBytes).sum < w.length ∧ look.length ≤ pos + (out.map Code.emittedBytes).sum

theorem restoreInner_any {t : Technique} (gs : List Code) (s : Scanner)
    (tr : List Trace) (hg : GuessFor t.allRefs.win s.pos gs) :
    (∃ used rest out s', tr = used ++ rest ∧ (gs ≠ [] → out ≠ []) ∧
      (∀ ext, restoreInner t gs s (used ++ ext) = .ok (s', out, ext)) ∧
      s'.pos = s.pos + (out.map Code.emittedBytes).sum ∧
      RestoredAfter t.allRefs.win t.allRefs.data s.pos used out) ∨
    (restoreInner t gs s tr = .error (.panic .unwrap) ∧
      ∃ out, RestoredAfter t.allRefs.win t.allRefs.data s.pos tr out ∧
        s.pos + (out.map Code.emittedBytes).sum < t.allRefs.win.length) ∨
    (restoreInner t gs s tr = .error (.panic .index) ∧ NoByte t.allRefs.win t.allRefs.data s.pos tr) := by
  induction gs generalizing s tr with
  | nil => exact .inl ⟨[], tr, [], s, rfl, fun h => absurd rfl h, fun ext => rfl, rfl, trivial⟩
  | cons g gs ih =>
    have hb := hg.bound
    have hge := g.emittedBytes_pos
    rw [List.map_cons, List.sum_cons] at hb
    have hlt : s.pos < t.allRefs.win.length := by omega
    cases tr with
    | nil => exact .inr (.inl ⟨rfl, [], trivial, by simpa using hlt⟩)
    | cons x tr =>
      cases x with
      | correct =>
        have hd : g.Describes t.allRefs.win s.pos ∧
            GuessFor t.allRefs.win (t.feedback s g).pos gs := by
          rw [feedback_pos]
          cases g with
          | literal b => exact hg
          | reference r =>
            exact ⟨⟨hg.1.dist_pos, hg.1.dist_le, by have := hg.1.dist_lt; omega, hg.1.matchLen⟩, hg.2⟩
        have unf : ∀ l, restoreInner t (g :: gs) s (.correct :: l) =
            (restoreInner t gs (t.feedback s g) l >>= fun x => pure (x.1, g :: x.2.1, x.2.2)) := by
          intro l; rw [restoreInner]; rfl
        rcases ih (t.feedback s g) tr hd.2 with ⟨used, rest, out, s', h1, _, h3, h4, h5⟩ | ⟨h1, out, h2, h3⟩ |
          ⟨h1, used, rest, out, h2, h3, h4, h5⟩
        · refine .inl ⟨.correct :: used, rest, g :: out, s', by rw [h1]; rfl, by simp, ?_, ?_, ?_⟩
          · intro ext
            rw [List.cons_append, unf, h3]
            rfl
          · rw [h4, feedback_pos, List.map_cons, List.sum_cons, Nat.add_assoc]
          · rw [feedback_pos] at h5
            exact ⟨hlt, hd.1, h5⟩
        · rw [feedback_pos] at h2 h3
          refine .inr (.inl ⟨by rw [unf, h1]; rfl, g :: out, ⟨hlt, hd.1, h2⟩, ?_⟩)
          rw [List.map_cons, List.sum_cons, ← Nat.add_assoc]
          exact h3
        · rw [feedback_pos] at h3 h4 h5
          refine .inr (.inr ⟨by rw [unf, h1]; rfl, .correct :: used, rest, g :: out, by rw [h2]; rfl,
            ⟨hlt, hd.1, h3⟩, ?_, ?_⟩)
          · rw [List.map_cons, List.sum_cons, ← Nat.add_assoc]
            exact h4
          · rw [List.map_cons, List.sum_cons, ← Nat.add_assoc]
            exact h5
      | actuallyLiteral =>
        cases hx : t.allRefs.data[s.pos]? with
        | none =>
          refine .inr (.inr ⟨?_, [], tr, [], rfl, trivial, by simpa using hlt,
            by simpa using List.getElem?_eq_none_iff.1 hx⟩)
          rw [restoreInner]
          dsimp only
          rw [restoreOne, Technique.byteAt, index, hx]
          rfl
        | some b =>
          refine .inl ⟨[.actuallyLiteral], tr, [.literal b], t.feedback s (.literal b), rfl, by simp, ?_, ?_, ?_⟩
          · intro ext
            show restoreInner t (g :: gs) s (.actuallyLiteral :: ext) = _
            rw [restoreInner]
            dsimp only
            rw [restoreOne, Technique.byteAt, index, hx]
            rfl
          · rw [feedback_pos]; simp
          · exact ⟨hlt, ⟨_, rfl, hx⟩, trivial⟩
      | actually r =>
        refine .inl ⟨[.actually r], tr, [.reference r], t.feedback s (.reference r), rfl, by simp,
          fun ext => rfl, ?_, ?_⟩
        · rw [feedback_pos]; simp
        · exact ⟨hlt, rfl, trivial⟩

theorem restoreLoop_any {t : Technique} (hb : t.allRefs.Built) (fuel : Nat)
    (s : Scanner) (tr : List Trace) (hf : t.allRefs.win.length < fuel + s.pos) (hf0 : fuel ≠ 0) :
    (∃ used rest out, tr = used ++ rest ∧ (∀ ext, restoreLoop t fuel s (used ++ ext) = .ok out) ∧
      RestoredAfter t.allRefs.win t.allRefs.data s.pos used out ∧
      t.allRefs.win.length ≤ s.pos + (out.map Code.emittedBytes).sum) ∨
    (restoreLoop t fuel s tr = .error (.panic .unwrap) ∧
      ∃ out, RestoredAfter t.allRefs.win t.allRefs.data s.pos tr out ∧
        s.pos + (out.map Code.emittedBytes).sum < t.allRefs.win.length) ∨
    (restoreLoop t fuel s tr = .error (.panic .index) ∧ NoByte t.allRefs.win t.allRefs.data s.pos tr) := by
  induction fuel generalizing s tr with
  | zero => exact absurd rfl hf0
  | succ fuel ih =>
    by_cases hp : s.pos < t.allRefs.win.length
    · obtain ⟨gs, g1, g2, g3⟩ := Technique.codes_ok hb s hp
      have unf : ∀ l, restoreLoop t (fuel + 1) s l =
          (restoreInner t gs s l >>= fun x => restoreLoop t fuel x.1 x.2.2 >>= fun rest =>
            pure (x.2.1 ++ rest)) := by
        intro l
        rw [restoreLoop, moreData_iff, if_pos (by simpa using hp), g1, Ex.ok_bind,
          assert_of (by simp [g2]), Ex.ok_bind]
      rcases restoreInner_any gs s tr g3 with ⟨used, rest, out, s', h1, h2, h3, h4, h5⟩ | ⟨h1, h2⟩ | ⟨h1, h2⟩
      · have hpos : 1 ≤ (out.map Code.emittedBytes).sum := by
          have := length_le_sum out
          have := h2 g2
          cases out with
          | nil => exact absurd rfl this
          | cons c out => simp only [List.length_cons] at *; omega
        rcases ih s' rest (by omega) (by omega) with ⟨used', rest', out', k1, k2, k3, k4⟩ | ⟨k1, out', k2, k3⟩ |
          ⟨k1, used', rest', out', k2, k3, k4, k5⟩
        · refine .inl ⟨used ++ used', rest', out ++ out', by rw [h1, k1, List.append_assoc], ?_, ?_, ?_⟩
          · intro ext
            rw [unf, List.append_assoc, h3, Ex.ok_bind]
            dsimp only
            rw [k2]
            rfl
          · rw [h4] at k3
            exact h5.append k3
          · rw [List.map_append, List.sum_append]
            omega
        · refine .inr (.inl ⟨?_, out ++ out', ?_, ?_⟩)
          · rw [unf, h1, h3, Ex.ok_bind]
            dsimp only
            rw [k1]
            rfl
          · rw [h1]
            rw [h4] at k2
            exact h5.append k2
          · rw [List.map_append, List.sum_append]
            omega
        · rw [h4] at k3
          refine .inr (.inr ⟨?_, used ++ used', rest', out ++ out', by rw [h1, k2, List.append_assoc],
            h5.append k3, ?_, ?_⟩)
          · rw [unf, h1, h3, Ex.ok_bind]
            dsimp only
            rw [k1]
            rfl
          · rw [List.map_append, List.sum_append]
            omega
          · rw [List.map_append, List.sum_append]
            omega
      · exact .inr (.inl ⟨by rw [unf, h1]; rfl, h2⟩)
      · exact .inr (.inr ⟨by rw [unf, h1]; rfl, h2⟩)
    · refine .inl ⟨[], tr, [], rfl, ?_, trivial, by simp; omega⟩
      intro ext
      rw [restoreLoop, moreData_iff, if_neg (by simpa using hp)]
      rfl

end Tracing

/-- C74. Restoring any trace with any preroll, for every configuration. Either it succeeds, having used a first part of
the trace and ignored the rest; the codes are, one by one, what those entries say, and cover the data. Or the entries
run out before the data is covered, or a literal that was not guessed is to be looked up beyond the data, since the
preroll is counted too; then it panics. Nothing else happens. -/
theorem C74_preroll (config : Config) (preroll data : List UInt8) (limit : Nat) (tr : List Trace) :
    ∃ a, AllRefs.withSixteen preroll data limit = .ok a ∧
      ((∃ used rest codes, tr = used ++ rest ∧
          (∀ rest', Tracing.restore (used ++ rest') ⟨config, a⟩ = .ok codes) ∧
          RestoredAfter (preroll ++ data) data preroll.length used codes ∧
          data.length ≤ (codes.map Code.emittedBytes).sum) ∨
       (Tracing.restore tr ⟨config, a⟩ = .error (.panic .unwrap) ∧
          ∃ codes, RestoredAfter (preroll ++ data) data preroll.length tr codes ∧
            (codes.map Code.emittedBytes).sum < data.length) ∨
       (Tracing.restore tr ⟨config, a⟩ = .error (.panic .index) ∧
          ∃ used rest codes, tr = used ++ .actuallyLiteral :: rest ∧
            RestoredAfter (preroll ++ data) data preroll.length used codes ∧
            (codes.map Code.emittedBytes).sum < data.length ∧
            data.length ≤ preroll.length + (codes.map Code.emittedBytes).sum)) := by
  obtain ⟨a, h1, h2, h3, h4, h5⟩ := AllRefs.withSixteen_ok preroll data limit
  have hw : a.win = preroll ++ data := by rw [AllRefs.win, h2, h3]
  have hl : (preroll ++ data).length = preroll.length + data.length := List.length_append
  refine ⟨a, h1, ?_⟩
  have := Tracing.restoreLoop_any (t := ⟨config, a⟩) h5
    ((Technique.mk config a).dataLen + 1) (Technique.mk config a).scanner tr
    (by rw [Technique.dataLen, AllRefs.dataLen_eq]; show a.win.length < a.win.length + 1 + _; omega)
    (by omega)
  have hp : (Technique.mk config a).scanner.pos = preroll.length := by
    show a.preroll.length = _
    rw [h2]
  rw [hp] at this
  dsimp only [Tracing.NoByte] at this
  rw [hw, h3, hl] at this
  rcases this with ⟨used, rest, codes, k1, k2, k3, k4⟩ | ⟨k1, codes, k2, k3⟩ |
    ⟨k1, used, rest, codes, k2, k3, k4, k5⟩
  · exact .inl ⟨used, rest, codes, k1, k2, k3, by omega⟩
  · exact .inr (.inl ⟨k1, codes, k2, by omega⟩)
  · exact .inr (.inr ⟨k1, used, rest, codes, k2, k3, by omega, k5⟩)

/-- C74. Restoring any trace, for data without a preroll: either it succeeds, having used a first part of the
trace and ignored the rest; the codes are, one by one, what those entries say, and cover the data. Or the
entries run out before the data is covered, and it panics. Nothing else happens. -/
theorem C74_restore_any (config : Config) (data : List UInt8) (limit : Nat) (tr : List Trace) :
    ∃ a, AllRefs.withSixteen [] data limit = .ok a ∧
      ((∃ used rest codes, tr = used ++ rest ∧
          (∀ rest', Tracing.restore (used ++ rest') ⟨config, a⟩ = .ok codes) ∧
          Restored data 0 used codes ∧ data.length ≤ (codes.map Code.emittedBytes).sum) ∨
       (Tracing.restore tr ⟨config, a⟩ = .error (.panic .unwrap) ∧
          ∃ codes, Restored data 0 tr codes ∧ (codes.map Code.emittedBytes).sum < data.length)) := by
  obtain ⟨a, h1, ⟨used, rest, codes, k1, k2, k3, k4⟩ | ⟨k1, codes, k2, k3⟩ |
    ⟨k1, used, rest, codes, k2, k3, k4, k5⟩⟩ := C74_preroll config [] data limit tr
  · exact ⟨a, h1, .inl ⟨used, rest, codes, k1, k2, k3.same, k4⟩⟩
  · exact ⟨a, h1, .inr ⟨k1, codes, k2.same, k3⟩⟩
  · rw [List.length_nil] at k5
    omega

/-- C74. It panics exactly when entries are missing: with enough `Correct` entries added it succeeds and uses
some of them. -/
theorem C74_missing (config : Config) (data : List UInt8) (limit : Nat) (tr : List Trace) (a : AllRefs)
    (ha : AllRefs.withSixteen [] data limit = .ok a) (e : Fail)
    (he : Tracing.restore tr ⟨config, a⟩ = .error e) :
    e = .panic .unwrap ∧ ∃ codes,
      Tracing.restore (tr ++ List.replicate data.length .correct) ⟨config, a⟩ = .ok codes ∧
      tr.length < codes.length := by
  obtain ⟨a', h1, h2⟩ := C74_restore_any config data limit tr
  rw [ha] at h1; cases h1
  have hne : ∀ used rest codes, tr = used ++ rest →
      ¬ ∀ rest', Tracing.restore (used ++ rest') ⟨config, a⟩ = .ok codes := by
    intro used rest codes h3 h4
    rw [h3, h4] at he
    cases he
  rcases h2 with ⟨used, rest, codes, h3, h4, _⟩ | ⟨h2, _⟩
  · exact absurd h4 (hne _ _ _ h3)
  · rw [h2] at he
    cases he
    refine ⟨rfl, ?_⟩
    obtain ⟨a', h1, h3⟩ := C74_restore_any config data limit (tr ++ List.replicate data.length .correct)
    rw [ha] at h1; cases h1
    rcases h3 with ⟨used, rest, codes, k1, k2, k3, k4⟩ | ⟨k1, codes, k2, k3⟩
    · refine ⟨codes, by rw [k1, k2], ?_⟩
      rw [← k3.length]
      apply Decidable.byContradiction
      intro hle
      have : tr = used ++ tr.drop used.length := by
        have h := congrArg (List.take used.length) k1
        rw [List.take_left, List.take_append_of_le_length (by omega)] at h
        conv => lhs; rw [← List.take_append_drop used.length tr, h]
      exact hne _ _ _ this k2
    · have h6 := k2.length
      have h7 := Tracing.length_le_sum codes
      rw [List.length_append, List.length_replicate] at h6
      omega

/-- A trace too short, one with entries to spare, and one whose last reference runs past the data. -/
example : (match AllRefs.withSixteen [] [1, 2, 3, 4] 100 with
    | .ok a => [[.correct], [.correct, .actuallyLiteral, .correct, .correct, .correct],
        [.correct, .actually ⟨1, 9⟩]].map fun tr => Tracing.restore tr
          ⟨⟨true, .greedy, .longest, Wams.greedy 258 100 100⟩, a⟩
    | .error _ => []) =
    [.error (.panic .unwrap), .ok [.literal 1, .literal 2, .literal 3, .literal 4],
      .ok [.literal 1, .reference ⟨1, 9⟩]] := by decide +kernel

/-- With a preroll: a literal that is looked up in the wrong place, and one that cannot be looked up. -/
example : (match AllRefs.withSixteen [7, 8] [1, 2, 3] 100 with
    | .ok a => [[.actuallyLiteral, .correct, .correct], [.correct, .actuallyLiteral, .correct]].map fun tr =>
        Tracing.restore tr ⟨⟨true, .greedy, .longest, Wams.greedy 258 100 100⟩, a⟩
    | .error _ => []) =
    [.ok [.literal 3, .literal 2, .literal 3], .error (.panic .index)] := by decide +kernel

end Rezip
