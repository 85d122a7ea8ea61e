import Verif.Lemmas.Technique
import Verif.Spec.Trace

/-!
# trace.rs
-/

namespace Rezip

theorem Code.emittedBytes_pos (c : Code) : 1 ≤ c.emittedBytes := by
  cases c with
  | literal b => exact Nat.le_refl 1
  | reference r => have := r.three_le_run; show 1 ≤ r.run; omega

theorem sum_emitted_zero {cs : List Code} (h : (cs.map Code.emittedBytes).sum = 0) : cs = [] := by
  cases cs with
  | nil => rfl
  | cons c cs =>
    have := c.emittedBytes_pos
    rw [List.map_cons, List.sum_cons] at h
    omega

namespace Tracing

theorem sharedPrefix_spec (gs cs : List Code) :
    ∃ m gs' cs', sharedPrefix gs cs = (m, cs') ∧ gs = m ++ gs' ∧ cs = m ++ cs' := by
  induction gs generalizing cs with
  | nil => exact ⟨[], [], cs, rfl, rfl, rfl⟩
  | cons g gs ih =>
    cases cs with
    | nil => exact ⟨[], g :: gs, [], rfl, rfl, rfl⟩
    | cons c cs =>
      rw [sharedPrefix]
      by_cases h : c = g
      · obtain ⟨m, gs', cs', h1, h2, h3⟩ := ih cs
        rw [if_pos h, h1]
        exact ⟨g :: m, gs', cs', rfl, by rw [h2]; rfl, by rw [h3, h]; rfl⟩
      · rw [if_neg h]
        exact ⟨[], g :: gs, c :: cs, rfl, rfl, rfl⟩

theorem feedAll_pos (t : Technique) (s : Scanner) (cs : List Code) :
    (feedAll t s cs).pos = s.pos + (cs.map Code.emittedBytes).sum := by
  rw [C55_recorded]

theorem feedback_pos (t : Technique) (s : Scanner) (c : Code) :
    (t.feedback s c).pos = s.pos + c.emittedBytes := by
  have := feedAll_pos t s [c]
  simpa [feedAll] using this

theorem moreData_iff (t : Technique) (s : Scanner) :
    t.moreData s = decide (s.pos < t.allRefs.win.length) := by
  rw [Technique.moreData, Technique.dataLen, AllRefs.dataLen_eq]

theorem restoreInner_all (t : Technique) (m : List Code) (s : Scanner) (tr : List Trace) :
    restoreInner t m s (List.replicate m.length .correct ++ tr) = .ok (feedAll t s m, m, tr) := by
  induction m generalizing s with
  | nil => rfl
  | cons c m ih =>
    rw [List.length_cons, List.replicate_succ, List.cons_append, restoreInner]
    dsimp only
    rw [restoreOne]
    show (restoreInner t m (t.feedback s c) _ >>= _) = _
    rw [ih]
    rfl

/-- The code a hint stands for, at `pos`. -/
def hinted (t : Technique) (pos : Nat) : Code → Except Fail Code
  | .literal _ => (t.byteAt pos).map .literal
  | .reference r => .ok (.reference r)

theorem restoreInner_miss (t : Technique) (m : List Code) (g : Code) (gs : List Code) (s : Scanner)
    (c : Code) (tr : List Trace) :
    restoreInner t (m ++ g :: gs) s (List.replicate m.length .correct ++ hintFor c :: tr) =
      (hinted t (feedAll t s m).pos c).map fun c' =>
        (t.feedback (feedAll t s m) c', m ++ [c'], tr) := by
  induction m generalizing s with
  | nil =>
    rw [List.nil_append, List.length_nil, List.replicate_zero, List.nil_append, restoreInner]
    dsimp only
    cases c with
    | literal b =>
      rw [hintFor, restoreOne, feedAll]
      unfold hinted
      dsimp only
      cases t.byteAt s.pos <;> rfl
    | reference r => rfl
  | cons x m ih =>
    rw [List.cons_append, List.length_cons, List.replicate_succ, List.cons_append, restoreInner]
    dsimp only
    rw [restoreOne]
    show (restoreInner t (m ++ g :: gs) (t.feedback s x) _ >>= _) = _
    rw [ih, feedAll]
    cases hinted t (feedAll t (t.feedback s x) m).pos c <;> rfl

theorem hint_append (d : List UInt8) (pos : Nat) (m cs : List Code) (tr : List Trace) :
    HintedLiteralsAgree d pos (m ++ cs) (List.replicate m.length .correct ++ tr) ↔
      HintedLiteralsAgree d (pos + (m.map Code.emittedBytes).sum) cs tr := by
  induction m generalizing pos with
  | nil => simp
  | cons c m ih =>
    rw [List.length_cons, List.replicate_succ, List.cons_append, List.cons_append, List.map_cons,
      List.sum_cons, ← Nat.add_assoc]
    cases c with
    | literal b =>
      rw [HintedLiteralsAgree, ih]
      simp [Code.emittedBytes]
    | reference r =>
      rw [HintedLiteralsAgree, ih]
      simp [Code.emittedBytes]

/-- feedback ignores which literal it was. -/
theorem feedback_literal (t : Technique) (s : Scanner) (b b' : UInt8) :
    t.feedback s (.literal b) = t.feedback s (.literal b') := by
  unfold Technique.feedback
  cases t.config.wams.insertOnlyBelowLength <;> rfl

/-- The heart of C41 and C42: on codes that emit exactly the rest of the window tracing succeeds with one
entry per code, and restoring the trace gives the codes if and only if the mispredicted literals are
found in `data`. -/
theorem loops_ok {t : Technique} (hb : t.allRefs.Built) (fuel : Nat) (s : Scanner) (codes : List Code)
    (hs : s.pos + (codes.map Code.emittedBytes).sum = t.allRefs.win.length)
    (hf : (codes.map Code.emittedBytes).sum < fuel) :
    ∃ tr, traceLoop t fuel s codes = .ok tr ∧ tr.length = codes.length ∧
      (∀ r, Trace.actually r ∈ tr → Code.reference r ∈ codes) ∧
      (restoreLoop t fuel s tr = .ok codes ↔
        HintedLiteralsAgree t.allRefs.data s.pos codes tr) := by
  induction fuel generalizing s codes with
  | zero => omega
  | succ fuel ih =>
    rw [traceLoop, moreData_iff]
    by_cases hp : s.pos < t.allRefs.win.length
    · rw [if_pos (by simpa using hp)]
      obtain ⟨gs, g1, g2, g3⟩ := Technique.codes_ok hb s hp
      rw [g1, Ex.ok_bind, assert_of (by simp [g2]), Ex.ok_bind]
      obtain ⟨m, gs', cs', m1, m2, m3⟩ := sharedPrefix_spec gs codes
      rw [m1]
      dsimp only
      have hsum : (codes.map Code.emittedBytes).sum =
          (m.map Code.emittedBytes).sum + (cs'.map Code.emittedBytes).sum := by
        rw [m3, List.map_append, List.sum_append]
      have hpos := feedAll_pos t s m
      have unfoldR : ∀ tr, restoreLoop t (fuel + 1) s tr =
          (restoreInner t gs s tr >>= fun x => restoreLoop t fuel x.1 x.2.2 >>= fun rest =>
            pure (x.2.1 ++ rest)) := by
        intro tr
        rw [restoreLoop, moreData_iff, if_pos (by simpa using hp), g1, Ex.ok_bind,
          assert_of (by simp [g2]), Ex.ok_bind]
      by_cases hm : m.length = gs.length
      · rw [if_pos hm]
        have hgs : gs = m := by
          rw [m2, List.length_append] at hm
          have : gs' = [] := List.length_eq_zero_iff.1 (by omega)
          rw [m2, this, List.append_nil]
        have hmpos : 1 ≤ (m.map Code.emittedBytes).sum := by
          cases m with
          | nil => exact absurd hgs g2
          | cons c m =>
            have := c.emittedBytes_pos
            rw [List.map_cons, List.sum_cons]
            omega
        obtain ⟨tr, t1, t2, t3, t4⟩ := ih (feedAll t s m) cs' (by rw [hpos]; omega) (by omega)
        refine ⟨List.replicate m.length .correct ++ tr, by rw [t1]; rfl, ?_, ?_, ?_⟩
        · rw [m3, List.length_append, List.length_append, List.length_replicate, t2]
        · intro r hr
          rcases List.mem_append.1 hr with hr | hr
          · have := (List.mem_replicate.1 hr).2; cases this
          · rw [m3]; exact List.mem_append_right _ (t3 r hr)
        · rw [unfoldR, hgs, restoreInner_all, Ex.ok_bind]
          dsimp only
          rw [m3, hint_append, ← hpos, ← t4]
          cases restoreLoop t fuel (feedAll t s m) tr with
          | error e => simp [Ex.error_bind]
          | ok rest =>
            rw [Ex.ok_bind]
            show Except.ok (m ++ rest) = Except.ok (m ++ cs') ↔ _
            simp
      · rw [if_neg hm]
        have hgs' : ∃ g gs'', gs' = g :: gs'' := by
          cases gs' with
          | nil => rw [m2, List.append_nil] at hm; exact absurd rfl hm
          | cons g gs'' => exact ⟨g, gs'', rfl⟩
        obtain ⟨g, gs'', rfl⟩ := hgs'
        cases cs' with
        | nil =>
          exfalso
          have h1 := g3.bound
          rw [m2, List.map_append, List.sum_append, List.map_cons, List.sum_cons] at h1
          have := g.emittedBytes_pos
          rw [hsum] at hs
          simp only [List.map_nil, List.sum_nil] at hs
          omega
        | cons c cs' =>
          dsimp only
          rw [List.map_cons, List.sum_cons] at hsum
          have hcpos := c.emittedBytes_pos
          obtain ⟨tr, t1, t2, t3, t4⟩ := ih (t.feedback (feedAll t s m) c) cs'
            (by rw [feedback_pos, hpos]; omega) (by omega)
          refine ⟨List.replicate m.length .correct ++ hintFor c :: tr, by
            rw [t1, Ex.ok_bind]; simp, ?_, ?_, ?_⟩
          · rw [m3]; simp [t2]
          · intro r hr
            rcases List.mem_append.1 hr with hr | hr
            · have := (List.mem_replicate.1 hr).2; cases this
            · rw [m3]
              apply List.mem_append_right
              rcases List.mem_cons.1 hr with hr | hr
              · cases c with
                | literal b => cases hr
                | reference r' => cases hr; simp
              · exact List.mem_cons_of_mem _ (t3 r hr)
          · rw [unfoldR, m2, restoreInner_miss, m3, hint_append, ← hpos]
            rw [feedback_pos] at t4
            cases c with
            | reference r =>
              unfold hinted
              show (restoreLoop t fuel _ tr >>= _) = _ ↔ _
              dsimp only
              rw [hintFor, HintedLiteralsAgree]
              rw [show Code.emittedBytes (.reference r) = r.run from rfl] at t4
              rw [← t4]
              cases restoreLoop t fuel (t.feedback (feedAll t s m) (.reference r)) tr with
              | error e => simp [Ex.error_bind]
              | ok rest =>
                rw [Ex.ok_bind]
                show Except.ok (m ++ [.reference r] ++ rest) = Except.ok (m ++ .reference r :: cs') ↔ _
                simp
            | literal b =>
              unfold hinted
              dsimp only
              rw [hintFor, HintedLiteralsAgree]
              rw [show Code.emittedBytes (.literal b) = 1 from rfl] at t4
              rw [← t4, Technique.byteAt, index]
              cases hd : t.allRefs.data[(feedAll t s m).pos]? with
              | none => simp [Except.map, Ex.error_bind]
              | some b' =>
                show (restoreLoop t fuel (t.feedback (feedAll t s m) (.literal b')) tr >>= _) = _ ↔ _
                dsimp only
                rw [feedback_literal t _ b' b]
                cases restoreLoop t fuel (t.feedback (feedAll t s m) (.literal b)) tr with
                | error e => simp [Ex.error_bind]
                | ok rest =>
                  rw [Ex.ok_bind]
                  show Except.ok (m ++ [.literal b'] ++ rest) =
                    Except.ok (m ++ .literal b :: cs') ↔ _
                  simp
    · rw [if_neg (by simpa using hp)]
      have h0 : (codes.map Code.emittedBytes).sum = 0 := by omega
      have := sum_emitted_zero h0
      subst this
      refine ⟨[], rfl, rfl, by simp, ?_⟩
      rw [restoreLoop, moreData_iff, if_neg (by simpa using hp)]
      exact ⟨fun _ => trivial, fun _ => rfl⟩

/-- Restoring from a list of correct entries: the guesses one after another. -/
theorem restoreInner_short (t : Technique) (gs : List Code) (s : Scanner) (n : Nat)
    (h : n < gs.length) :
    restoreInner t gs s (List.replicate n .correct) = .error (.panic .unwrap) := by
  induction gs generalizing s n with
  | nil => simp at h
  | cons g gs ih =>
    cases n with
    | zero => rfl
    | succ n =>
      rw [List.replicate_succ, restoreInner]
      dsimp only
      rw [restoreOne]
      show (restoreInner t gs (t.feedback s g) _ >>= _) = _
      rw [ih _ _ (by simpa using h)]
      rfl

theorem length_le_sum (cs : List Code) : cs.length ≤ (cs.map Code.emittedBytes).sum := by
  induction cs with
  | nil => simp
  | cons c cs ih =>
    have := c.emittedBytes_pos
    rw [List.map_cons, List.sum_cons, List.length_cons]
    omega

theorem restoreLoop_correct {t : Technique} (hb : t.allRefs.Built) (fuel : Nat) (s : Scanner) (n : Nat)
    (hs : s.pos ≤ t.allRefs.win.length) (hf : t.allRefs.win.length < fuel + s.pos) :
    (restoreLoop t fuel s (List.replicate n .correct) = .error (.panic .unwrap) ∧
      n < t.allRefs.win.length - s.pos) ∨
    ∃ cs, restoreLoop t fuel s (List.replicate n .correct) = .ok cs ∧
      GuessFor t.allRefs.win s.pos cs ∧
      s.pos + (cs.map Code.emittedBytes).sum = t.allRefs.win.length := by
  induction fuel generalizing s n with
  | zero => omega
  | succ fuel ih =>
    rw [restoreLoop, moreData_iff]
    by_cases hp : s.pos < t.allRefs.win.length
    · rw [if_pos (by simpa using hp)]
      obtain ⟨gs, g1, g2, g3⟩ := Technique.codes_ok hb s hp
      rw [g1, Ex.ok_bind, assert_of (by simp [g2]), Ex.ok_bind]
      have hlen := length_le_sum gs
      have hbound := g3.bound
      have hne : 1 ≤ gs.length := by
        cases gs with
        | nil => exact absurd rfl g2
        | cons g gs => simp
      by_cases hn : n < gs.length
      · rw [restoreInner_short t gs s n hn]
        exact .inl ⟨rfl, by omega⟩
      · obtain ⟨k, rfl⟩ : ∃ k, n = gs.length + k := ⟨n - gs.length, by omega⟩
        rw [← List.replicate_append_replicate, restoreInner_all, Ex.ok_bind]
        dsimp only
        have hpos := feedAll_pos t s gs
        rcases ih (feedAll t s gs) k (by omega) (by omega) with ⟨h1, h2⟩ | ⟨cs, h1, h2, h3⟩
        · rw [h1]; exact .inl ⟨rfl, by omega⟩
        · rw [h1]
          right
          refine ⟨gs ++ cs, rfl, g3.append (by rw [← hpos]; exact h2), ?_⟩
          rw [List.map_append, List.sum_append]
          omega
    · rw [if_neg (by simpa using hp)]
      right
      refine ⟨[], rfl, hs, ?_⟩
      simp; omega

end Tracing

end Rezip
