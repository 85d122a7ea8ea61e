import Verif.Props.Own

/-!
# C94: tracing any codes
-/

namespace Rezip

open Rezip.Spec

/-- The codes reach `n` bytes, and do so only with the last of them. -/
def Reaches (n : Nat) (codes : List Code) : Prop :=
  n ≤ (codes.map Code.emittedBytes).sum ∧
    ∀ init c, codes = init ++ [c] → (init.map Code.emittedBytes).sum < n

/-- The same, code by code. -/
def Covers : Nat → List Code → Prop
  | n, [] => n = 0
  | n, c :: cs => 0 < n ∧ Covers (n - c.emittedBytes) cs

theorem reaches_iff (n : Nat) (codes : List Code) : Reaches n codes ↔ Covers n codes := by
  induction codes generalizing n with
  | nil =>
    constructor
    · intro h; exact Nat.le_zero.1 h.1
    · intro h
      exact ⟨by rw [h]; exact Nat.zero_le _, by intro init c h; simp at h⟩
  | cons c cs ih =>
    have hc := c.emittedBytes_pos
    rw [Covers, ← ih]
    unfold Reaches
    rw [List.map_cons, List.sum_cons]
    constructor
    · rintro ⟨h1, h2⟩
      have hn : 0 < n := by
        rcases List.eq_nil_or_concat cs with h | ⟨i, d, h⟩
        · exact h2 [] c (by rw [h]; rfl)
        · have := h2 (c :: i) d (by rw [h]; simp)
          omega
      refine ⟨hn, by omega, ?_⟩
      intro init d h
      have := h2 (c :: init) d (by rw [h]; rfl)
      rw [List.map_cons, List.sum_cons] at this
      omega
    · rintro ⟨h1, h2, h3⟩
      refine ⟨by omega, ?_⟩
      intro init d h
      cases init with
      | nil => exact h1
      | cons e init =>
        rw [List.cons_append] at h
        cases h
        have := h3 init d rfl
        rw [List.map_cons, List.sum_cons]
        omega

/-- Codes either fall short or can be cut where they first reach `n` bytes. -/
theorem covers_or_short (n : Nat) (codes : List Code) :
    (codes.map Code.emittedBytes).sum < n ∨ ∃ used rest, codes = used ++ rest ∧ Covers n used := by
  induction codes generalizing n with
  | nil =>
    by_cases h : n = 0
    · exact .inr ⟨[], [], rfl, h⟩
    · exact .inl (by simp; omega)
  | cons c cs ih =>
    by_cases h : n = 0
    · exact .inr ⟨[], c :: cs, rfl, h⟩
    · rw [List.map_cons, List.sum_cons]
      rcases ih (n - c.emittedBytes) with h1 | ⟨u, r, rfl, h2⟩
      · by_cases h3 : n ≤ c.emittedBytes
        · omega
        · left; omega
      · exact .inr ⟨c :: u, r, rfl, by omega, h2⟩

theorem Covers.unique {n : Nat} {u v r r' : List Code} (hu : Covers n u) (hv : Covers n v) (h : u ++ r = v ++ r') :
    u = v := by
  induction u generalizing n v with
  | nil =>
    cases v with
    | nil => rfl
    | cons c v => have : n = 0 := hu; have := hv.1; omega
  | cons c u ih =>
    cases v with
    | nil => have : n = 0 := hv; have := hu.1; omega
    | cons d v =>
      rw [List.cons_append, List.cons_append] at h
      obtain ⟨rfl, h'⟩ := List.cons.inj h
      rw [ih hu.2 hv.2 h']

theorem Covers.length_le {n : Nat} {u : List Code} (h : Covers n u) : u.length ≤ n := by
  induction u generalizing n with
  | nil => exact Nat.zero_le n
  | cons c u ih =>
    have h1 := h.1
    have h2 := ih h.2
    have := c.emittedBytes_pos
    rw [List.length_cons]
    omega

theorem GuessFor.refOk {w : List UInt8} {pos : Nat} {cs : List Code} (h : GuessFor w pos cs) (r : Ref)
    (hr : Code.reference r ∈ cs) : RefOk r := by
  induction cs generalizing pos with
  | nil => cases hr
  | cons c cs ih =>
    cases c with
    | literal b =>
      rcases List.mem_cons.1 hr with e | e
      · cases e
      · exact ih h.2 e
    | reference q =>
      rcases List.mem_cons.1 hr with e | e
      · cases e
        exact ⟨h.1.dist_pos, h.1.dist_le, r.three_le_run, r.run_le⟩
      · exact ih h.2 e

namespace Tracing

theorem sharedPrefix_covers (gs : List Code) (n : Nat) (used : List Code)
    (hg : (gs.map Code.emittedBytes).sum ≤ n) (hc : Covers n used) :
    ∃ m gs' used', (∀ rest, sharedPrefix gs (used ++ rest) = (m, used' ++ rest)) ∧ gs = m ++ gs' ∧
      used = m ++ used' ∧ Covers (n - (m.map Code.emittedBytes).sum) used' := by
  induction gs generalizing n used with
  | nil => exact ⟨[], [], used, fun _ => rfl, rfl, rfl, by simpa using hc⟩
  | cons g gs ih =>
    rw [List.map_cons, List.sum_cons] at hg
    have hgp := g.emittedBytes_pos
    cases used with
    | nil => have : n = 0 := hc; omega
    | cons c cs =>
      by_cases h : c = g
      · subst h
        obtain ⟨m, gs', u', e1, e2, e3, e4⟩ := ih (n - c.emittedBytes) cs (by omega) hc.2
        refine ⟨c :: m, gs', u', ?_, by rw [e2]; rfl, by rw [e3]; rfl, ?_⟩
        · intro rest
          rw [List.cons_append, sharedPrefix, if_pos rfl, e1]
        · rw [List.map_cons, List.sum_cons, Nat.sub_add_eq]
          exact e4
      · refine ⟨[], g :: gs, c :: cs, ?_, rfl, rfl, by simpa using hc⟩
        intro rest
        rw [List.cons_append, sharedPrefix, if_neg h]

/-- Tracing and restoring codes which reach the end with the last of them; further codes are ignored. -/
theorem loops_any {t : Technique} (hb : t.allRefs.Built) (fuel : Nat) (s : Scanner) (used : List Code)
    (hs : Covers (t.allRefs.win.length - s.pos) used) (hf : t.allRefs.win.length < fuel + s.pos) (hf0 : fuel ≠ 0) :
    ∃ tr, (∀ rest, traceLoop t fuel s (used ++ rest) = .ok tr) ∧ tr.length = used.length ∧
      (∀ r, Trace.actually r ∈ tr → Code.reference r ∈ used) ∧
      (∀ r, Code.reference r ∈ used → Trace.actually r ∈ tr ∨ RefOk r) ∧
      (restoreLoop t fuel s tr = .ok used ↔ HintedLiteralsAgree t.allRefs.data s.pos used tr) := by
  induction fuel generalizing s used with
  | zero => exact absurd rfl hf0
  | succ fuel ih =>
    by_cases hp : s.pos < t.allRefs.win.length
    · obtain ⟨gs, g1, g2, g3⟩ := Technique.codes_ok hb s hp
      have hbound := g3.bound
      obtain ⟨m, gs', used', m1, m2, m3, m4⟩ := sharedPrefix_covers gs (t.allRefs.win.length - s.pos) used
        (by omega) hs
      have unfoldT : ∀ rest, traceLoop t (fuel + 1) s (used ++ rest) =
          (if m.length = gs.length then traceLoop t fuel (feedAll t s m) (used' ++ rest) >>= fun tr =>
            pure (List.replicate m.length .correct ++ tr)
          else match used' ++ rest with
            | code :: codes => traceLoop t fuel (t.feedback (feedAll t s m) code) codes >>= fun tr =>
                pure (List.replicate m.length .correct ++ [hintFor code] ++ tr)
            | [] => .error (.panic .explicit)) := by
        intro rest
        rw [traceLoop, moreData_iff, if_pos (by simpa using hp), g1, Ex.ok_bind, assert_of (by simp [g2]),
          Ex.ok_bind, m1]
        rfl
      have unfoldR : ∀ tr, restoreLoop t (fuel + 1) s tr =
          (restoreInner t gs s tr >>= fun x => restoreLoop t fuel x.1 x.2.2 >>= fun rest =>
            pure (x.2.1 ++ rest)) := by
        intro tr
        rw [restoreLoop, moreData_iff, if_pos (by simpa using hp), g1, Ex.ok_bind,
          assert_of (by simp [g2]), Ex.ok_bind]
      have hsum : (gs.map Code.emittedBytes).sum =
          (m.map Code.emittedBytes).sum + (gs'.map Code.emittedBytes).sum := by
        rw [m2, List.map_append, List.sum_append]
      have hpos := feedAll_pos t s m
      have hmref : ∀ r, Code.reference r ∈ m → RefOk r := fun r hr => g3.refOk r (by
        rw [m2]; exact List.mem_append_left _ hr)
      have hrest : t.allRefs.win.length - s.pos - (m.map Code.emittedBytes).sum =
          t.allRefs.win.length - (feedAll t s m).pos := by rw [hpos]; omega
      rw [hrest] at m4
      by_cases hm : m.length = gs.length
      · have hgs : gs = m := by
          rw [m2, List.length_append] at hm
          have : gs' = [] := List.length_eq_zero_iff.1 (by omega)
          rw [m2, this, List.append_nil]
        have hmpos : 1 ≤ (m.map Code.emittedBytes).sum := by
          cases m with
          | nil => exact absurd hgs g2
          | cons c m =>
            have := c.emittedBytes_pos
            rw [List.map_cons, List.sum_cons]
            omega
        obtain ⟨tr, t1, t2, t3, t3', t4⟩ := ih (feedAll t s m) used' m4 (by omega) (by omega)
        refine ⟨List.replicate m.length .correct ++ tr, ?_, ?_, ?_, ?_, ?_⟩
        · intro rest
          rw [unfoldT, if_pos hm, t1]
          rfl
        · rw [m3, List.length_append, List.length_append, List.length_replicate, t2]
        · intro r hr
          rcases List.mem_append.1 hr with hr | hr
          · have := (List.mem_replicate.1 hr).2; cases this
          · rw [m3]; exact List.mem_append_right _ (t3 r hr)
        · intro r hr
          rw [m3] at hr
          rcases List.mem_append.1 hr with hr | hr
          · exact .inr (hmref r hr)
          · rcases t3' r hr with h | h
            · exact .inl (List.mem_append_right _ h)
            · exact .inr h
        · rw [unfoldR, hgs, restoreInner_all, Ex.ok_bind]
          dsimp only
          rw [m3, hint_append, ← hpos, ← t4]
          cases restoreLoop t fuel (feedAll t s m) tr with
          | error e => simp [Ex.error_bind]
          | ok rest =>
            rw [Ex.ok_bind]
            show Except.ok (m ++ rest) = Except.ok (m ++ used') ↔ _
            simp
      · have hgs' : ∃ g gs'', gs' = g :: gs'' := by
          cases gs' with
          | nil => rw [m2, List.append_nil] at hm; exact absurd rfl hm
          | cons g gs'' => exact ⟨g, gs'', rfl⟩
        obtain ⟨g, gs'', rfl⟩ := hgs'
        cases used' with
        | nil =>
          exfalso
          have h0 : t.allRefs.win.length - (feedAll t s m).pos = 0 := m4
          rw [List.map_cons, List.sum_cons] at hsum
          have := g.emittedBytes_pos
          omega
        | cons c used' =>
          have hcpos := c.emittedBytes_pos
          have m5 := m4.2
          rw [show t.allRefs.win.length - (feedAll t s m).pos - c.emittedBytes =
            t.allRefs.win.length - (t.feedback (feedAll t s m) c).pos by rw [feedback_pos]; omega] at m5
          obtain ⟨tr, t1, t2, t3, t3', t4⟩ := ih (t.feedback (feedAll t s m) c) used' m5
            (by rw [feedback_pos]; omega) (by
              intro h0
              omega)
          refine ⟨List.replicate m.length .correct ++ hintFor c :: tr, ?_, ?_, ?_, ?_, ?_⟩
          · intro rest
            rw [unfoldT, if_neg hm, List.cons_append]
            dsimp only
            rw [t1, Ex.ok_bind]
            simp
          · rw [m3]; simp [t2]
          · intro r hr
            rcases List.mem_append.1 hr with hr | hr
            · have := (List.mem_replicate.1 hr).2; cases this
            · rw [m3]
              apply List.mem_append_right
              rcases List.mem_cons.1 hr with hr | hr
              · cases c with
                | literal b => cases hr
                | reference r' => cases hr; simp
              · exact List.mem_cons_of_mem _ (t3 r hr)
          · intro r hr
            rw [m3] at hr
            rcases List.mem_append.1 hr with hr | hr
            · exact .inr (hmref r hr)
            · rcases List.mem_cons.1 hr with hr | hr
              · subst hr
                exact .inl (List.mem_append_right _ (by rw [hintFor]; simp))
              · rcases t3' r hr with h | h
                · exact .inl (List.mem_append_right _ (List.mem_cons_of_mem _ h))
                · exact .inr h
          · rw [unfoldR, m2, restoreInner_miss, m3, hint_append, ← hpos]
            rw [feedback_pos] at t4
            cases c with
            | reference r =>
              unfold hinted
              show (restoreLoop t fuel _ tr >>= _) = _ ↔ _
              dsimp only
              rw [hintFor, HintedLiteralsAgree]
              rw [show Code.emittedBytes (.reference r) = r.run from rfl] at t4
              rw [← t4]
              cases restoreLoop t fuel (t.feedback (feedAll t s m) (.reference r)) tr with
              | error e => simp [Ex.error_bind]
              | ok rest =>
                rw [Ex.ok_bind]
                show Except.ok (m ++ [.reference r] ++ rest) = Except.ok (m ++ .reference r :: used') ↔ _
                simp
            | literal b =>
              unfold hinted
              dsimp only
              rw [hintFor, HintedLiteralsAgree]
              rw [show Code.emittedBytes (.literal b) = 1 from rfl] at t4
              rw [← t4, Technique.byteAt, index]
              cases hd : t.allRefs.data[(feedAll t s m).pos]? with
              | none => simp [Except.map, Ex.error_bind]
              | some b' =>
                show (restoreLoop t fuel (t.feedback (feedAll t s m) (.literal b')) tr >>= _) = _ ↔ _
                dsimp only
                rw [feedback_literal t _ b' b]
                cases restoreLoop t fuel (t.feedback (feedAll t s m) (.literal b)) tr with
                | error e => simp [Ex.error_bind]
                | ok rest =>
                  rw [Ex.ok_bind]
                  show Except.ok (m ++ [.literal b'] ++ rest) =
                    Except.ok (m ++ .literal b :: used') ↔ _
                  simp
    · have h0 : t.allRefs.win.length - s.pos = 0 := by omega
      rw [h0] at hs
      have hu : used = [] := by
        cases used with
        | nil => rfl
        | cons c cs => exact absurd hs.1 (by omega)
      subst hu
      refine ⟨[], ?_, rfl, by simp, by simp, ?_⟩
      · intro rest
        rw [traceLoop, moreData_iff, if_neg (by simpa using hp)]
        rfl
      · rw [restoreLoop, moreData_iff, if_neg (by simpa using hp)]
        exact ⟨fun _ => trivial, fun _ => rfl⟩

/-- Codes which fall short make it panic. -/
theorem traceLoop_short {t : Technique} (hb : t.allRefs.Built) (fuel : Nat) (s : Scanner) (codes : List Code)
    (hs : s.pos + (codes.map Code.emittedBytes).sum < t.allRefs.win.length)
    (hf : t.allRefs.win.length < fuel + s.pos) : traceLoop t fuel s codes = .error (.panic .explicit) := by
  induction fuel generalizing s codes with
  | zero => omega
  | succ fuel ih =>
    have hp : s.pos < t.allRefs.win.length := by omega
    obtain ⟨gs, g1, g2, g3⟩ := Technique.codes_ok hb s hp
    obtain ⟨m, gs', cs', m1, m2, m3⟩ := sharedPrefix_spec gs codes
    have hpos := feedAll_pos t s m
    have hsum : (codes.map Code.emittedBytes).sum =
        (m.map Code.emittedBytes).sum + (cs'.map Code.emittedBytes).sum := by
      rw [m3, List.map_append, List.sum_append]
    rw [traceLoop, moreData_iff, if_pos (by simpa using hp), g1, Ex.ok_bind, assert_of (by simp [g2]),
      Ex.ok_bind, m1]
    dsimp only
    by_cases hm : m.length = gs.length
    · have hmpos : 1 ≤ (m.map Code.emittedBytes).sum := by
        have := length_le_sum m
        have := List.length_pos_iff.2 g2
        omega
      rw [if_pos hm, ih _ _ (by omega) (by omega)]
      rfl
    · rw [if_neg hm]
      cases cs' with
      | nil => rfl
      | cons c cs' =>
        have := c.emittedBytes_pos
        rw [List.map_cons, List.sum_cons] at hsum
        dsimp only
        rw [ih _ _ (by rw [feedback_pos]; omega) (by rw [feedback_pos]; omega)]
        rfl

end Tracing

/-- C94. Tracing any codes, for every configuration: if they fall short of the data it panics. Otherwise it uses
the codes up to the first at which the data is reached, gives one entry for each, and ignores all others. -/
theorem C94_trace (config : Config) (preroll data : List UInt8) (limit : Nat) (codes : List Code) :
    ∃ a, AllRefs.withSixteen preroll data limit = .ok a ∧
      (((codes.map Code.emittedBytes).sum < data.length ∧
          Tracing.trace codes ⟨config, a⟩ = .error (.panic .explicit)) ∨
        ∃ used rest tr, codes = used ++ rest ∧ Reaches data.length used ∧ tr.length = used.length ∧
          ∀ rest', Tracing.trace (used ++ rest') ⟨config, a⟩ = .ok tr) := by
  obtain ⟨a, h1, h2, h3, _, h5⟩ := AllRefs.withSixteen_ok preroll data limit
  have hw : a.win.length = preroll.length + data.length := by
    unfold AllRefs.win; rw [h2, h3, List.length_append]
  have hp : (Technique.mk config a).scanner.pos = preroll.length := by
    show a.preroll.length = _
    rw [h2]
  have hf : (Technique.mk config a).allRefs.win.length <
      (Technique.mk config a).dataLen + 1 + (Technique.mk config a).scanner.pos := by
    rw [Technique.dataLen, AllRefs.dataLen_eq]
    omega
  refine ⟨a, h1, ?_⟩
  rcases covers_or_short data.length codes with h | ⟨used, rest, rfl, h⟩
  · exact .inl ⟨h, Tracing.traceLoop_short (t := ⟨config, a⟩) h5 _ _ _ (by
      rw [hp]; show _ < a.win.length; omega) hf⟩
  · obtain ⟨tr, t1, t2, _⟩ := Tracing.loops_any (t := ⟨config, a⟩) h5 _ (Technique.mk config a).scanner used (by
      rw [hp]; show Covers (a.win.length - _) _; rw [hw, Nat.add_sub_cancel_left]; exact h) hf (by omega)
    exact .inr ⟨used, rest, tr, rfl, (reaches_iff _ _).2 h, t2, t1⟩

theorem Tracing.restoreInner_length (t : Technique) (gs : List Code) (s s' : Scanner) (tr tr' : List Trace)
    (out : List Code) (h : Tracing.restoreInner t gs s tr = .ok (s', out, tr')) :
    out.length + tr'.length = tr.length := by
  induction gs generalizing s tr out with
  | nil => cases h; simp
  | cons g gs ih =>
    cases tr with
    | nil => cases h
    | cons x tr =>
      rw [Tracing.restoreInner] at h
      dsimp only at h
      obtain ⟨orig, _, h⟩ := Ex.bind_eq_ok.1 h
      cases x with
      | correct =>
        obtain ⟨⟨s2, o2, tr2⟩, h2, h⟩ := Ex.bind_eq_ok.1 h
        cases h
        have h3 := ih _ _ _ h2
        rw [List.length_cons, List.length_cons]
        show o2.length + 1 + tr2.length = _
        have h3 : o2.length + tr2.length = tr.length := h3
        omega
      | actuallyLiteral => cases h; rw [List.length_cons, List.length_cons]; simp; omega
      | actually r => cases h; rw [List.length_cons, List.length_cons]; simp; omega

theorem Tracing.restoreLoop_length (t : Technique) (fuel : Nat) (s : Scanner) (tr : List Trace) (cs : List Code)
    (h : Tracing.restoreLoop t fuel s tr = .ok cs) : cs.length ≤ tr.length := by
  induction fuel generalizing s tr cs with
  | zero => cases h
  | succ fuel ih =>
    rw [Tracing.restoreLoop] at h
    split at h
    · obtain ⟨gs, _, h⟩ := Ex.bind_eq_ok.1 h
      obtain ⟨_, _, h⟩ := Ex.bind_eq_ok.1 h
      obtain ⟨⟨s', out, tr'⟩, h1, h⟩ := Ex.bind_eq_ok.1 h
      obtain ⟨rest, h2, h⟩ := Ex.bind_eq_ok.1 h
      cases h
      have := Tracing.restoreInner_length _ _ _ _ _ _ _ h1
      have := ih _ _ _ h2
      rw [List.length_append]
      omega
    · cases h
      simp

theorem verify_iff (tr : List Trace) :
    (TraceOk tr ∧ ∃ b, SerialiseTrace.verify tr = .ok b) ∨
      (¬ TraceOk tr ∧ ∃ p, SerialiseTrace.verify tr = .error (.panic p)) := by
  by_cases h : TraceOk tr
  · obtain ⟨b, _, _, hv⟩ := C36_roundtrip tr h
    exact .inl ⟨h, b, hv⟩
  · refine .inr ⟨h, ?_⟩
    unfold SerialiseTrace.verify
    rw [SerialiseTrace.write_eq, Ex.ok_bind]
    rcases C37_read_total (SerialiseTrace.bytesOf tr) with ⟨t, e, ht⟩ | e
    · rw [e]
      dsimp only
      have hne : (tr == t) = false := by
        apply Bool.eq_false_iff.2
        intro he
        rw [beq_iff_eq.1 he] at h
        exact h ht
      rw [hne]
      exact ⟨.assertion, rfl⟩
    · rw [e]
      exact ⟨.unwrap, rfl⟩

/-- C94. The tracer on any codes, for every configuration and preroll: it succeeds exactly if the codes reach the
end of the data with the last of them, no sooner and possibly running over it, all distances are in range
and every mispredicted literal is the byte of the data at its index into preroll and data. Then it returns
the trace, and otherwise it panics. -/
theorem C94_try (config : Config) (preroll data : List UInt8) (codes : List Code) :
    ∃ a, AllRefs.withSixteen preroll data (config.wams.insertOnlyBelowLength.getD 65535) = .ok a ∧
      (∀ tr, Tracer.try_ config preroll data codes = .ok tr ↔
        Tracing.trace codes ⟨config, a⟩ = .ok tr ∧ Reaches data.length codes ∧
          (∀ r, Code.reference r ∈ codes → RefOk r) ∧ HintedLiteralsAgree data preroll.length codes tr) ∧
      ∀ e, Tracer.try_ config preroll data codes = .error e → ∃ p, e = .panic p := by
  obtain ⟨a, h1, h2, h3, _, h5⟩ :=
    AllRefs.withSixteen_ok preroll data (config.wams.insertOnlyBelowLength.getD 65535)
  have hw : a.win.length = preroll.length + data.length := by
    unfold AllRefs.win; rw [h2, h3, List.length_append]
  have hp : (Technique.mk config a).scanner.pos = preroll.length := by
    show a.preroll.length = _
    rw [h2]
  have hf : (Technique.mk config a).allRefs.win.length <
      (Technique.mk config a).dataLen + 1 + (Technique.mk config a).scanner.pos := by
    rw [Technique.dataLen, AllRefs.dataLen_eq]
    omega
  have unf : ∀ tr, Tracing.trace codes ⟨config, a⟩ = .ok tr → Tracer.try_ config preroll data codes =
      (Tracing.restore tr ⟨config, a⟩ >>= fun restored => assert (codes == restored) >>= fun _ =>
        SerialiseTrace.verify tr >>= fun _ => pure tr) := by
    intro tr htr
    rw [Tracer.try_, h1, Ex.ok_bind, Tracing.validate, htr, Ex.ok_bind]
    cases Tracing.restore tr ⟨config, a⟩ with
    | error e => rfl
    | ok restored =>
      rw [Ex.ok_bind, Ex.ok_bind]
      cases assert (codes == restored) <;> rfl
  refine ⟨a, h1, ?_⟩
  rcases covers_or_short data.length codes with h | ⟨used, rest, hcodes, h⟩
  · have ht : Tracing.trace codes ⟨config, a⟩ = .error (.panic .explicit) :=
      Tracing.traceLoop_short (t := ⟨config, a⟩) h5 _ _ _ (by
        rw [hp]; show _ < a.win.length; omega) hf
    have htry : Tracer.try_ config preroll data codes = .error (.panic .explicit) := by
      rw [Tracer.try_, h1, Ex.ok_bind, Tracing.validate, ht]
      rfl
    rw [htry, ht]
    refine ⟨?_, ?_⟩
    · intro tr
      constructor
      · intro h; cases h
      · rintro ⟨h, _⟩; cases h
    · intro e he
      cases he
      exact ⟨_, rfl⟩
  · obtain ⟨tr, t1, t2, t3, t3', t4⟩ :=
      Tracing.loops_any (t := ⟨config, a⟩) h5 _ (Technique.mk config a).scanner used (by
        rw [hp]; show Covers (a.win.length - _) _; rw [hw, Nat.add_sub_cancel_left]; exact h) hf (by omega)
    rw [hp] at t4
    replace t4 : Tracing.restore tr ⟨config, a⟩ = .ok used ↔
      HintedLiteralsAgree a.data preroll.length used tr := t4
    rw [h3] at t4
    have htr : Tracing.trace codes ⟨config, a⟩ = .ok tr := by
      rw [hcodes]; exact t1 rest
    have hor : (∃ cs, Tracing.restore tr ⟨config, a⟩ = .ok cs) ∨
        ∃ p, Tracing.restore tr ⟨config, a⟩ = .error (.panic p) :=
      Tracing.restoreLoop_or_panic (t := ⟨config, a⟩) h5 ((⟨config, a⟩ : Technique).dataLen + 1)
        (⟨config, a⟩ : Technique).scanner tr hf (by omega)
    have hreach : Reaches data.length codes ↔ rest = [] := by
      rw [reaches_iff]
      constructor
      · intro hc
        have := h.unique (r := rest) (r' := []) hc (by rw [← hcodes, List.append_nil])
        rw [this] at hcodes
        exact List.append_cancel_left (hcodes.symm.trans (List.append_nil _).symm)
      · intro hr
        rw [hcodes, hr, List.append_nil]
        exact h
    have hlen : Tracing.restore tr ⟨config, a⟩ = .ok codes → rest = [] := by
      intro hcs
      have := Tracing.restoreLoop_length _ _ _ _ _ hcs
      rw [hcodes, List.length_append] at this
      exact List.length_eq_zero_iff.1 (by omega)
    have hrefs : rest = [] → ((∀ r, Code.reference r ∈ codes → RefOk r) ↔ TraceOk tr) := by
      intro hr
      rw [hr, List.append_nil] at hcodes
      rw [hcodes]
      constructor
      · intro hall r hm; exact hall r (t3 r hm)
      · intro hall r hm
        rcases t3' r hm with h | h
        · exact hall r h
        · exact h
    rw [unf tr htr, htr]
    rcases hor with ⟨cs, hcs⟩ | ⟨p, hcs⟩
    · rw [hcs, Ex.ok_bind]
      by_cases e : codes = cs
      · subst e
        have hr := hlen hcs
        rw [assert_of (by simp), Ex.ok_bind]
        have hcodes' := hcodes
        rw [hr, List.append_nil] at hcodes'
        have hhint : HintedLiteralsAgree data preroll.length codes tr := by
          rw [hcodes']
          exact t4.1 (by rw [hcs, hcodes'])
        rcases verify_iff tr with ⟨v1, b, v2⟩ | ⟨v1, p, v2⟩ <;> rw [v2]
        · rw [Ex.ok_bind]
          refine ⟨?_, by intro e he; cases he⟩
          intro tr'
          constructor
          · intro h
            cases h
            exact ⟨rfl, hreach.2 hr, (hrefs hr).2 v1, hhint⟩
          · rintro ⟨h, _⟩
            cases h
            rfl
        · refine ⟨?_, by intro e he; cases he; exact ⟨_, rfl⟩⟩
          intro tr'
          constructor
          · intro h; cases h
          · rintro ⟨h, _, h', _⟩
            exact absurd ((hrefs hr).1 h') v1
      · have hne : (codes == cs) = false := by
          apply Bool.eq_false_iff.2
          intro he
          exact e (beq_iff_eq.1 he)
        rw [hne]
        refine ⟨?_, by intro e he; cases he; exact ⟨_, rfl⟩⟩
        intro tr'
        constructor
        · intro h; cases h
        · rintro ⟨h, hr, _, h'⟩
          cases h
          have hr := hreach.1 hr
          rw [hr, List.append_nil] at hcodes
          rw [hcodes] at h' e
          have := t4.2 h'
          rw [hcs] at this
          cases this
          exact absurd rfl e
    · rw [hcs]
      refine ⟨?_, by intro e he; cases he; exact ⟨_, rfl⟩⟩
      intro tr'
      constructor
      · intro h; cases h
      · rintro ⟨h, hr, _, h'⟩
        cases h
        have hr := hreach.1 hr
        rw [hr, List.append_nil] at hcodes
        rw [hcodes] at h'
        have := t4.2 h'
        rw [hcs] at this
        cases this

/-- The trace of a greedy configuration on codes which reach the end with the last. -/
theorem refTrace_loop_any {config : Config} (hg : config.lookahead = .greedy) {preroll data : List UInt8}
    {search : Nat} {a : AllRefs} (ha : AllRefs.withSixteen preroll data search = .ok a)
    (fuel : Nat) (s : Scanner) (codes : List Code)
    (hs : Covers ((preroll ++ data).length - s.pos) codes) (hf : codes.length < fuel) :
    Tracing.traceLoop ⟨config, a⟩ fuel s codes =
      .ok (refTrace config.settings search (preroll ++ data) s.pos s.obscured codes) := by
  obtain ⟨a', h3, e1, e2, _⟩ := AllRefs.withSixteen_ok preroll data search
  rw [ha] at h3; cases h3
  have hw : a.win = preroll ++ data := by rw [← e1, ← e2]; rfl
  induction codes generalizing fuel s with
  | nil =>
    cases fuel with
    | zero => omega
    | succ fuel =>
      rw [Tracing.traceLoop, Tracing.moreData_iff]
      have h0 : (preroll ++ data).length - s.pos = 0 := hs
      dsimp only
      rw [hw, show decide (s.pos < (preroll ++ data).length) = false by
        rw [decide_eq_false_iff_not]; omega]
      rfl
  | cons c cs ih =>
    cases fuel with
    | zero => omega
    | succ fuel =>
      have hlt : s.pos < (preroll ++ data).length := by
        have := hs.1
        omega
      have hs2 := hs.2
      obtain ⟨g, g1, g2⟩ := C69_greedy config hg preroll data search a ha s hlt
      have ih' := ih fuel ((Technique.mk config a).feedback s c)
        (by rw [Tracing.feedback_pos, Nat.sub_add_eq]; exact hs2) (by simpa using hf)
      rw [traceLoop_single (by rw [Tracing.moreData_iff, hw]; simpa using hlt) g1, ih',
        Tracing.feedback_pos]
      have hob : ((Technique.mk config a).feedback s c).obscured =
          s.obscured ++ recordedRuns config.wams.insertOnlyBelowLength s.pos [c] := by
        have := C55_recorded (Technique.mk config a) s [c]
        rw [Tracing.feedAll, Tracing.feedAll] at this
        rw [this]
      rw [hob]
      show Except.ok _ = Except.ok _
      congr 1
      have hcg : (if c = g then Trace.correct else Tracing.hintFor c) =
          if says (preroll ++ data) s.pos
            (guess config.settings search (preroll ++ data) s.pos s.obscured) c = true
          then Trace.correct else Tracing.hintFor c := by
        by_cases e : c = g
        · rw [if_pos e, if_pos ((g2 c).2 e)]
        · rw [if_neg e, if_neg (fun h => e ((g2 c).1 h))]
      rw [hcg]
      cases c with
      | literal b =>
        rw [refTrace, recordedRuns, recordedRuns, List.append_nil]
        rfl
      | reference r =>
        rw [refTrace]
        show _ :: refTrace _ _ _ (s.pos + r.run) _ _ = _
        congr 2
        show _ = if (config.wams.insertOnlyBelowLength).any _ = true then _ else _
        cases config.wams.insertOnlyBelowLength with
        | none => simp [recordedRuns]
        | some l =>
          by_cases hl : l < r.run <;> simp [hl, recordedRuns]

/-- C94. The gzip tracer, exactly, on any level, preroll, data and codes whatsoever. -/
theorem C94_try_gzip (level : Nat) (preroll data : List UInt8) (codes : List Code) :
    (∃ st, gzipSettings level = some st ∧ Reaches data.length codes ∧
      (∀ r, Code.reference r ∈ codes → RefOk r) ∧
      HintedLiteralsAgree data preroll.length codes
        (refTrace st (st.insert.getD 65535) (preroll ++ data) preroll.length [] codes) ∧
      Tracer.tryGzip level preroll data codes =
        .ok (refTrace st (st.insert.getD 65535) (preroll ++ data) preroll.length [] codes)) ∨
    ((∀ st, gzipSettings level = some st → ¬ (Reaches data.length codes ∧
        (∀ r, Code.reference r ∈ codes → RefOk r) ∧
        HintedLiteralsAgree data preroll.length codes
          (refTrace st (st.insert.getD 65535) (preroll ++ data) preroll.length [] codes))) ∧
      ∃ p, Tracer.tryGzip level preroll data codes = .error (.panic p)) := by
  cases hst : gzipSettings level with
  | none =>
    refine .inr ⟨by intro st h; simp at h, ?_⟩
    refine ⟨.assertion, ?_⟩
    rw [Tracer.tryGzip, C66_level_range level (by
      intro h
      obtain ⟨st, h⟩ := gzipSettings_some h
      exact absurd (hst.symm.trans h) (by simp))]
    rfl
  | some st =>
    obtain ⟨config, hc, hset, hg⟩ := gzip_settings hst
    have hins : config.wams.insertOnlyBelowLength = st.insert := by rw [← hset]; rfl
    have htg : Tracer.tryGzip level preroll data codes = Tracer.try_ config preroll data codes := by
      rw [Tracer.tryGzip, hc, Ex.ok_bind]
    obtain ⟨a, ha, h1, h2⟩ := C94_try config preroll data codes
    rw [hins] at ha
    rw [htg]
    obtain ⟨a', k1, k2, k3, _, _⟩ := AllRefs.withSixteen_ok preroll data (st.insert.getD 65535)
    rw [ha] at k1; cases k1
    have htr : Reaches data.length codes → Tracing.trace codes ⟨config, a⟩ =
        .ok (refTrace st (st.insert.getD 65535) (preroll ++ data) preroll.length [] codes) := by
      intro hr
      have hcov := (reaches_iff _ _).1 hr
      rw [Tracing.trace, refTrace_loop_any hg ha, hset]
      · show Except.ok (refTrace _ _ _ a.preroll.length _ _) = _
        rw [k2]
        rfl
      · show Covers (_ - a.preroll.length) _
        rw [k2, List.length_append, Nat.add_sub_cancel_left]
        exact hcov
      · show _ < a.dataLen + 1
        rw [AllRefs.dataLen, k2, k3]
        have := Covers.length_le hcov
        omega
    by_cases hall : Reaches data.length codes ∧ (∀ r, Code.reference r ∈ codes → RefOk r) ∧
        HintedLiteralsAgree data preroll.length codes
          (refTrace st (st.insert.getD 65535) (preroll ++ data) preroll.length [] codes)
    · obtain ⟨p1, p2, p3⟩ := hall
      exact .inl ⟨st, rfl, p1, p2, p3, (h1 _).2 ⟨htr p1, p1, p2, p3⟩⟩
    · refine .inr ⟨by intro st' h; cases h; exact hall, ?_⟩
      cases he : Tracer.try_ config preroll data codes with
      | error e =>
        obtain ⟨p, rfl⟩ := h2 e he
        exact ⟨p, rfl⟩
      | ok tr =>
        obtain ⟨p1, p2, p3, p4⟩ := (h1 tr).1 he
        rw [htr p2] at p1
        cases p1
        exact absurd ⟨p2, p3, p4⟩ hall

/-- Three bytes and a reference that runs past the end of them: the tracer takes it, and so the trace stands
for more than the data. -/
example : Reaches 3 [.literal 1, .reference ⟨1, 5⟩] ∧
    Tracer.tryGzip 6 [] [1, 1, 1] [.literal 1, .reference ⟨1, 5⟩] = .ok [.correct, .actually ⟨1, 5⟩] :=
  ⟨by rw [reaches_iff]; simp [Covers, Code.emittedBytes, Ref.run], by decide +kernel⟩

/-- One code too many panics. -/
example : ¬ Reaches 3 [.literal 1, .reference ⟨1, 5⟩, .literal 9] ∧
    Tracer.tryGzip 6 [] [1, 1, 1] [.literal 1, .reference ⟨1, 5⟩, .literal 9] =
      .error (.panic .assertion) :=
  ⟨by rw [reaches_iff]; simp [Covers, Code.emittedBytes, Ref.run], by decide +kernel⟩

/-- So does one too few. -/
example : ¬ Reaches 3 [.literal 1, .literal 1] ∧
    Tracer.tryGzip 6 [] [1, 1, 1] [.literal 1, .literal 1] = .error (.panic .explicit) :=
  ⟨by rw [reaches_iff]; simp [Covers, Code.emittedBytes], by decide +kernel⟩

end Rezip
