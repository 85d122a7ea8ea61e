import Verif.Props.FileTrace
import Verif.Spec.TraceExample

/-!
# C91: the example `trace`
-/

namespace Rezip

open Rezip.Spec Parse Serialise DecState

namespace TraceExample

open Printing

/-! ### Printing -/

theorem lift_bind {α β : Type} (a : α) (f : α → Printing β) : (lift (.ok a) >>= f) = f a := rfl

theorem lift_error {α β : Type} (e : Fail) (f : α → Printing β) : (lift (.error e) >>= f) = ⟨.error e, []⟩ :=
  rfl

theorem bind_ok {α β : Type} {x : Printing α} {a : α} {out : List Line} (hx : x = ⟨.ok a, out⟩)
    (f : α → Printing β) : (x >>= f) = ⟨(f a).result, out ++ (f a).out⟩ := by subst hx; rfl

theorem bind_error {α β : Type} {x : Printing α} {e : Fail} {out : List Line} (hx : x = ⟨.error e, out⟩)
    (f : α → Printing β) : (x >>= f) = ⟨.error e, out⟩ := by subst hx; rfl

theorem say_bind {β : Type} (l : Line) (f : Unit → Printing β) :
    (say l >>= f) = ⟨(f ()).result, l :: (f ()).out⟩ := rfl

theorem le_sum_of_mem {n : Nat} {l : List Nat} (h : n ∈ l) : n ≤ l.sum := by
  induction l with
  | nil => cases h
  | cons m l ih =>
    rw [List.sum_cons]
    rcases List.mem_cons.1 h with rfl | h
    · omega
    · have := ih h
      omega

/-! ### One level -/

theorem slice_around (u : List UInt8) (pos : Nat) (h : pos ≤ u.length + 5) :
    slice u (pos - 5) (min (pos + 5) u.length) = .ok (around u pos) := by
  unfold slice around
  rw [if_pos (by omega)]
  congr 1
  rw [List.drop_take]
  apply List.ext_getElem?
  intro i
  rw [List.getElem?_take, List.getElem?_take, List.getElem?_drop]
  by_cases h1 : pos - 5 + i < u.length
  · by_cases h2 : i < pos + 5 - (pos - 5)
    · rw [if_pos (by omega), if_pos h2]
    · rw [if_neg (by omega), if_neg h2]
  · rw [List.getElem?_eq_none (by omega)]
    split <;> split <;> rfl

theorem slice_panics (u : List UInt8) (pos : Nat) (h : u.length + 5 < pos) :
    slice u (pos - 5) (min (pos + 5) u.length) = .error (.panic .index) := by
  unfold slice
  rw [if_neg (by omega)]

theorem codes_guessed {config : Config} (hg : config.lookahead = .greedy) {preroll data : List UInt8}
    {search : Nat} {a : AllRefs} (ha : AllRefs.withSixteen preroll data search = .ok a) (s : Scanner)
    (hs : s.pos < (preroll ++ data).length) :
    (Technique.mk config a).codes s =
      .ok (guessedCode config.settings search (preroll ++ data) s.pos s.obscured) := by
  obtain ⟨c, h1, h2⟩ := C69_greedy config hg preroll data search a ha s hs
  rw [h1]
  congr 1
  unfold guessedCode
  have hc := (h2 c).2 rfl
  cases c with
  | literal b =>
    unfold says at hc
    rw [Bool.and_eq_true, Option.isNone_iff_eq_none, beq_iff_eq] at hc
    rw [hc.1, hc.2]
    rfl
  | reference r =>
    unfold says at hc
    rw [beq_iff_eq] at hc
    rw [hc]
    dsimp only
    obtain ⟨d, n⟩ := r
    congr 2
    congr 1
    · simp
    · simp [Ref.run]

theorem showLoop_eq {config : Config} (hg : config.lookahead = .greedy) {preroll data : List UInt8}
    {search : Nat} {a : AllRefs} (ha : AllRefs.withSixteen preroll data search = .ok a)
    (s : Scanner) (codes : List Code)
    (hs : s.pos + (codes.map Code.emittedBytes).sum = (preroll ++ data).length) :
    ((∀ c, codes.getLast? = some c → preroll.length ≤ c.emittedBytes + 5) →
      showLoop ⟨config, a⟩ data s
        (refTrace config.settings search (preroll ++ data) s.pos s.obscured codes) codes =
      ⟨.ok (missLines config.settings search (preroll ++ data) data s.pos s.obscured codes).2,
        (missLines config.settings search (preroll ++ data) data s.pos s.obscured codes).1⟩) ∧
    ((∃ c, codes.getLast? = some c ∧ c.emittedBytes + 5 < preroll.length) →
      ∃ out, showLoop ⟨config, a⟩ data s
        (refTrace config.settings search (preroll ++ data) s.pos s.obscured codes) codes =
      ⟨.error (.panic .index), out⟩) := by
  induction codes generalizing s with
  | nil =>
    constructor
    · intro _
      rfl
    · rintro ⟨c, h, _⟩
      cases h
  | cons c cs ih =>
    rw [List.map_cons, List.sum_cons] at hs
    have hpos := c.emittedBytes_pos
    have hlt : s.pos < (preroll ++ data).length := by omega
    have hgc := codes_guessed hg ha s hlt
    have ih' := ih ((Technique.mk config a).feedback s c) (by rw [Tracing.feedback_pos]; omega)
    rw [List.length_append] at hs
    -- the recursive calls of the three functions agree
    have hfb : ((Technique.mk config a).feedback s c).pos = s.pos + c.emittedBytes :=
      Tracing.feedback_pos _ _ _
    have hob : ((Technique.mk config a).feedback s c).obscured =
        match c with
        | .literal _ => s.obscured
        | .reference r => if config.settings.insert.any (fun l => decide (l < r.run)) then
            s.obscured ++ [(s.pos, r.run)] else s.obscured := by
      have h0 := C55_recorded (Technique.mk config a) s [c]
      rw [Tracing.feedAll, Tracing.feedAll] at h0
      rw [h0]
      show s.obscured ++ recordedRuns config.wams.insertOnlyBelowLength s.pos [c] = _
      cases c with
      | literal b => rw [recordedRuns, recordedRuns, List.append_nil]
      | reference r =>
        show _ = if (config.wams.insertOnlyBelowLength).any _ = true then _ else _
        cases config.wams.insertOnlyBelowLength with
        | none => simp [recordedRuns]
        | some l => by_cases hl : l < r.run <;> simp [hl, recordedRuns]
    rw [hfb, hob] at ih'
    have hlast : ∀ e, (c :: cs).getLast? = some e → cs = [] ∧ e = c ∨ cs.getLast? = some e := by
      intro e he
      cases cs with
      | nil => left; simpa [eq_comm] using he
      | cons c' cs' => right; rw [List.getLast?_cons_cons] at he; exact he
    have hsum : ∀ e, cs.getLast? = some e → e.emittedBytes ≤ (cs.map Code.emittedBytes).sum := by
      intro e he
      have hm := List.mem_of_getLast? he
      exact le_sum_of_mem (List.mem_map_of_mem hm)
    -- one step
    have step : ∀ (x : Trace) (rest : List Trace), s.pos ≤ data.length + 5 →
        showLoop ⟨config, a⟩ data s (x :: rest) (c :: cs) =
          ⟨(showLoop ⟨config, a⟩ data ((Technique.mk config a).feedback s c) rest cs).result,
            (if x = .correct then [] else [.miss s.pos (around data s.pos)
              (guessedCode config.settings search (preroll ++ data) s.pos s.obscured) x]) ++
            (showLoop ⟨config, a⟩ data ((Technique.mk config a).feedback s c) rest cs).out⟩ := by
      intro x rest hp
      rw [showLoop, showOne, slice_around data s.pos hp, lift_bind]
      cases x with
      | correct => rfl
      | actuallyLiteral => dsimp only; rw [hgc]; rfl
      | actually r => dsimp only; rw [hgc]; rfl
    have stepBad : ∀ (x : Trace) (rest : List Trace), data.length + 5 < s.pos →
        showLoop ⟨config, a⟩ data s (x :: rest) (c :: cs) = ⟨.error (.panic .index), []⟩ := by
      intro x rest hp
      rw [showLoop, showOne, slice_panics data s.pos hp, lift_error]
      rfl
    constructor
    · intro hl
      have hp : s.pos ≤ data.length + 5 := by
        cases hc : (c :: cs).getLast? with
        | none => simp at hc
        | some e =>
          have h1 := hl e hc
          rcases hlast e hc with ⟨rfl, rfl⟩ | hc'
          · simp only [List.map_nil, List.sum_nil] at hs; omega
          · have := hsum e hc'; omega
      have hl' : ∀ e, cs.getLast? = some e → preroll.length ≤ e.emittedBytes + 5 := by
        intro e he
        apply hl
        cases cs with
        | nil => cases he
        | cons c' cs' => rw [List.getLast?_cons_cons]; exact he
      have ih1 := ih'.1 hl'
      cases c with
      | literal b =>
        rw [refTrace, step _ _ hp, missLines]
        dsimp only at ih1 ⊢
        rw [show s.pos + (Code.literal b).emittedBytes = s.pos + 1 from rfl] at ih1
        rw [ih1]
        by_cases hsay : says (preroll ++ data) s.pos
            (guess config.settings search (preroll ++ data) s.pos s.obscured) (.literal b) = true
        · simp only [hsay, if_true]; rfl
        · simp only [hsay]; rfl
      | reference r =>
        rw [refTrace, step _ _ hp, missLines]
        dsimp only at ih1 ⊢
        rw [show s.pos + (Code.reference r).emittedBytes = s.pos + r.run from rfl] at ih1
        rw [ih1]
        by_cases hsay : says (preroll ++ data) s.pos
            (guess config.settings search (preroll ++ data) s.pos s.obscured) (.reference r) = true
        · simp only [hsay, if_true]; rfl
        · simp only [hsay]; rfl
    · rintro ⟨e, he, hbad⟩
      by_cases hp : s.pos ≤ data.length + 5
      · have hcs : cs.getLast? = some e := by
          rcases hlast e he with ⟨rfl, rfl⟩ | h
          · simp only [List.map_nil, List.sum_nil] at hs; omega
          · exact h
        obtain ⟨out, ho⟩ := ih'.2 ⟨e, hcs, hbad⟩
        cases c with
        | literal b =>
          rw [refTrace, step _ _ hp]
          dsimp only at ho
          rw [show s.pos + (Code.literal b).emittedBytes = s.pos + 1 from rfl] at ho
          rw [ho]
          exact ⟨_, rfl⟩
        | reference r =>
          rw [refTrace, step _ _ hp]
          dsimp only at ho
          rw [show s.pos + (Code.reference r).emittedBytes = s.pos + r.run from rfl] at ho
          rw [ho]
          exact ⟨_, rfl⟩
      · cases c with
        | literal b => rw [refTrace, stepBad _ _ (by omega)]; exact ⟨_, rfl⟩
        | reference r => rw [refTrace, stepBad _ _ (by omega)]; exact ⟨_, rfl⟩

theorem validate_eq {config : Config} {preroll data : List UInt8} {search : Nat} {codes : List Code}
    {a : AllRefs} (ha : AllRefs.withSixteen preroll data search = .ok a)
    {tr : List Trace} (ht : Tracing.trace codes ⟨config, a⟩ = .ok tr)
    (hs : (codes.map Code.emittedBytes).sum = data.length) :
    (HintedLiteralsAgree data preroll.length codes tr →
      Tracing.validate codes ⟨config, a⟩ = .ok tr) ∧
    (¬ HintedLiteralsAgree data preroll.length codes tr →
      ∃ p, Tracing.validate codes ⟨config, a⟩ = .error (.panic p)) := by
  obtain ⟨a', tr', h1, h2, h3, h4, h5⟩ := trace_restore config preroll data search codes hs
  rw [ha] at h1; cases h1
  rw [ht] at h2; cases h2
  constructor
  · intro h
    rw [Tracing.validate, ht, Ex.ok_bind, h5.2 h, Ex.ok_bind, assert_of (by simp), Ex.ok_bind]
    rfl
  · intro h
    obtain ⟨a', k1, k2, k3, _, k4⟩ := AllRefs.withSixteen_ok preroll data search
    rw [ha] at k1; cases k1
    have hor := Tracing.restoreLoop_or_panic (t := ⟨config, a⟩) k4 ((⟨config, a⟩ : Technique).dataLen + 1)
      (⟨config, a⟩ : Technique).scanner tr (by
        show (a.preroll ++ a.data).length < a.dataLen + 1 + a.preroll.length
        rw [AllRefs.dataLen, List.length_append]
        omega) (by omega)
    rcases hor with ⟨cs, hcs⟩ | ⟨p, hp⟩
    · refine ⟨.assertion, ?_⟩
      have hne : (codes == cs) = false := by
        apply Bool.eq_false_iff.2
        intro he
        have he := beq_iff_eq.1 he
        subst he
        exact h (h5.1 hcs)
      rw [Tracing.validate, ht, Ex.ok_bind, Tracing.restore, hcs, Ex.ok_bind, hne]
      rfl
    · exact ⟨p, by rw [Tracing.validate, ht, Ex.ok_bind, Tracing.restore, hp]; rfl⟩

/-- One level on one block. -/
theorem tryTrace_eq (level : Nat) (st : Settings) (hst : gzipSettings level = some st) (config : Config)
    (hc : Config.gzip level = .ok config) (name : String) (h u : List UInt8) (codes : List Code) (a : AllRefs)
    (ha : AllRefs.withSixteen (window h) u (st.insert.getD 65535) = .ok a)
    (hu : lzExpand 32768 h codes = some u) :
    (HintedLiteralsAgree u (window h).length codes (blockTrace st h u codes) ∧ LastInside h codes →
      ∃ size, SizeOf (blockTrace st h u codes) size ∧
        tryTrace a name config codes u = ⟨.ok (), levelLines st config name size h u codes⟩) ∧
    (¬ (HintedLiteralsAgree u (window h).length codes (blockTrace st h u codes) ∧ LastInside h codes) →
      ∃ q out, tryTrace a name config codes u = ⟨.error (.panic q), out⟩) := by
  obtain ⟨config', hc', hset, hg⟩ := gzip_settings hst
  rw [hc] at hc'; cases hc'
  have hs := sum_of_expand hu
  obtain ⟨config', a', hc', ha', ht⟩ := C70_trace level st hst (window h) u (st.insert.getD 65535) codes hs
  rw [hc] at hc'; cases hc'
  rw [ha] at ha'; cases ha'
  obtain ⟨_, k1, e1, e2, _, _⟩ := AllRefs.withSixteen_ok (window h) u (st.insert.getD 65535)
  rw [ha] at k1; cases k1
  obtain ⟨_, _, h1, h2, h3, h4, h5⟩ := trace_restore config (window h) u (st.insert.getD 65535) codes hs
  rw [ha] at h1; cases h1
  rw [ht] at h2; cases h2
  obtain ⟨bytes, hw, _, hv⟩ := C36_roundtrip _ (fun r hm => refOk_of_expand hu r (h4 r hm))
  have hval := validate_eq ha ht hs
  have hshow := showLoop_eq hg ha (⟨config, a⟩ : Technique).scanner codes (by
    show a.preroll.length + _ = _
    rw [e1, hs, List.length_append])
  have hsc : (⟨config, a⟩ : Technique).scanner = ⟨[], (window h).length⟩ := by
    show Scanner.mk [] a.preroll.length = _
    rw [e1]
  rw [hset, hsc] at hshow
  dsimp only at hshow
  by_cases hh : HintedLiteralsAgree u (window h).length codes (blockTrace st h u codes)
  · have unf : tryTrace a name config codes u =
        (say (.trace name bytes.length) >>= fun _ =>
          showLoop ⟨config, a⟩ u ⟨[], (window h).length⟩ (blockTrace st h u codes) codes >>= fun scanner =>
          say (.guesser config (window h) u scanner) >>= fun _ => say .blank) := by
      rw [tryTrace]
      rw [hval.1 hh, lift_bind, hv, lift_bind, hsc, e1, e2, blockTrace]
    constructor
    · rintro ⟨_, hl⟩
      refine ⟨bytes.length, ⟨bytes, hw, rfl⟩, ?_⟩
      have hsh : showLoop ⟨config, a⟩ u ⟨[], (window h).length⟩ (blockTrace st h u codes) codes = _ :=
        hshow.1 hl
      rw [unf, say_bind, bind_ok hsh]
      rfl
    · intro hn
      have hl : ∃ c, codes.getLast? = some c ∧ c.emittedBytes + 5 < (window h).length := by
        apply Decidable.byContradiction
        intro hno
        apply hn
        refine ⟨hh, fun c hc => ?_⟩
        apply Decidable.byContradiction
        intro h'
        exact hno ⟨c, hc, by omega⟩
      obtain ⟨out, ho⟩ := hshow.2 hl
      have ho : showLoop ⟨config, a⟩ u ⟨[], (window h).length⟩ (blockTrace st h u codes) codes = _ := ho
      refine ⟨.index, .trace name bytes.length :: out, ?_⟩
      rw [unf, say_bind, bind_error ho]
  · refine ⟨fun h => absurd h.1 hh, fun _ => ?_⟩
    obtain ⟨q, hq⟩ := hval.2 hh
    refine ⟨q, [], ?_⟩
    rw [tryTrace]
    rw [hq, lift_error]

/-- The settings of the two levels. -/
def fast : Settings := ⟨8, 4, false, some 4⟩
def default : Settings := ⟨128, 128, true, none⟩

theorem fast_eq : gzipSettings 1 = some fast := rfl
theorem default_eq : gzipSettings 6 = some default := rfl

theorem print_eq (p : Profile) (h : List UInt8) (codes : List Code) :
    (∃ u, lzExpand 32768 h codes = some u ∧
      ((HintedLiteralsAgree u (window h).length codes (blockTrace fast h u codes) ∧
        HintedLiteralsAgree u (window h).length codes (blockTrace default h u codes) ∧ LastInside h codes ∧
        ∃ s1 s6, SizeOf (blockTrace fast h u codes) s1 ∧ SizeOf (blockTrace default h u codes) s6 ∧
          print p (CircularBuffer.ofHist 32768 h) codes = ⟨.ok (CircularBuffer.ofHist 32768 (h ++ u)),
            levelLines fast fastConfig "gzip --fast" s1 h u codes ++
              levelLines default defaultConfig "gzip [--default]" s6 h u codes⟩) ∨
       (¬ (HintedLiteralsAgree u (window h).length codes (blockTrace fast h u codes) ∧
        HintedLiteralsAgree u (window h).length codes (blockTrace default h u codes) ∧ LastInside h codes) ∧
        ∃ q out, print p (CircularBuffer.ofHist 32768 h) codes = ⟨.error (.panic q), out⟩))) ∨
    (lzExpand 32768 h codes = none ∧ ∃ e out,
      print p (CircularBuffer.ofHist 32768 h) codes = ⟨.error (.err e), out⟩) := by
  rcases decompressedCodes_vec codes h with ⟨u, hu, hd⟩ | ⟨hu, s, hd⟩
  · refine .inl ⟨u, hu, ?_⟩
    have hc1 : Config.gzip 1 = .ok fastConfig := rfl
    have hc6 : Config.gzip 6 = .ok defaultConfig := rfl
    obtain ⟨a1, ha1, _⟩ := AllRefs.withSixteen_ok (window h) u 4
    obtain ⟨a3, ha3, _⟩ := AllRefs.withSixteen_ok (window h) u 6
    obtain ⟨a6, ha6, _⟩ := AllRefs.withSixteen_ok (window h) u 65535
    have unf : print p (CircularBuffer.ofHist 32768 h) codes =
        (tryTrace a1 "gzip --fast" fastConfig codes u >>= fun _ =>
          tryTrace a6 "gzip [--default]" defaultConfig codes u >>= fun _ =>
            pure (CircularBuffer.ofHist 32768 (h ++ u))) := by
      rw [print, vec_window, lift_bind, hd]
      rw [question, lift_bind]
      dsimp only
      rw [ha1, lift_bind, ha3, lift_bind, ha6, lift_bind, hc1, lift_bind, Config.gzip16Default, hc6]
      rfl
    have k1 := tryTrace_eq 1 fast fast_eq fastConfig hc1 "gzip --fast" h u codes a1 ha1 hu
    have k6 := tryTrace_eq 6 default default_eq defaultConfig hc6 "gzip [--default]" h u codes a6 ha6 hu
    rw [unf]
    by_cases h1 : HintedLiteralsAgree u (window h).length codes (blockTrace fast h u codes) ∧
        LastInside h codes
    · obtain ⟨s1, z1, e1⟩ := k1.1 h1
      by_cases h6 : HintedLiteralsAgree u (window h).length codes (blockTrace default h u codes) ∧
          LastInside h codes
      · obtain ⟨s6, z6, e6⟩ := k6.1 h6
        refine .inl ⟨h1.1, h6.1, h1.2, s1, s6, z1, z6, ?_⟩
        rw [bind_ok e1, bind_ok e6]
        show Printing.mk _ (_ ++ (_ ++ [])) = _
        rw [List.append_nil]
        rfl
      · obtain ⟨q, out, e6⟩ := k6.2 h6
        refine .inr ⟨fun h => h6 ⟨h.2.1, h.2.2⟩, q,
          levelLines fast fastConfig "gzip --fast" s1 h u codes ++ out, ?_⟩
        rw [bind_ok e1, bind_error e6]
    · obtain ⟨q, out, e1⟩ := k1.2 h1
      refine .inr ⟨fun h => h1 ⟨h.1, h.2.2⟩, q, out, ?_⟩
      rw [bind_error e1]
  · refine .inr ⟨hu, .distMustFit, [], ?_⟩
    rw [print, vec_window, lift_bind, hd]
    rfl

theorem onBlock_cases (p : Profile) (id : Nat) (b : Block) (h : List UInt8) :
    (∃ u l, BlockShown fast default h id b u l ∧ lzExpand 32768 h (lzCodes b) = some u ∧
      onBlock p id b (CircularBuffer.ofHist 32768 h) = ⟨.ok (CircularBuffer.ofHist 32768 (h ++ u)), l⟩) ∨
    ((∀ u l, ¬ BlockShown fast default h id b u l) ∧
      (((∃ u, lzExpand 32768 h (lzCodes b) = some u) ∧ ∃ q out,
        onBlock p id b (CircularBuffer.ofHist 32768 h) = ⟨.error (.panic q), out⟩) ∨
       (lzExpand 32768 h (lzCodes b) = none ∧ ∃ e out,
        onBlock p id b (CircularBuffer.ofHist 32768 h) = ⟨.error (.err e), out⟩))) := by
  by_cases hb : ∀ d, b ≠ .uncompressed d
  · have unf : onBlock p id b (CircularBuffer.ofHist 32768 h) =
        ⟨(print p (CircularBuffer.ofHist 32768 h) (lzCodes b)).result, .block id :: kindLine b ::
          (print p (CircularBuffer.ofHist 32768 h) (lzCodes b)).out⟩ := by
      cases b with
      | uncompressed d => exact absurd rfl (hb d)
      | fixedHuffman codes => rfl
      | dynamicHuffman t codes => rfl
    rw [unf]
    rcases print_eq p h (lzCodes b) with ⟨u, hu, ⟨a1, a6, al, s1, s6, z1, z6, e⟩ | ⟨hn, q, out, e⟩⟩ |
      ⟨hu, x, out, e⟩ <;> rw [e]
    · exact .inl ⟨u, _, .codes b u s1 s6 hb hu a1 a6 al z1 z6, hu, rfl⟩
    · refine .inr ⟨?_, .inl ⟨⟨u, hu⟩, q, _, rfl⟩⟩
      intro u' l hs
      cases hs with
      | stored => exact absurd rfl (hb _)
      | codes _ _ s1 s6 _ hu' a1 a6 al _ _ =>
        rw [hu] at hu'; cases hu'
        exact hn ⟨a1, a6, al⟩
    · refine .inr ⟨?_, .inr ⟨hu, x, _, rfl⟩⟩
      intro u' l hs
      cases hs with
      | stored => exact absurd rfl (hb _)
      | codes _ _ s1 s6 _ hu' a1 a6 al _ _ => rw [hu] at hu'; cases hu'
  · cases b with
    | uncompressed d =>
      refine .inl ⟨d, _, .stored d, lzExpand_literals 32768 h d, ?_⟩
      rw [onBlock, say_bind, say_bind, CircularBuffer.extend_ofHist (by omega) (by omega)]
      rfl
    | fixedHuffman codes => exact absurd (by intro d h; cases h) hb
    | dynamicHuffman t codes => exact absurd (by intro d h; cases h) hb

theorem SizeOf.unique {tr : List Trace} {a b : Nat} (h1 : SizeOf tr a) (h2 : SizeOf tr b) : a = b := by
  obtain ⟨x, hx, rfl⟩ := h1
  obtain ⟨y, hy, rfl⟩ := h2
  rw [hx] at hy
  cases hy
  rfl

theorem BlockShown.unique {f d : Settings} {h : List UInt8} {id : Nat} {b : Block} {u u' : List UInt8}
    {l l' : List Line} (h1 : BlockShown f d h id b u l) (h2 : BlockShown f d h id b u' l') :
    u = u' ∧ l = l' := by
  cases h1 with
  | stored =>
    cases h2 with
    | stored => exact ⟨rfl, rfl⟩
    | codes _ _ _ _ hb => exact absurd rfl (hb _)
  | codes _ _ s1 s6 hb hu _ _ _ z1 z6 =>
    cases h2 with
    | stored => exact absurd rfl (hb _)
    | codes _ _ t1 t6 _ hu' _ _ _ y1 y6 =>
      rw [hu] at hu'; cases hu'
      rw [SizeOf.unique z1 y1, SizeOf.unique z6 y6]
      exact ⟨rfl, rfl⟩

theorem Shown.unique {f d : Settings} {h : List UInt8} {id : Nat} {bl : List Block} {a b : List Line}
    (h1 : Shown f d h id bl a) (h2 : Shown f d h id bl b) : a = b := by
  induction h1 generalizing b with
  | nil => cases h2; rfl
  | cons h id blk u l bs lines hb _ ih =>
    cases h2 with
    | cons _ _ _ u' l' _ lines' hb' hs' =>
      obtain ⟨rfl, rfl⟩ := BlockShown.unique hb hb'
      rw [ih hs']

theorem loop_eq (p : Profile) (fuel : Nat) (it : BlockIter)
    (herr : ∀ n e, item n it = some (.error e) → ∃ x, e = .err x) (id : Nat) (h : List UInt8) :
    ∃ r bl it', (∀ a, collectLoop fuel it a = (r, a ++ bl, it')) ∧
      (r = .error .diverge ∨
       (r ≠ .ok () ∧ ∃ e out, e ≠ .diverge ∧
          loop p fuel it id (CircularBuffer.ofHist 32768 h) = ⟨.error e, out⟩) ∨
       (r = .ok () ∧
        ((∃ lines, Shown fast default h id bl lines ∧
          loop p fuel it id (CircularBuffer.ofHist 32768 h) = ⟨.ok (), lines⟩) ∨
         ((∀ lines, ¬ Shown fast default h id bl lines) ∧
          (((∃ x, lzExpand 32768 h (bl.flatMap lzCodes) = some x) ∧ ∃ q out,
            loop p fuel it id (CircularBuffer.ofHist 32768 h) = ⟨.error (.panic q), out⟩) ∨
           (lzExpand 32768 h (bl.flatMap lzCodes) = none ∧ ∃ e out, e ≠ .diverge ∧
            loop p fuel it id (CircularBuffer.ofHist 32768 h) = ⟨.error e, out⟩)))))) := by
  induction fuel generalizing it h id with
  | zero => exact ⟨.error .diverge, [], it, fun a => by rw [collectLoop, List.append_nil], .inl rfl⟩
  | succ fuel ih =>
    cases hn : it.next with
    | mk cur it1 =>
      cases cur with
      | none =>
        exact ⟨.ok (), [], it1, fun a => by rw [collectLoop, hn]; simp, .inr (.inr ⟨rfl, .inl
          ⟨[], .nil h id, by rw [loop, hn]; rfl⟩⟩)⟩
      | some x =>
        have h0 : item 0 it = some x := by show it.next.1 = _; rw [hn]
        have hitem : ∀ n, item (n + 1) it = item n it1 := by
          intro n
          show (after n it.next.2).next.1 = _
          rw [hn]
          rfl
        cases x with
        | error e =>
          refine ⟨.error e, [], it1, fun a => by rw [collectLoop, hn]; simp, .inr (.inl
            ⟨(by intro h; cases h), e, [], ?_, by rw [loop, hn]; rfl⟩)⟩
          obtain ⟨x, rfl⟩ := herr 0 e h0
          intro h; cases h
        | ok b =>
          have unf : loop p (fuel + 1) it id (CircularBuffer.ofHist 32768 h) =
              (onBlock p id b (CircularBuffer.ofHist 32768 h) >>= fun dict =>
                loop p fuel it1 (id + 1) dict) := by
            rw [loop, hn]
            rfl
          have hcol : ∀ r bl it', (∀ a, collectLoop fuel it1 a = (r, a ++ bl, it')) →
              ∀ a, collectLoop (fuel + 1) it a = (r, a ++ (b :: bl), it') := by
            intro r bl it' hc a
            rw [collectLoop, hn]
            dsimp only
            rw [hc]
            simp
          have herr' : ∀ n e, item n it1 = some (.error e) → ∃ x, e = .err x :=
            fun n e hx => herr (n + 1) e (by rw [hitem]; exact hx)
          rcases onBlock_cases p id b h with ⟨u, l, hb, hu, ho⟩ | ⟨hno, ho⟩
          · obtain ⟨r, bl, it', hc, hrest⟩ := ih it1 herr' (id + 1) (h ++ u)
            refine ⟨r, b :: bl, it', hcol r bl it' hc, ?_⟩
            rw [unf, bind_ok ho]
            have hex : lzExpand 32768 h ((b :: bl).flatMap lzCodes) =
                (lzExpand 32768 (h ++ u) (bl.flatMap lzCodes)).map (u ++ ·) := by
              rw [List.flatMap_cons, lzExpand_append, hu]
              dsimp only
              cases lzExpand 32768 (h ++ u) (bl.flatMap lzCodes) <;> rfl
            rcases hrest with hr | ⟨hr, e, out, hne, hq⟩ | ⟨hr, hl⟩
            · exact .inl hr
            · exact .inr (.inl ⟨hr, e, l ++ out, hne, by rw [hq]⟩)
            · refine .inr (.inr ⟨hr, ?_⟩)
              rcases hl with ⟨lines, hp, hl⟩ | ⟨hno, hq⟩
              · exact .inl ⟨l ++ lines, .cons h id b u l bl lines hb hp, by rw [hl]⟩
              · refine .inr ⟨?_, ?_⟩
                · intro lines hs
                  cases hs with
                  | cons _ _ _ u' l' _ lines' hb' hs' =>
                    obtain ⟨rfl, rfl⟩ := BlockShown.unique hb hb'
                    exact hno _ hs'
                · rcases hq with ⟨⟨x, hx⟩, q, out, hq⟩ | ⟨hx, e, out, hne, hq⟩
                  · exact .inl ⟨⟨u ++ x, by rw [hex, hx]; rfl⟩, q, l ++ out, by rw [hq]⟩
                  · exact .inr ⟨by rw [hex, hx]; rfl, e, l ++ out, hne, by rw [hq]⟩
          · obtain ⟨r, bl, it', hc, _⟩ := ih it1 herr' id h
            refine ⟨r, b :: bl, it', hcol r bl it' hc, ?_⟩
            have hno' : ∀ lines, ¬ Shown fast default h id (b :: bl) lines := by
              intro lines hs
              cases hs with
              | cons _ _ _ u' l' _ lines' hb' hs' => exact hno _ _ hb'
            have hf : ∃ e out, e ≠ .diverge ∧ onBlock p id b (CircularBuffer.ofHist 32768 h) = ⟨.error e, out⟩ ∧
                ((∃ x, lzExpand 32768 h ((b :: bl).flatMap lzCodes) = some x) → ∃ q, e = .panic q) := by
              rcases ho with ⟨_, q, out, ho⟩ | ⟨hx, e, out, ho⟩
              · exact ⟨_, out, (by intro h; cases h), ho, fun _ => ⟨q, rfl⟩⟩
              · refine ⟨_, out, (by intro h; cases h), ho, ?_⟩
                rintro ⟨x, hx'⟩
                rw [List.flatMap_cons, lzExpand_append, hx] at hx'
                cases hx'
            obtain ⟨e, out, hne, ho, hpan⟩ := hf
            rw [unf, bind_error ho]
            by_cases hr : r = .ok ()
            · refine .inr (.inr ⟨hr, .inr ⟨hno', ?_⟩⟩)
              cases hx : lzExpand 32768 h ((b :: bl).flatMap lzCodes) with
              | none => exact .inr ⟨rfl, e, out, hne, rfl⟩
              | some x =>
                obtain ⟨q, rfl⟩ := hpan ⟨x, hx⟩
                exact .inl ⟨⟨x, rfl⟩, q, out, rfl⟩
            · exact .inr (.inl ⟨hr, e, out, hne, rfl⟩)

/-- After the header. -/
theorem run_eq (p : Profile) (file hd raw : List UInt8) (hh : Gzip.discardHeader file = .ok hd raw) :
    (∃ blocks rest lines, parseAll raw = .ok (blocks, rest) ∧ Shown fast default [] 0 blocks lines ∧
      run p file = ⟨.ok (), lines⟩) ∨
    ((∀ blocks rest lines, parseAll raw = .ok (blocks, rest) → ¬ Shown fast default [] 0 blocks lines) ∧
      ∃ e out, e ≠ .diverge ∧ run p file = ⟨.error e, out⟩ ∧
        ∀ blocks rest x, parseAll raw = .ok (blocks, rest) →
          lzExpand 32768 [] (blocks.flatMap lzCodes) = some x → ∃ q, e = .panic q) := by
  have hunf : run p file = loop p (8 * raw.length + 2) (parseDeflate raw) 0
      (CircularBuffer.ofHist 32768 []) := by
    rw [run, hh]
    dsimp only
    rw [Cat.new_eq, lift_bind]
  have herr : ∀ n e, item n (parseDeflate raw) = some (.error e) → ∃ x, e = .err x := by
    intro n e h
    rcases C17_total raw n with h' | ⟨b, h'⟩ | ⟨x, h'⟩ <;> rw [h'] at h <;> cases h
    exact ⟨x, rfl⟩
  rw [hunf]
  obtain ⟨r, bl, it', hc, hl⟩ := loop_eq p (8 * raw.length + 2) (parseDeflate raw) herr 0 []
  have hcol : collect raw = (r, bl, it') := by rw [collect, hc, List.nil_append]
  rcases hl with hr | ⟨hr, e, out, hne, hp⟩ | ⟨hr, hl⟩
  · exfalso
    have : parseAll raw = .error .diverge := by rw [parseAll, hcol, hr]
    obtain ⟨x, hx⟩ := parseAll_error this
    cases hx
  · have hno : ∀ blocks rest, parseAll raw ≠ .ok (blocks, rest) := by
      intro blocks rest hpa
      rw [parseAll, hcol] at hpa
      cases r with
      | ok u => exact absurd rfl hr
      | error e => cases hpa
    exact .inr ⟨fun blocks rest _ hpa => absurd hpa (hno _ _), e, out, hne, hp,
      fun blocks rest _ hpa => absurd hpa (hno _ _)⟩
  · subst hr
    have hpa : parseAll raw = .ok (bl, it'.inner.inner) := by rw [parseAll, hcol]
    rcases hl with ⟨lines, h1, h2⟩ | ⟨h1, h2⟩
    · exact .inl ⟨bl, _, lines, hpa, h1, h2⟩
    · have hf : ∃ e out, e ≠ .diverge ∧ loop p (8 * raw.length + 2) (parseDeflate raw) 0
          (CircularBuffer.ofHist 32768 []) = ⟨.error e, out⟩ ∧
          ∀ x, lzExpand 32768 [] (bl.flatMap lzCodes) = some x → ∃ q, e = .panic q := by
        rcases h2 with ⟨_, q, out, h2⟩ | ⟨hx, e, out, hne, h2⟩
        · exact ⟨_, out, (by intro h; cases h), h2, fun _ _ => ⟨q, rfl⟩⟩
        · exact ⟨e, out, hne, h2, fun x hx' => by rw [hx] at hx'; cases hx'⟩
      obtain ⟨e, out, hne, hl, hx⟩ := hf
      refine .inr ⟨?_, e, out, hne, hl, ?_⟩
      · intro blocks rest lines hpa'
        rw [hpa] at hpa'; cases hpa'
        exact h1 lines
      · intro blocks rest x hpa'
        rw [hpa] at hpa'; cases hpa'
        exact hx x

end TraceExample

open TraceExample

/-- C91. The example prints the given lines and succeeds exactly for the files that are a gzip header, a
deflate stream whose blocks can be shown with these lines, and anything after it. -/
theorem C91_shown (p : Profile) (file : List UInt8) (lines : List Line) :
    TraceExample.run p file = ⟨.ok (), lines⟩ ↔ ∃ (fast default : Settings) (hd : GzHeader)
      (d rest : List UInt8) (blocks : List Block), gzipSettings 1 = some fast ∧
        gzipSettings 6 = some default ∧ hd.Valid ∧ file = hd.bytes ++ d ++ rest ∧
        DeflateBytes blocks d ∧ Shown fast default [] 0 blocks lines := by
  constructor
  · intro h
    cases hh : Gzip.discardHeader file with
    | error e s =>
      rw [TraceExample.run, hh] at h
      cases h
    | ok hd raw =>
      obtain ⟨rfl, g, hv, hg⟩ := C56_header file hd raw hh
      rcases run_eq p _ hd raw hh with ⟨blocks, rest, lines', h1, h2, h3⟩ | ⟨_, e, out, _, he, _⟩
      · rw [h] at h3; cases h3
        obtain ⟨d, rfl, hd'⟩ := (parseAll_iff _ _ _).1 h1
        exact ⟨_, _, g, d, rest, blocks, fast_eq, default_eq, hv, by rw [hg, List.append_assoc], hd', h2⟩
      · rw [h] at he; cases he
  · rintro ⟨f, df, hd, d, rest, blocks, hf, hdf, hv, rfl, hdef, ht⟩
    rw [fast_eq] at hf; cases hf
    rw [default_eq] at hdf; cases hdf
    have hh : Gzip.discardHeader (hd.bytes ++ d ++ rest) = .ok hd.bytes (d ++ rest) := by
      rw [List.append_assoc]
      exact C57_accepted hd hv (d ++ rest)
    have hparse : parseAll (d ++ rest) = .ok (blocks, rest) := (parseAll_iff _ _ _).2 ⟨d, rfl, hdef⟩
    rcases run_eq p _ _ _ hh with ⟨blocks', rest', lines', h1, h2, h3⟩ | ⟨hno, _⟩
    · rw [hparse] at h1; cases h1
      rw [h3, Shown.unique ht h2]
    · exact absurd ht (hno blocks rest lines hparse)

/-- C91. Otherwise it fails, and if the file can be decompressed it does so by panicking. -/
theorem C91_else (p : Profile) (file : List UInt8) (h : ∀ lines, TraceExample.run p file ≠ ⟨.ok (), lines⟩) :
    ∃ e out, TraceExample.run p file = ⟨.error e, out⟩ ∧ e ≠ .diverge ∧
      ∀ (hd : GzHeader) (d rest x : List UInt8) (blocks : List Block), hd.Valid →
        file = hd.bytes ++ d ++ rest → DeflateBytes blocks d →
        lzExpand 32768 [] (blocks.flatMap lzCodes) = some x → ∃ q, e = .panic q := by
  cases hh : Gzip.discardHeader file with
  | error e s =>
    obtain ⟨x, rfl⟩ := Gzip.onlyErrs_discardHeader _ _ _ hh
    refine ⟨.err x, [], (by rw [TraceExample.run, hh]; rfl), (by intro h; cases h), ?_⟩
    rintro hd d rest _ blocks hv rfl _ _
    rw [List.append_assoc, C57_accepted hd hv (d ++ rest)] at hh
    cases hh
  | ok hd raw =>
    rcases run_eq p _ hd raw hh with ⟨_, _, lines, _, _, h4⟩ | ⟨_, e, out, hne, he, hx⟩
    · exact absurd h4 (h lines)
    · refine ⟨e, out, he, hne, ?_⟩
      rintro hd' d rest x blocks hv rfl hdef hex
      rw [List.append_assoc, C57_accepted hd' hv (d ++ rest)] at hh
      cases hh
      exact hx blocks rest x ((parseAll_iff _ _ _).2 ⟨d, rfl, hdef⟩) hex

theorem Shown.split {f df : Settings} {h : List UInt8} {id : Nat} {b : Block} {bs₁ bs₂ : List Block}
    {lines : List Line} (hs : Shown f df h id (bs₁ ++ b :: bs₂) lines) {x : List UInt8}
    (hx : lzExpand 32768 h (bs₁.flatMap lzCodes) = some x) :
    ∃ id u l, BlockShown f df (h ++ x) id b u l := by
  induction bs₁ generalizing h id lines x with
  | nil =>
    cases hx
    rw [List.nil_append] at hs
    cases hs with
    | cons _ _ _ u l _ _ hb _ => exact ⟨_, u, l, by rw [List.append_nil]; exact hb⟩
  | cons c bs ih =>
    rw [List.cons_append] at hs
    cases hs with
    | cons _ _ _ u l _ lines' hb hs =>
      have hu : lzExpand 32768 h (lzCodes c) = some u := by
        cases hb with
        | stored => exact lzExpand_literals 32768 h u
        | codes _ _ _ _ _ hu => exact hu
      rw [List.flatMap_cons, lzExpand_append, hu] at hx
      dsimp only at hx
      cases hy : lzExpand 32768 (h ++ u) (bs.flatMap lzCodes) with
      | none => rw [hy] at hx; cases hx
      | some y =>
        rw [hy] at hx
        have hx : some (u ++ y) = some x := hx
        cases hx
        obtain ⟨id', u', l', hb'⟩ := ih hs hy
        exact ⟨id', u', l', by rw [← List.append_assoc]; exact hb'⟩

/-- C91. The example panics on every file that decompresses and has a non-empty compressed block after 264
bytes or more. -/
theorem C91_panics (p : Profile) (hd : GzHeader) (hv : hd.Valid) (d rest h y : List UInt8)
    (bs₁ bs₂ : List Block) (b : Block) (hdef : DeflateBytes (bs₁ ++ b :: bs₂) d)
    (hb : ∀ u, b ≠ .uncompressed u) (hne : lzCodes b ≠ [])
    (hx : lzExpand 32768 [] (bs₁.flatMap lzCodes) = some h) (hlen : 264 ≤ h.length)
    (hy : lzExpand 32768 [] ((bs₁ ++ b :: bs₂).flatMap lzCodes) = some y) :
    ∃ q out, TraceExample.run p (hd.bytes ++ d ++ rest) = ⟨.error (.panic q), out⟩ := by
  have hno : ∀ lines, TraceExample.run p (hd.bytes ++ d ++ rest) ≠ ⟨.ok (), lines⟩ := by
    intro lines hr
    have hh : Gzip.discardHeader (hd.bytes ++ d ++ rest) = .ok hd.bytes (d ++ rest) := by
      rw [List.append_assoc]
      exact C57_accepted hd hv (d ++ rest)
    have hparse := (parseAll_iff _ _ _).2 ⟨d, (rfl : d ++ rest = d ++ rest), hdef⟩
    rcases run_eq p _ _ _ hh with ⟨blocks', rest', lines', h1, h2, h3⟩ | ⟨_, e, out, _, he, _⟩
    · rw [hparse] at h1; cases h1
      obtain ⟨id, u, l, hbs⟩ := Shown.split h2 hx
      cases hbs with
      | stored => exact hb _ rfl
      | codes _ _ s1 s6 _ hu _ _ hl _ _ =>
        cases hc : (lzCodes b).getLast? with
        | none => exact hne (List.getLast?_eq_none_iff.1 hc)
        | some c =>
          have h1 := hl c hc
          have h2 : c.emittedBytes ≤ 258 := by
            cases c with
            | literal b => show 1 ≤ 258; omega
            | reference r => exact r.run_le
          have h3 : (window ([] ++ h)).length = min 32768 h.length := by
            rw [window, List.length_drop, List.nil_append]
            omega
          omega
    · rw [hr] at he; cases he
  obtain ⟨e, out, he, _, hp⟩ := C91_else p _ hno
  obtain ⟨q, rfl⟩ := hp hd d rest y _ hv rfl hdef hy
  exact ⟨q, out, he⟩

/-- C91. The example works on every file of one block that decompresses. -/
theorem C91_one_block (p : Profile) (hd : GzHeader) (hv : hd.Valid) (d rest x : List UInt8) (b : Block)
    (hdef : DeflateBytes [b] d) (hx : lzExpand 32768 [] (lzCodes b) = some x) :
    ∃ lines, TraceExample.run p (hd.bytes ++ d ++ rest) = ⟨.ok (), lines⟩ := by
  by_cases hb : ∀ u, b ≠ .uncompressed u
  · have hok : ∀ st level, gzipSettings level = some st →
        ∃ s, SizeOf (blockTrace st [] x (lzCodes b)) s := by
      intro st level hst
      obtain ⟨config, a, hc, ha, ht⟩ := C70_trace level st hst [] x (st.insert.getD 65535) (lzCodes b)
        (sum_of_expand hx)
      obtain ⟨_, _, h1, h2, _, h4, _⟩ := trace_restore config [] x (st.insert.getD 65535) (lzCodes b)
        (sum_of_expand hx)
      rw [ha] at h1; cases h1
      rw [ht] at h2; cases h2
      obtain ⟨bytes, hw, _, _⟩ := C36_roundtrip _ (fun r hm => refOk_of_expand hx r (h4 r hm))
      exact ⟨_, bytes, hw, rfl⟩
    obtain ⟨s1, z1⟩ := hok fast 1 fast_eq
    obtain ⟨s6, z6⟩ := hok default 6 default_eq
    refine ⟨_, (C91_shown p _ _).2 ⟨_, _, hd, d, rest, [b], fast_eq, default_eq, hv, rfl, hdef,
      .cons [] 0 b x _ [] [] (.codes b x s1 s6 hb hx ?_ ?_ ?_ z1 z6) (.nil _ _)⟩⟩
    · exact HintedLiteralsAgree.of_agree _ (LiteralsAgree.of_block hx)
    · exact HintedLiteralsAgree.of_agree _ (LiteralsAgree.of_block hx)
    · intro c _
      exact Nat.zero_le _
  · cases b with
    | uncompressed u =>
      exact ⟨_, (C91_shown p _ _).2 ⟨_, _, hd, d, rest, _, fast_eq, default_eq, hv, rfl, hdef,
        .cons [] 0 _ u _ [] [] (.stored u) (.nil _ _)⟩⟩
    | fixedHuffman codes => exact absurd (by intro d h; cases h) hb
    | dynamicHuffman t codes => exact absurd (by intro d h; cases h) hb

/-- Two blocks, seven literals and one literal: the second block cannot be shown. -/
theorem example_shown :
    (TraceExample.run .dev (exampleGz ++ exampleTwo ++ [1, 2])).out.length = 16 ∧
    (match (TraceExample.run .dev (exampleGz ++ exampleTwo ++ [1, 2])).result with
      | .ok _ => true | .error _ => false) = true ∧
    (match (TraceExample.run .dev (exampleGz ++ [98, 100, 98, 102, 97, 101, 99, 7, 140, 19, 0])).result with
      | .error e => decide (e = .panic .index) | .ok _ => false) = true ∧
    (TraceExample.run .dev (exampleGz ++ [98, 100, 98, 102, 97, 101, 99, 7, 140, 19, 0])).out.drop 8 =
      [.block 1, .fixed, .trace "gzip --fast" 2] ∧
    parseAll [98, 100, 98, 102, 97, 101, 99, 7, 140, 19, 0] = .ok ([.fixedHuffman [.literal 1, .literal 2,
      .literal 3, .literal 4, .literal 5, .literal 6, .literal 7], .fixedHuffman [.literal 9]], []) := by
  decide +kernel

/-- A repeat written as literals is reported, with the guess. -/
example : (TraceExample.run .dev (exampleGz ++ [227, 100, 100, 98, 102, 100, 98, 6, 0])).out =
    [.block 0, .fixed,
      .trace "gzip --fast" 6, .miss 4 [9, 1, 2, 3, 1, 2, 3] [.reference ⟨3, 0⟩] .actuallyLiteral,
      .guesser fastConfig [] [9, 1, 2, 3, 1, 2, 3] ⟨[], 7⟩, .blank,
      .trace "gzip [--default]" 6, .miss 4 [9, 1, 2, 3, 1, 2, 3] [.reference ⟨3, 0⟩] .actuallyLiteral,
      .guesser defaultConfig [] [9, 1, 2, 3, 1, 2, 3] ⟨[], 7⟩, .blank] := by
  decide +kernel

/-- A file that meets the hypotheses of `C91_panics`: 264 bytes, then a block of one literal. -/
example :
    let b1 := Block.fixedHuffman [.literal 1, .reference ⟨1, 255⟩, .literal 5, .literal 5, .literal 5,
      .literal 5, .literal 5]
    let b2 := Block.fixedHuffman [.literal 9]
    parseAll [98, 28, 5, 172, 172, 172, 172, 172, 128, 113, 2, 0] = .ok ([b1, b2], []) ∧
    (lzExpand 32768 [] ([b1].flatMap lzCodes)).map List.length = some 264 ∧
    (lzExpand 32768 [] ([b1, b2].flatMap lzCodes)).map List.length = some 265 := by
  decide +kernel

end Rezip
