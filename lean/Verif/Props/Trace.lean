import Verif.Lemmas.Trace
import Verif.Props.SerialiseTrace
import Verif.Props.Circles

/-!
# C41-C44: tracing and restoring
-/

namespace Rezip

open Rezip.Spec

theorem LiteralsAgree.of_expand {W : Nat} {h x : List UInt8} {codes : List Code}
    (he : lzExpand W h codes = some x) (y : List UInt8) :
    LiteralsAgree (h ++ x ++ y) h.length codes := by
  induction codes generalizing h x with
  | nil => trivial
  | cons c cs ih =>
    rw [lzExpand] at he
    cases hc : lzCode W h c with
    | none => rw [hc] at he; cases he
    | some u =>
      rw [hc] at he
      dsimp only at he
      cases hr : lzExpand W (h ++ u) cs with
      | none => rw [hr] at he; cases he
      | some v =>
        rw [hr] at he
        cases he
        have := ih hr
        rw [← List.append_assoc]
        have hl := lzCode_length hc
        cases c with
        | literal b =>
          refine ⟨?_, ?_⟩
          · rw [lzCode] at hc
            cases hc
            simp
          · rw [show h.length + 1 = (h ++ u).length by rw [List.length_append, hl]; rfl]
            exact this
        | reference r =>
          show LiteralsAgree _ (h.length + r.run) cs
          rw [show h.length + r.run = (h ++ u).length by rw [List.length_append, hl]; rfl]
          exact this

theorem sum_of_expand {W : Nat} {h x : List UInt8} {codes : List Code}
    (he : lzExpand W h codes = some x) : (codes.map Code.emittedBytes).sum = x.length :=
  (lzExpand_length he).symm

theorem HintedLiteralsAgree.of_agree {d : List UInt8} {pos : Nat} {codes : List Code} (tr : List Trace)
    (h : LiteralsAgree d pos codes) : HintedLiteralsAgree d pos codes tr := by
  induction codes generalizing pos tr with
  | nil => trivial
  | cons c cs ih =>
    cases c with
    | literal b =>
      cases tr with
      | nil => trivial
      | cons x xs => exact ⟨fun _ => h.1, ih xs h.2⟩
    | reference r =>
      cases tr with
      | nil => trivial
      | cons x xs => exact ih xs h

theorem HintedLiteralsAgree.of_none {d : List UInt8} {pos : Nat} {codes : List Code} {tr : List Trace}
    (h : Trace.actuallyLiteral ∉ tr) : HintedLiteralsAgree d pos codes tr := by
  induction codes generalizing pos tr with
  | nil => trivial
  | cons c cs ih =>
    cases c with
    | literal b =>
      cases tr with
      | nil => trivial
      | cons x xs =>
        exact ⟨fun e => absurd (by rw [e]; simp) h, ih (fun hm => h (List.mem_cons_of_mem _ hm))⟩
    | reference r =>
      cases tr with
      | nil => trivial
      | cons x xs => exact ih (fun hm => h (List.mem_cons_of_mem _ hm))

/-- Tracing and restoring, at the top level. -/
theorem trace_restore (config : Config) (preroll data : List UInt8) (limit : Nat) (codes : List Code)
    (hs : (codes.map Code.emittedBytes).sum = data.length) :
    ∃ a tr, AllRefs.withSixteen preroll data limit = .ok a ∧
      Tracing.trace codes ⟨config, a⟩ = .ok tr ∧ tr.length = codes.length ∧
      (∀ r, Trace.actually r ∈ tr → Code.reference r ∈ codes) ∧
      (Tracing.restore tr ⟨config, a⟩ = .ok codes ↔
        HintedLiteralsAgree data preroll.length codes tr) := by
  obtain ⟨a, h1, rfl, rfl, h4, h5⟩ := AllRefs.withSixteen_ok preroll data limit
  have hw : a.win.length = a.preroll.length + a.data.length := List.length_append
  obtain ⟨tr, t⟩ := Tracing.loops_ok (t := ⟨config, a⟩) h5
    ((Technique.mk config a).dataLen + 1) (Technique.mk config a).scanner codes
    (by show a.preroll.length + _ = a.win.length; omega)
    (by rw [Technique.dataLen, AllRefs.dataLen_eq, hs]; show a.data.length < a.win.length + 1; omega)
  exact ⟨a, tr, h1, t⟩

/-! ### C42 -/

/-- C42. Tracing a code list that emits exactly as many bytes as there are in the data succeeds, with one
entry per code, for every configuration, preroll and limit (even if the codes are wrong about the
data). -/
theorem C42_trace_total (config : Config) (preroll data : List UInt8) (limit : Nat) (codes : List Code)
    (hs : (codes.map Code.emittedBytes).sum = data.length) :
    ∃ a tr, AllRefs.withSixteen preroll data limit = .ok a ∧
      Tracing.trace codes ⟨config, a⟩ = .ok tr ∧ tr.length = codes.length := by
  obtain ⟨a, tr, h1, h2, h3, _⟩ := trace_restore config preroll data limit codes hs
  exact ⟨a, tr, h1, h2, h3⟩

/-- In particular for codes that expand to the data after the preroll. -/
theorem C42_consistent (config : Config) (preroll data : List UInt8) (limit : Nat) (codes : List Code)
    (he : lzExpand 32768 preroll codes = some data) :
    ∃ a tr, AllRefs.withSixteen preroll data limit = .ok a ∧
      Tracing.trace codes ⟨config, a⟩ = .ok tr ∧ tr.length = codes.length :=
  C42_trace_total config preroll data limit codes (sum_of_expand he)

/-- One mispredicted reference, one mispredicted literal and two correct guesses. -/
example : (match AllRefs.withSixteen [9, 1, 2, 3] [1, 2, 3, 7, 1, 2, 3] 100 with
    | .ok a => Tracing.trace [.literal 1, .literal 2, .literal 3, .literal 7, .reference ⟨8, 0⟩]
        ⟨⟨true, .greedy, .longest, Wams.greedy 258 100 100⟩, a⟩
    | .error e => .error e) =
      .ok [.actuallyLiteral, .correct, .correct, .correct, .actually ⟨8, 0⟩] := by decide +kernel

/-! ### C41 -/

/-- The claim C41 in full: restoring the trace of codes that expand to the data after the preroll gives
the codes. -/
def RestoreClaim (config : Config) (preroll data : List UInt8) : Prop :=
  ∀ (limit : Nat) (codes : List Code) (a : AllRefs) (tr : List Trace),
    lzExpand 32768 preroll codes = some data → AllRefs.withSixteen preroll data limit = .ok a →
    Tracing.trace codes ⟨config, a⟩ = .ok tr → Tracing.restore tr ⟨config, a⟩ = .ok codes

/-- C41 is false with a preroll: a mispredicted literal is looked up at the wrong place. Here that is past
the end of the data, and restoring panics; the tracer panics too, since it validates. -/
theorem C41_false : (¬ ∀ config preroll data, RestoreClaim config preroll data) ∧
    Tracer.tryGzip 1 [9, 1, 2, 3] [1, 2, 3] [.literal 1, .literal 2, .literal 3] =
      .error (.panic .index) := by
  constructor
  · intro h
    obtain ⟨a, h1, _⟩ := AllRefs.withSixteen_ok [9, 1, 2, 3] [1, 2, 3] 100
    have e1 : (match AllRefs.withSixteen [9, 1, 2, 3] [1, 2, 3] 100 with
      | .ok a => (Tracing.trace [.literal 1, .literal 2, .literal 3]
          ⟨⟨true, .greedy, .longest, Wams.greedy 258 100 100⟩, a⟩,
          Tracing.restore [.actuallyLiteral, .correct, .correct]
            ⟨⟨true, .greedy, .longest, Wams.greedy 258 100 100⟩, a⟩)
      | .error e => (.error e, .error e)) =
        (.ok [.actuallyLiteral, .correct, .correct], .error (.panic .index)) := by
      decide +kernel
    rw [h1] at e1
    simp only [Prod.mk.injEq] at e1
    have := h ⟨true, .greedy, .longest, Wams.greedy 258 100 100⟩ [9, 1, 2, 3] [1, 2, 3] 100
      [.literal 1, .literal 2, .literal 3] a _ (by decide) h1 e1.1
    rw [e1.2] at this
    cases this
  · decide +kernel

/-- With more data it does not even panic: the wrong byte is restored, silently (`restore` alone). -/
theorem C41_wrong_byte : ∃ a, AllRefs.withSixteen [9, 1, 2, 3] [1, 2, 3, 4, 5] 100 = .ok a ∧
    Tracing.trace [.literal 1, .literal 2, .literal 3, .literal 4, .literal 5]
      ⟨⟨true, .greedy, .longest, Wams.greedy 258 100 100⟩, a⟩ =
        .ok [.actuallyLiteral, .correct, .correct, .correct, .correct] ∧
    Tracing.restore [.actuallyLiteral, .correct, .correct, .correct, .correct]
      ⟨⟨true, .greedy, .longest, Wams.greedy 258 100 100⟩, a⟩ =
        .ok [.literal 5, .literal 2, .literal 3, .literal 4, .literal 5] := by
  obtain ⟨a, h1, _⟩ := AllRefs.withSixteen_ok [9, 1, 2, 3] [1, 2, 3, 4, 5] 100
  have e1 : (match AllRefs.withSixteen [9, 1, 2, 3] [1, 2, 3, 4, 5] 100 with
    | .ok a => (Tracing.trace [.literal 1, .literal 2, .literal 3, .literal 4, .literal 5]
        ⟨⟨true, .greedy, .longest, Wams.greedy 258 100 100⟩, a⟩,
        Tracing.restore [.actuallyLiteral, .correct, .correct, .correct, .correct]
          ⟨⟨true, .greedy, .longest, Wams.greedy 258 100 100⟩, a⟩)
    | .error e => (.error e, .error e)) =
      (.ok [.actuallyLiteral, .correct, .correct, .correct, .correct],
        .ok [.literal 5, .literal 2, .literal 3, .literal 4, .literal 5]) := by decide +kernel
  rw [h1] at e1
  simp only [Prod.mk.injEq] at e1
  exact ⟨a, h1, e1⟩

/-- C41 without a preroll: restoring the trace gives the codes, for every configuration. -/
theorem C41_no_preroll_partial (config : Config) (data : List UInt8) :
    RestoreClaim config [] data := by
  intro limit codes a tr he ha ht
  obtain ⟨a', tr', h1, h2, h3, _, h4⟩ :=
    trace_restore config [] data limit codes (sum_of_expand he)
  rw [ha] at h1; cases h1
  rw [ht] at h2; cases h2
  refine h4.2 (HintedLiteralsAgree.of_agree tr ?_)
  simpa using LiteralsAgree.of_expand he []

/-- C41 with any preroll, when no literal was mispredicted. -/
theorem C41_no_literal_hint_partial (config : Config) (preroll data : List UInt8) (limit : Nat)
    (codes : List Code) (a : AllRefs) (tr : List Trace)
    (he : lzExpand 32768 preroll codes = some data)
    (ha : AllRefs.withSixteen preroll data limit = .ok a)
    (ht : Tracing.trace codes ⟨config, a⟩ = .ok tr) (hn : Trace.actuallyLiteral ∉ tr) :
    Tracing.restore tr ⟨config, a⟩ = .ok codes := by
  obtain ⟨a', tr', h1, h2, h3, _, h4⟩ :=
    trace_restore config preroll data limit codes (sum_of_expand he)
  rw [ha] at h1; cases h1
  rw [ht] at h2; cases h2
  exact h4.2 (HintedLiteralsAgree.of_none hn)

/-- C41, exactly: restoring gives the codes if and only if every mispredicted literal happens to be the
byte at the same index into the data (and not into preroll and data). -/
theorem C41_exact_partial (config : Config) (preroll data : List UInt8) (limit : Nat)
    (codes : List Code) (a : AllRefs) (tr : List Trace)
    (hs : (codes.map Code.emittedBytes).sum = data.length)
    (ha : AllRefs.withSixteen preroll data limit = .ok a)
    (ht : Tracing.trace codes ⟨config, a⟩ = .ok tr) :
    Tracing.restore tr ⟨config, a⟩ = .ok codes ↔
      HintedLiteralsAgree data preroll.length codes tr := by
  obtain ⟨a', tr', h1, h2, h3, _, h4⟩ := trace_restore config preroll data limit codes hs
  rw [ha] at h1; cases h1
  rw [ht] at h2; cases h2
  exact h4

/-- A misprediction of each kind, no preroll. -/
example : lzExpand 32768 [] [.literal 0, .literal 1, .literal 2, .literal 3, .literal 1, .literal 2,
      .literal 3, .reference ⟨6, 0⟩] = some [0, 1, 2, 3, 1, 2, 3, 1, 2, 3] ∧
    (match AllRefs.withSixteen [] [0, 1, 2, 3, 1, 2, 3, 1, 2, 3] 100 with
    | .ok a => Tracing.trace [.literal 0, .literal 1, .literal 2, .literal 3, .literal 1, .literal 2,
        .literal 3, .reference ⟨6, 0⟩] ⟨⟨true, .greedy, .longest, Wams.greedy 258 100 100⟩, a⟩
    | .error e => .error e) = .ok [.correct, .correct, .correct, .correct, .actuallyLiteral,
        .actuallyLiteral, .actuallyLiteral, .actually ⟨6, 0⟩] := by decide +kernel

/-! ### C43 -/

theorem try_ok (config : Config) (data : List UInt8) (codes : List Code)
    (hs : (codes.map Code.emittedBytes).sum = data.length) (hl : LiteralsAgree data 0 codes)
    (hr : ∀ r, Code.reference r ∈ codes → RefOk r) :
    ∃ tr, Tracer.try_ config [] data codes = .ok tr ∧ tr.length = codes.length := by
  obtain ⟨a, tr, h1, h2, h3, h4, h5⟩ :=
    trace_restore config [] data (config.wams.insertOnlyBelowLength.getD 65535) codes hs
  have h6 := h5.2 (HintedLiteralsAgree.of_agree tr (by simpa using hl))
  obtain ⟨bytes, _, _, hv⟩ := C36_roundtrip tr (fun r hm => hr r (h4 r hm))
  refine ⟨tr, ?_, h3⟩
  rw [Tracer.try_]
  rw [h1, Ex.ok_bind, Tracing.validate, h2, Ex.ok_bind, h6, Ex.ok_bind, assert_of (by simp),
    Ex.ok_bind]
  show (SerialiseTrace.verify tr >>= _) = _
  rw [hv]
  rfl

/-- C43. At every gzip level 1..=9, without a preroll, tracing succeeds on every code list that emits
exactly the data, whose literals are right and whose references are within the ranges of the format
(even if they do not refer to equal bytes): neither the tracing, nor the validation by restoring, nor the
check that the trace can be serialised panics. -/
theorem C43_try_gzip (level : Nat) (h1 : 1 ≤ level) (h9 : level ≤ 9) (data : List UInt8)
    (codes : List Code) (hs : (codes.map Code.emittedBytes).sum = data.length)
    (hl : LiteralsAgree data 0 codes) (hr : ∀ r, Code.reference r ∈ codes → RefOk r) :
    ∃ tr, Tracer.tryGzip level [] data codes = .ok tr ∧ tr.length = codes.length := by
  have hc : ∃ config, Config.gzip level = .ok config := by
    have : level = 1 ∨ level = 2 ∨ level = 3 ∨ level = 4 ∨ level = 5 ∨ level = 6 ∨ level = 7 ∨
      level = 8 ∨ level = 9 := by omega
    rcases this with rfl | rfl | rfl | rfl | rfl | rfl | rfl | rfl | rfl <;> exact ⟨_, rfl⟩
  obtain ⟨config, hc⟩ := hc
  obtain ⟨tr, t1, t2⟩ := try_ok config data codes hs hl hr
  exact ⟨tr, by rw [Tracer.tryGzip, hc]; exact t1, t2⟩

/-- In particular on any codes that expand to the data. -/
theorem C43_expand (level : Nat) (h1 : 1 ≤ level) (h9 : level ≤ 9) (data : List UInt8)
    (codes : List Code) (he : lzExpand 32768 [] codes = some data) :
    ∃ tr, Tracer.tryGzip level [] data codes = .ok tr ∧ tr.length = codes.length := by
  refine C43_try_gzip level h1 h9 data codes (sum_of_expand he)
    (by simpa using LiteralsAgree.of_expand he []) ?_
  clear h1 h9 level
  generalize ([] : List UInt8) = h at he
  induction codes generalizing h data with
  | nil => intro r hr; cases hr
  | cons c cs ih =>
    intro r hr
    rw [lzExpand] at he
    cases hc : lzCode 32768 h c with
    | none => rw [hc] at he; cases he
    | some u =>
      rw [hc] at he
      dsimp only at he
      cases hx : lzExpand 32768 (h ++ u) cs with
      | none => rw [hx] at he; cases he
      | some v =>
        rcases List.mem_cons.1 hr with rfl | hr
        · rw [lzCode] at hc
          split at hc
          · rename_i hd
            exact ⟨hd.1, by omega, r.three_le_run, r.run_le⟩
          · cases hc
        · exact ih v (h ++ u) hx r hr

/-- Levels other than 1..=9 panic. -/
theorem C43_level_range (level : Nat) (h : ¬ (1 ≤ level ∧ level ≤ 9)) (preroll data : List UInt8)
    (codes : List Code) :
    Tracer.tryGzip level preroll data codes = .error (.panic .assertion) := by
  rw [Tracer.tryGzip, Config.gzip]
  rw [show assert (decide (level ≥ 1) && decide (level ≤ 9)) = .error (.panic .assertion) from by
    unfold assert
    rw [if_neg]
    simp only [Bool.and_eq_true, decide_eq_true_eq]
    exact h]
  rfl

example : lzExpand 32768 [] [.literal 5, .literal 5, .reference ⟨2, 4⟩] =
      some [5, 5, 5, 5, 5, 5, 5, 5, 5] ∧
    Tracer.tryGzip 6 [] [5, 5, 5, 5, 5, 5, 5, 5, 5] [.literal 5, .literal 5, .reference ⟨2, 4⟩] =
      .ok [.correct, .correct, .actually ⟨2, 4⟩] := by decide +kernel

/-! ### C44 -/

/-- C44. Restoring a trace of `n` correct guesses either yields codes that expand, after the preroll, to
exactly the data, or panics for want of trace entries, which it does not do if `n` is at least the length
of the data. -/
theorem C44_all_correct (config : Config) (preroll data : List UInt8) (limit n : Nat) :
    ∃ a, AllRefs.withSixteen preroll data limit = .ok a ∧
      ((∃ codes, Tracing.restore (List.replicate n .correct) ⟨config, a⟩ = .ok codes ∧
          lzExpand 32768 preroll codes = some data) ∨
       (n < data.length ∧
          Tracing.restore (List.replicate n .correct) ⟨config, a⟩ = .error (.panic .unwrap))) := by
  obtain ⟨a, h1, rfl, rfl, h4, h5⟩ := AllRefs.withSixteen_ok preroll data limit
  have hw : a.win.length = a.preroll.length + a.data.length := List.length_append
  refine ⟨a, h1, ?_⟩
  have := Tracing.restoreLoop_correct (t := ⟨config, a⟩) h5
    ((Technique.mk config a).dataLen + 1) (Technique.mk config a).scanner n
    (by show a.preroll.length ≤ a.win.length; omega)
    (by rw [Technique.dataLen, AllRefs.dataLen_eq]; show a.win.length < a.win.length + 1 + _; omega)
  rcases this with ⟨e, hn⟩ | ⟨cs, e, g, hsum⟩
  · right
    refine ⟨?_, e⟩
    change n < a.win.length - a.preroll.length at hn
    omega
  · left
    refine ⟨cs, e, ?_⟩
    have he := g.expand
    change a.preroll.length + _ = a.win.length at hsum
    change lzExpand 32768 (a.win.take a.preroll.length) cs =
      some ((a.win.drop a.preroll.length).take _) at he
    rw [show a.win.take a.preroll.length = a.preroll from List.take_left,
      show a.win.drop a.preroll.length = a.data from List.drop_left,
      List.take_of_length_le (by omega)] at he
    exact he

/-- The same, as bytes written by the decompressor (circles.rs, serialise.rs), for any dictionary. -/
theorem C44_decompress (config : Config) (preroll data : List UInt8) (limit n : Nat) (a : AllRefs)
    (ha : AllRefs.withSixteen preroll data limit = .ok a) (codes : List Code)
    (hr : Tracing.restore (List.replicate n .correct) ⟨config, a⟩ = .ok codes) :
    ∃ b st, bufferAfter 32768 preroll = .ok b ∧
      Serialise.decompressedCodes codes { dict := b, into := { out := [], room := none } } =
        .ok () st ∧ st.into.out = data := by
  obtain ⟨a', h1, h2⟩ := C44_all_correct config preroll data limit n
  rw [ha] at h1; cases h1
  rcases h2 with ⟨cs, h2, h3⟩ | ⟨_, h2⟩
  · rw [hr] at h2; cases h2
    obtain ⟨b, hb, hx⟩ := C32_expansion 32768 (by decide) preroll [] codes
    rw [show (32768 : UInt16).toNat = 32768 from rfl, h3] at hx
    obtain ⟨b', _, hx⟩ := hx
    exact ⟨b, _, hb, hx, rfl⟩
  · rw [hr] at h2; cases h2

example : (match AllRefs.withSixteen [9, 1, 2, 3] [1, 2, 3, 7, 1, 2, 3] 100 with
    | .ok a => Tracing.restore (List.replicate 3 .correct)
        ⟨⟨true, .greedy, .longest, Wams.greedy 258 100 100⟩, a⟩
    | .error e => .error e) =
      .ok [.reference ⟨3, 0⟩, .literal 7, .reference ⟨4, 0⟩] := by decide +kernel

end Rezip
