import Verif.Props.Drivers
import Verif.Props.Guess
import Verif.Spec.FileTrace

/-!
# C86, C87: tracing with a preroll, and whole files
-/

namespace Rezip

open Rezip.Spec Parse Serialise DecState

/-! ### C86 -/

namespace Tracing

theorem restoreInner_or_panic (t : Technique) (gs : List Code) (s : Scanner) (tr : List Trace) :
    (∃ s' out rest, restoreInner t gs s tr = .ok (s', out, rest) ∧
      s.pos + (if gs = [] then 0 else 1) ≤ s'.pos) ∨
    ∃ p, restoreInner t gs s tr = .error (.panic p) := by
  induction gs generalizing s tr with
  | nil => exact .inl ⟨s, [], tr, rfl, by simp⟩
  | cons g gs ih =>
    cases tr with
    | nil => exact .inr ⟨.unwrap, rfl⟩
    | cons x tr =>
      have hp : ∀ c, s.pos + 1 ≤ (t.feedback s c).pos := by
        intro c
        rw [feedback_pos]
        have := c.emittedBytes_pos
        omega
      cases x with
      | correct =>
        have unf : restoreInner t (g :: gs) s (.correct :: tr) =
            (restoreInner t gs (t.feedback s g) tr >>= fun x => pure (x.1, g :: x.2.1, x.2.2)) := by
          rw [restoreInner]; rfl
        rcases ih (t.feedback s g) tr with ⟨s', out, rest, h1, h2⟩ | ⟨p, h1⟩
        · refine .inl ⟨s', g :: out, rest, by rw [unf, h1]; rfl, ?_⟩
          have := hp g
          rw [if_neg (by simp)]
          omega
        · exact .inr ⟨p, by rw [unf, h1]; rfl⟩
      | actuallyLiteral =>
        cases hb : t.allRefs.data[s.pos]? with
        | none =>
          refine .inr ⟨.index, ?_⟩
          rw [restoreInner]
          dsimp only
          rw [restoreOne, Technique.byteAt, index, hb]
          rfl
        | some b =>
          refine .inl ⟨t.feedback s (.literal b), [.literal b], tr, ?_, ?_⟩
          · rw [restoreInner]
            dsimp only
            rw [restoreOne, Technique.byteAt, index, hb]
            rfl
          · rw [if_neg (by simp)]; exact hp _
      | actually r =>
        exact .inl ⟨t.feedback s (.reference r), [.reference r], tr, rfl, by
          rw [if_neg (by simp)]; exact hp _⟩

theorem restoreLoop_or_panic {t : Technique} (hb : t.allRefs.Built) (fuel : Nat) (s : Scanner)
    (tr : List Trace) (hf : t.allRefs.win.length < fuel + s.pos) (hf0 : fuel ≠ 0) :
    (∃ cs, restoreLoop t fuel s tr = .ok cs) ∨ ∃ p, restoreLoop t fuel s tr = .error (.panic p) := by
  induction fuel generalizing s tr with
  | zero => exact absurd rfl hf0
  | succ fuel ih =>
    by_cases hp : s.pos < t.allRefs.win.length
    · obtain ⟨gs, g1, g2, g3⟩ := Technique.codes_ok hb s hp
      have unf : restoreLoop t (fuel + 1) s tr =
          (restoreInner t gs s tr >>= fun x => restoreLoop t fuel x.1 x.2.2 >>= fun rest =>
            pure (x.2.1 ++ rest)) := by
        rw [restoreLoop, moreData_iff, if_pos (by simpa using hp), g1, Ex.ok_bind,
          assert_of (by simp [g2]), Ex.ok_bind]
      rcases restoreInner_or_panic t gs s tr with ⟨s', out, rest, h1, h2⟩ | ⟨p, h1⟩
      · rw [if_neg g2] at h2
        rcases ih s' rest (by omega) (by omega) with ⟨cs, k⟩ | ⟨p, k⟩
        · exact .inl ⟨out ++ cs, by rw [unf, h1, Ex.ok_bind]; dsimp only; rw [k]; rfl⟩
        · exact .inr ⟨p, by rw [unf, h1, Ex.ok_bind]; dsimp only; rw [k]; rfl⟩
      · exact .inr ⟨p, by rw [unf, h1]; rfl⟩
    · refine .inl ⟨[], ?_⟩
      rw [restoreLoop, moreData_iff, if_neg (by simpa using hp)]
      rfl

end Tracing

/-- C86. Tracing with a gzip preset after any preroll, exactly: on codes that emit as many bytes as there are
in the data, with references in the ranges of the format, the result is the trace of the reference
description if every mispredicted literal is the byte of the data at its index into preroll and data, and
otherwise a panic. -/
theorem C86_try_gzip (level : Nat) (st : Settings) (hst : gzipSettings level = some st)
    (preroll data : List UInt8) (codes : List Code)
    (hs : (codes.map Code.emittedBytes).sum = data.length)
    (hr : ∀ r, Code.reference r ∈ codes → RefOk r) :
    let tr := refTrace st (st.insert.getD 65535) (preroll ++ data) preroll.length [] codes
    (HintedLiteralsAgree data preroll.length codes tr →
      Tracer.tryGzip level preroll data codes = .ok tr) ∧
    (¬ HintedLiteralsAgree data preroll.length codes tr →
      ∃ p, Tracer.tryGzip level preroll data codes = .error (.panic p)) := by
  intro tr
  obtain ⟨config, hc, hset, hg⟩ := gzip_settings hst
  have hins : config.wams.insertOnlyBelowLength = st.insert := by rw [← hset]; rfl
  obtain ⟨config', a, hc', ha, ht⟩ := C70_trace level st hst preroll data (st.insert.getD 65535) codes hs
  rw [hc] at hc'; cases hc'
  obtain ⟨a', tr', h1, h2, h3, h4, h5⟩ :=
    trace_restore config preroll data (st.insert.getD 65535) codes hs
  rw [ha] at h1; cases h1
  have htr : Tracing.trace codes ⟨config, a⟩ = .ok tr := ht
  rw [htr] at h2; cases h2
  have unf : Tracer.tryGzip level preroll data codes =
      (Tracing.restore tr ⟨config, a⟩ >>= fun restored => assert (codes == restored) >>= fun _ =>
        SerialiseTrace.verify tr >>= fun _ => pure tr) := by
    rw [Tracer.tryGzip, hc, Ex.ok_bind, Tracer.try_]
    rw [hins, ha, Ex.ok_bind, Tracing.validate, htr, Ex.ok_bind]
    cases Tracing.restore tr ⟨config, a⟩ with
    | error e => rfl
    | ok restored =>
      rw [Ex.ok_bind, Ex.ok_bind]
      cases assert (codes == restored) <;> rfl
  constructor
  · intro h
    obtain ⟨bytes, _, _, hv⟩ := C36_roundtrip tr (fun r hm => hr r (h4 r hm))
    rw [unf, h5.2 h, Ex.ok_bind, assert_of (by simp), Ex.ok_bind, hv]
    rfl
  · intro h
    obtain ⟨a', k1, k2, k3, _, k4⟩ := AllRefs.withSixteen_ok preroll data (st.insert.getD 65535)
    rw [ha] at k1; cases k1
    have hor := Tracing.restoreLoop_or_panic (t := ⟨config, a⟩) k4 ((⟨config, a⟩ : Technique).dataLen + 1)
      (⟨config, a⟩ : Technique).scanner tr (by
        show (a.preroll ++ a.data).length < a.dataLen + 1 + a.preroll.length
        rw [AllRefs.dataLen, List.length_append]
        omega) (by omega)
    rcases hor with ⟨cs, hcs⟩ | ⟨p, hp⟩
    · refine ⟨.assertion, ?_⟩
      have hne : (codes == cs) = false := by
        apply Bool.eq_false_iff.2
        intro he
        have he := beq_iff_eq.1 he
        subst he
        exact h (h5.1 hcs)
      rw [unf, Tracing.restore, hcs, Ex.ok_bind, hne]
      rfl
    · exact ⟨p, by rw [unf, Tracing.restore, hp]; rfl⟩

/-- After `9 1 2 3`, a reference to the last three bytes is as guessed; three literals instead of it are not,
and fail. With a byte that happens to be right where it is looked up, they do not. -/
example : gzipSettings 1 = some ⟨8, 4, false, some 4⟩ ∧
    Tracer.tryGzip 1 [9, 1, 2, 3] [1, 2, 3] [.reference ⟨3, 0⟩] = .ok [.correct] ∧
    Tracer.tryGzip 1 [9, 1, 2, 3] [1, 2, 3] [.literal 1, .literal 2, .literal 3] =
      .error (.panic .index) ∧
    Tracer.tryGzip 1 [9, 1, 2, 3] [1, 2, 3, 4, 1] [.literal 1, .literal 2, .literal 3, .literal 4,
      .literal 1] = .ok [.actuallyLiteral, .correct, .correct, .correct, .correct] := by
  decide +kernel

/-! ### C87 -/

theorem decompressedCodes_vec (codes : List Code) (h : List UInt8) :
    (∃ x, lzExpand 32768 h codes = some x ∧
      decompressedCodes codes ⟨CircularBuffer.ofHist 32768 h, Sink.vec⟩ =
        .ok () ⟨CircularBuffer.ofHist 32768 (h ++ x), ⟨x, none⟩⟩) ∨
    (lzExpand 32768 h codes = none ∧ ∃ st,
      decompressedCodes codes ⟨CircularBuffer.ofHist 32768 h, Sink.vec⟩ = .error (.err .distMustFit) st) := by
  have hap := decompressedCodes_appends (W := 32768) (by omega) (by omega) codes h ⟨[], none⟩
  unfold Appends expandResult at hap
  rw [writeAll_vec] at hap
  rcases lzExpand_eq 32768 h codes with he | he <;> rw [he] at hap ⊢
  · exact .inl ⟨_, rfl, hap⟩
  · exact .inr ⟨rfl, _, hap⟩

theorem vec_window (p : Profile) (h : List UInt8) :
    (CircularBuffer.ofHist 32768 h).vec p = .ok (window h) := by
  obtain ⟨_, _, e3, _⟩ := CircularBuffer.ofHist_spec (W := 32768) (by omega) h
  unfold CircularBuffer.vec
  rw [if_neg (by omega), CircularBuffer.vecLoop_ofHist p (by omega) _ _ (by omega), e3, window,
    show h.length - min 32768 h.length = h.length - 32768 by omega]

theorem FileTraced.unique {st : Settings} {h : List UInt8} {bl : List Block} {a b : List (List Trace)}
    (h1 : FileTraced st h bl a) (h2 : FileTraced st h bl b) : a = b := by
  induction h1 generalizing b with
  | nil h => cases h2; rfl
  | cons h blk bs u parts _ hu _ _ ih =>
    cases h2 with
    | cons _ _ _ u' parts' _ hu' _ ht' =>
      rw [hu] at hu'
      cases hu'
      rw [ih ht']

namespace RunGzip

/-- One block: the part, or a panic. -/
def onBlock (p : Profile) (level : Nat) (b : Block) (dict : CircularBuffer) :
    Except Fail (List Trace × CircularBuffer) := do
  let codes ← match b with
    | .uncompressed _ => .error (.panic .explicit)
    | .fixedHuffman codes => pure codes
    | .dynamicHuffman _ codes => pure codes
  let preroll ← dict.vec p
  let st ← unwrapState (Serialise.decompressedCodes codes { dict := dict, into := Sink.vec })
  let part ← Tracer.tryGzip level preroll st.into.out codes
  pure (part, st.dict)

theorem loop_some (p : Profile) (level fuel : Nat) (it it1 : BlockIter) (b : Block) (dict : CircularBuffer)
    (hn : it.next = (some (.ok b), it1)) :
    loop p level (fuel + 1) it dict = (onBlock p level b dict >>= fun q =>
      loop p level fuel it1 q.2 >>= fun parts => pure (q.1 :: parts)) := by
  rw [loop, hn]
  dsimp only
  rw [unwrap, Ex.ok_bind]
  · unfold onBlock
    cases b with
    | uncompressed d => rfl
    | fixedHuffman codes =>
      dsimp only
      rw [Ex.pure_eq, Ex.ok_bind, Ex.ok_bind]
      cases dict.vec p with
      | error e => rfl
      | ok pre =>
        rw [Ex.ok_bind, Ex.ok_bind]
        cases unwrapState (decompressedCodes codes { dict := dict, into := Sink.vec }) with
        | error e => rfl
        | ok s =>
          rw [Ex.ok_bind, Ex.ok_bind]
          cases Tracer.tryGzip level pre s.into.out codes <;> rfl
    | dynamicHuffman t codes =>
      dsimp only
      rw [Ex.pure_eq, Ex.ok_bind, Ex.ok_bind]
      cases dict.vec p with
      | error e => rfl
      | ok pre =>
        rw [Ex.ok_bind, Ex.ok_bind]
        cases unwrapState (decompressedCodes codes { dict := dict, into := Sink.vec }) with
        | error e => rfl
        | ok s =>
          rw [Ex.ok_bind, Ex.ok_bind]
          cases Tracer.tryGzip level pre s.into.out codes <;> rfl
  · intro e h; cases h

theorem onBlock_codes (p : Profile) (level : Nat) (b : Block) (h : List UInt8)
    (hb : ∀ d, b ≠ .uncompressed d) :
    onBlock p level b (CircularBuffer.ofHist 32768 h) =
      (unwrapState (decompressedCodes (lzCodes b) ⟨CircularBuffer.ofHist 32768 h, Sink.vec⟩) >>= fun st =>
        Tracer.tryGzip level (window h) st.into.out (lzCodes b) >>= fun part => pure (part, st.dict)) := by
  unfold onBlock
  cases b with
  | uncompressed d => exact absurd rfl (hb d)
  | fixedHuffman codes =>
    dsimp only
    rw [Ex.pure_eq, Ex.ok_bind, vec_window, Ex.ok_bind]
    rfl
  | dynamicHuffman t codes =>
    dsimp only
    rw [Ex.pure_eq, Ex.ok_bind, vec_window, Ex.ok_bind]
    rfl

/-- One block, with a valid level. -/
theorem onBlock_cases (p : Profile) (level : Nat) (st : Settings) (hst : gzipSettings level = some st)
    (b : Block) (h : List UInt8) :
    (∃ u, (∀ d, b ≠ .uncompressed d) ∧ lzExpand 32768 h (lzCodes b) = some u ∧
      HintedLiteralsAgree u (window h).length (lzCodes b) (blockTrace st h u (lzCodes b)) ∧
      onBlock p level b (CircularBuffer.ofHist 32768 h) =
        .ok (blockTrace st h u (lzCodes b), CircularBuffer.ofHist 32768 (h ++ u))) ∨
    ((∀ u, (∀ d, b ≠ .uncompressed d) → lzExpand 32768 h (lzCodes b) = some u →
      ¬ HintedLiteralsAgree u (window h).length (lzCodes b) (blockTrace st h u (lzCodes b))) ∧
      ∃ q, onBlock p level b (CircularBuffer.ofHist 32768 h) = .error (.panic q)) := by
  by_cases hb : ∀ d, b ≠ .uncompressed d
  · rw [onBlock_codes p level b h hb]
    rcases decompressedCodes_vec (lzCodes b) h with ⟨u, hu, hd⟩ | ⟨hu, s, hd⟩
    · rw [hd]
      show _ ∨ (_ ∧ ∃ q, (Tracer.tryGzip level (window h) u (lzCodes b) >>= _) = _)
      have key := C86_try_gzip level st hst (window h) u (lzCodes b) (sum_of_expand hu) (refOk_of_expand hu)
      by_cases hh : HintedLiteralsAgree u (window h).length (lzCodes b) (blockTrace st h u (lzCodes b))
      · refine .inl ⟨u, hb, hu, hh, ?_⟩
        show (Tracer.tryGzip level (window h) u (lzCodes b) >>= _) = _
        rw [key.1 hh]
        rfl
      · obtain ⟨q, hq⟩ := key.2 hh
        refine .inr ⟨?_, q, by rw [hq]; rfl⟩
        intro u' _ hu'
        rw [hu] at hu'
        cases hu'
        exact hh
    · refine .inr ⟨?_, .unwrap, by rw [hd]; rfl⟩
      intro u _ hu'
      rw [hu] at hu'
      cases hu'
  · refine .inr ⟨fun u h => absurd h hb, ?_⟩
    cases b with
    | uncompressed d => exact ⟨.explicit, rfl⟩
    | fixedHuffman codes => exact absurd (by intro d h; cases h) hb
    | dynamicHuffman t codes => exact absurd (by intro d h; cases h) hb

theorem loop_eq (p : Profile) (level : Nat) (st : Settings) (hst : gzipSettings level = some st)
    (fuel : Nat) (it : BlockIter) (herr : ∀ n e, item n it = some (.error e) → e ≠ .diverge)
    (h : List UInt8) :
    ∃ r bl it', (∀ a, collectLoop fuel it a = (r, a ++ bl, it')) ∧
      (r = .error .diverge ∨
       (r ≠ .ok () ∧ ∃ q, loop p level fuel it (CircularBuffer.ofHist 32768 h) = .error (.panic q)) ∨
       (r = .ok () ∧ ((∃ parts, FileTraced st h bl parts ∧
          loop p level fuel it (CircularBuffer.ofHist 32768 h) = .ok parts) ∨
        ((∀ parts, ¬ FileTraced st h bl parts) ∧
          ∃ q, loop p level fuel it (CircularBuffer.ofHist 32768 h) = .error (.panic q))))) := by
  induction fuel generalizing it h with
  | zero => exact ⟨.error .diverge, [], it, fun a => by rw [collectLoop, List.append_nil], .inl rfl⟩
  | succ fuel ih =>
    cases hn : it.next with
    | mk cur it1 =>
      cases cur with
      | none =>
        exact ⟨.ok (), [], it1, fun a => by rw [collectLoop, hn]; simp, .inr (.inr ⟨rfl, .inl
          ⟨[], .nil h, by rw [loop, hn]; rfl⟩⟩)⟩
      | some x =>
        have h0 : item 0 it = some x := by show it.next.1 = _; rw [hn]
        have hitem : ∀ n, item (n + 1) it = item n it1 := by
          intro n
          show (after n it.next.2).next.1 = _
          rw [hn]
          rfl
        cases x with
        | error e =>
          refine ⟨.error e, [], it1, fun a => by rw [collectLoop, hn]; simp, .inr (.inl
            ⟨(by intro h; cases h), ?_⟩)⟩
          obtain ⟨q, hq⟩ := unwrap_error (α := Block) e (herr 0 e h0)
          exact ⟨q, by rw [loop, hn]; dsimp only; rw [hq]; rfl⟩
        | ok b =>
          rw [loop_some p level fuel it it1 b _ hn]
          have hcol : ∀ r bl it', (∀ a, collectLoop fuel it1 a = (r, a ++ bl, it')) →
              ∀ a, collectLoop (fuel + 1) it a = (r, a ++ (b :: bl), it') := by
            intro r bl it' hc a
            rw [collectLoop, hn]
            dsimp only
            rw [hc]
            simp
          have herr' : ∀ n e, item n it1 = some (.error e) → e ≠ .diverge :=
            fun n e hx => herr (n + 1) e (by rw [hitem]; exact hx)
          rcases onBlock_cases p level st hst b h with ⟨u, hb, hu, hh, ho⟩ | ⟨hno, q, ho⟩
          · rw [ho, Ex.ok_bind]
            dsimp only
            obtain ⟨r, bl, it', hc, hrest⟩ := ih it1 herr' (h ++ u)
            refine ⟨r, b :: bl, it', hcol r bl it' hc, ?_⟩
            rcases hrest with hr | ⟨hr, q, hq⟩ | ⟨hr, hl⟩
            · exact .inl hr
            · exact .inr (.inl ⟨hr, q, by rw [hq]; rfl⟩)
            · refine .inr (.inr ⟨hr, ?_⟩)
              rcases hl with ⟨parts, hp, hl⟩ | ⟨hno, q, hq⟩
              · exact .inl ⟨_, .cons h b bl u parts hb hu hh hp, by rw [hl]; rfl⟩
              · refine .inr ⟨?_, q, by rw [hq]; rfl⟩
                intro parts hp
                cases hp with
                | cons _ _ _ u' parts' _ hu' _ hp' =>
                  rw [hu] at hu'
                  cases hu'
                  exact hno _ hp'
          · rw [ho]
            obtain ⟨r, bl, it', hc, _⟩ := ih it1 herr' h
            refine ⟨r, b :: bl, it', hcol r bl it' hc, ?_⟩
            by_cases hr : r = .ok ()
            · refine .inr (.inr ⟨hr, .inr ⟨?_, q, rfl⟩⟩)
              intro parts hp
              cases hp with
              | cons _ _ _ u' parts' hb' hu' hh' hp' => exact hno u' hb' hu' hh'
            · exact .inr (.inl ⟨hr, q, rfl⟩)

/-- A level outside 1..=9: the first block panics. -/
theorem loop_level (p : Profile) (level : Nat) (hlv : ¬ (1 ≤ level ∧ level ≤ 9)) (fuel : Nat)
    (it : BlockIter) (herr : ∀ n e, item n it = some (.error e) → e ≠ .diverge)
    (h1 : it.next.1 ≠ none) (h : List UInt8) :
    ∃ q, loop p level (fuel + 1) it (CircularBuffer.ofHist 32768 h) = .error (.panic q) := by
  cases hn : it.next with
  | mk cur it1 =>
    cases cur with
    | none => rw [hn] at h1; exact absurd rfl h1
    | some x =>
      cases x with
      | error e =>
        obtain ⟨q, hq⟩ := unwrap_error (α := Block) e (herr 0 e (by show it.next.1 = _; rw [hn]))
        exact ⟨q, by rw [loop, hn]; dsimp only; rw [hq]; rfl⟩
      | ok b =>
        rw [loop_some p level fuel it it1 b _ hn]
        by_cases hb : ∀ d, b ≠ .uncompressed d
        · rw [onBlock_codes p level b h hb]
          rcases decompressedCodes_vec (lzCodes b) h with ⟨u, hu, hd⟩ | ⟨hu, s, hd⟩
          · rw [hd]
            show ∃ q, ((Tracer.tryGzip level (window h) u (lzCodes b) >>= _) >>= _) = _
            rw [C43_level_range level hlv]
            exact ⟨_, rfl⟩
          · exact ⟨.unwrap, by rw [hd]; rfl⟩
        · cases b with
          | uncompressed d => exact ⟨.explicit, rfl⟩
          | fixedHuffman codes => exact absurd (by intro d h; cases h) hb
          | dynamicHuffman t codes => exact absurd (by intro d h; cases h) hb

end RunGzip

theorem gzipSettings_some {level : Nat} (h : 1 ≤ level ∧ level ≤ 9) : ∃ st, gzipSettings level = some st := by
  have : level = 1 ∨ level = 2 ∨ level = 3 ∨ level = 4 ∨ level = 5 ∨ level = 6 ∨ level = 7 ∨
    level = 8 ∨ level = 9 := by omega
  rcases this with rfl | rfl | rfl | rfl | rfl | rfl | rfl | rfl | rfl <;> exact ⟨_, rfl⟩

theorem gzipSettings_none {level : Nat} (h : ¬ (1 ≤ level ∧ level ≤ 9)) : gzipSettings level = none := by
  unfold gzipSettings
  by_cases h0 : level = 0
  · rw [if_pos h0]
  · rw [if_neg h0, List.getElem?_eq_none (by show 9 ≤ level - 1; omega)]
    rfl

/-- After the header. -/
theorem RunGzip.run_eq (p : Profile) (level : Nat) (file hd raw : List UInt8)
    (hh : Gzip.discardHeader file = .ok hd raw) :
    (∃ st blocks rest parts, gzipSettings level = some st ∧ parseAll raw = .ok (blocks, rest) ∧
      FileTraced st [] blocks parts ∧ RunGzip.run p level file = .ok parts) ∨
    ((∀ st blocks rest parts, gzipSettings level = some st → parseAll raw = .ok (blocks, rest) →
      ¬ FileTraced st [] blocks parts) ∧ ∃ q, RunGzip.run p level file = .error (.panic q)) := by
  have hunf : RunGzip.run p level file = loop p level (8 * raw.length + 2) (parseDeflate raw)
      (CircularBuffer.ofHist 32768 []) := by
    rw [run, hh]
    dsimp only
    rw [Cat.new_eq, Ex.ok_bind]
  have herr : ∀ n e, item n (parseDeflate raw) = some (.error e) → e ≠ .diverge := by
    intro n e h
    rcases C17_total raw n with h' | ⟨b, h'⟩ | ⟨x, h'⟩ <;> rw [h'] at h <;> cases h
    intro h; cases h
  rw [hunf]
  by_cases hlv : 1 ≤ level ∧ level ≤ 9
  · obtain ⟨st, hst⟩ := gzipSettings_some hlv
    obtain ⟨r, bl, it', hc, hl⟩ := loop_eq p level st hst (8 * raw.length + 2) (parseDeflate raw) herr []
    have hcol : collect raw = (r, bl, it') := by rw [collect, hc, List.nil_append]
    rcases hl with hr | ⟨hr, hp⟩ | ⟨hr, hl⟩
    · exfalso
      have : parseAll raw = .error .diverge := by rw [parseAll, hcol, hr]
      obtain ⟨x, hx⟩ := parseAll_error this
      cases hx
    · refine .inr ⟨?_, hp⟩
      intro _ blocks rest parts _ hpa
      rw [parseAll, hcol] at hpa
      cases r with
      | ok u => exact absurd rfl hr
      | error e => cases hpa
    · subst hr
      have hpa : parseAll raw = .ok (bl, it'.inner.inner) := by rw [parseAll, hcol]
      rcases hl with ⟨parts, h1, h2⟩ | ⟨h1, h2⟩
      · exact .inl ⟨st, bl, _, parts, hst, hpa, h1, h2⟩
      · refine .inr ⟨?_, h2⟩
        intro st' blocks rest parts hst' hpa'
        rw [hst] at hst'; cases hst'
        rw [hpa] at hpa'; cases hpa'
        exact h1 parts
  · refine .inr ⟨?_, ?_⟩
    · intro st _ _ _ hst
      rw [gzipSettings_none hlv] at hst
      cases hst
    · refine loop_level p level hlv (8 * raw.length + 1) (parseDeflate raw) herr ?_ []
      intro hn
      cases hx : (parseDeflate raw).next with
      | mk cur it1 =>
        rw [hx] at hn
        cases hn
        have : parseAll raw = .ok ([], it1.inner.inner) := by
          rw [parseAll, collect, collectLoop, hx]
        obtain ⟨d, _, bits, hb, _⟩ := (parseAll_iff _ _ _).1 this
        cases hb

/-- C87. Tracing a whole file at a gzip level gives the traces of the reference description, one list per
block, exactly for the files that are a gzip header, a deflate stream without stored blocks with all
references in the window and with mispredicted literals that agree, and anything after it. -/
theorem C87_run_gzip (p : Profile) (level : Nat) (file : List UInt8) (parts : List (List Trace)) :
    RunGzip.run p level file = .ok parts ↔ ∃ (st : Settings) (hd : GzHeader) (d rest : List UInt8)
      (blocks : List Block), gzipSettings level = some st ∧ hd.Valid ∧ file = hd.bytes ++ d ++ rest ∧
        DeflateBytes blocks d ∧ FileTraced st [] blocks parts := by
  constructor
  · intro h
    cases hh : Gzip.discardHeader file with
    | error e s =>
      rw [RunGzip.run, hh] at h
      cases e <;> cases h
    | ok hd raw =>
      obtain ⟨rfl, g, hv, hg⟩ := C56_header file hd raw hh
      rcases RunGzip.run_eq p level _ hd raw hh with ⟨st, blocks, rest, parts', h1, h2, h3, h4⟩ | ⟨_, q, hq⟩
      · rw [h] at h4; cases h4
        obtain ⟨d, rfl, hd'⟩ := (parseAll_iff _ _ _).1 h2
        exact ⟨st, g, d, rest, blocks, h1, hv, by rw [hg, List.append_assoc], hd', h3⟩
      · rw [h] at hq; cases hq
  · rintro ⟨st, hd, d, rest, blocks, hst, hv, rfl, hdef, ht⟩
    have hh : Gzip.discardHeader (hd.bytes ++ d ++ rest) = .ok hd.bytes (d ++ rest) := by
      rw [List.append_assoc]
      exact C57_accepted hd hv (d ++ rest)
    have hparse : parseAll (d ++ rest) = .ok (blocks, rest) := (parseAll_iff _ _ _).2 ⟨d, rfl, hdef⟩
    rcases RunGzip.run_eq p level _ _ _ hh with ⟨st', blocks', rest', parts', h1, h2, h3, h4⟩ | ⟨hno, _⟩
    · rw [hst] at h1; cases h1
      rw [hparse] at h2; cases h2
      rw [h4, ht.unique h3]
    · exact absurd ht (hno st blocks rest parts hst hparse)

/-- C87. On all other files it panics. -/
theorem C87_else_panics (p : Profile) (level : Nat) (file : List UInt8)
    (h : ∀ parts, RunGzip.run p level file ≠ .ok parts) :
    ∃ q, RunGzip.run p level file = .error (.panic q) := by
  cases hh : Gzip.discardHeader file with
  | error e s =>
    obtain ⟨x, rfl⟩ := Gzip.onlyErrs_discardHeader _ _ _ hh
    exact ⟨.unwrap, by rw [RunGzip.run, hh]; rfl⟩
  | ok hd raw =>
    rcases RunGzip.run_eq p level _ hd raw hh with ⟨_, _, _, parts, _, _, _, h4⟩ | ⟨_, hq⟩
    · exact absurd h4 (h parts)
    · exact hq

/-- The claim one would like: every file that decompresses can be traced, at every level, unless it has a
stored block. -/
def TraceFileClaim (p : Profile) (level : Nat) (file : List UInt8) : Prop :=
  ∀ (hd : GzHeader) (d rest : List UInt8) (blocks : List Block) (x : List UInt8), 1 ≤ level → level ≤ 9 →
    hd.Valid → file = hd.bytes ++ d ++ rest → DeflateBytes blocks d →
    (∀ b ∈ blocks, ∀ u, b ≠ .uncompressed u) → lzExpand 32768 [] (blocks.flatMap lzCodes) = some x →
    ∃ parts, RunGzip.run p level file = .ok parts

theorem LiteralsAgree.of_block {h u : List UInt8} {codes : List Code}
    (he : lzExpand 32768 h codes = some u) : LiteralsAgree u 0 codes := by
  have := LiteralsAgree.of_expand he []
  rw [List.append_nil] at this
  exact LiteralsAgree.shift (h := h) (by simpa using this)

/-- C87 for files of one block: they can always be traced. -/
theorem C87_one_block (p : Profile) (level : Nat) (st : Settings) (hst : gzipSettings level = some st)
    (hd : GzHeader) (d rest x : List UInt8) (b : Block) (hv : hd.Valid) (hdef : DeflateBytes [b] d)
    (hb : ∀ u, b ≠ .uncompressed u) (hx : lzExpand 32768 [] (lzCodes b) = some x) :
    RunGzip.run p level (hd.bytes ++ d ++ rest) =
      .ok [refTrace st (st.insert.getD 65535) x 0 [] (lzCodes b)] := by
  refine (C87_run_gzip p level _ _).2 ⟨st, hd, d, rest, [b], hst, hv, rfl, hdef, ?_⟩
  exact .cons [] b [] x [] hb hx (HintedLiteralsAgree.of_agree _ (LiteralsAgree.of_block hx)) (.nil _)

/-- The build profile does not matter. -/
theorem C87_profile (level : Nat) (file : List UInt8) (parts : List (List Trace)) :
    RunGzip.run .dev level file = .ok parts ↔ RunGzip.run .release level file = .ok parts := by
  rw [C87_run_gzip, C87_run_gzip]

theorem FileGuessed.parts {st : Settings} {h : List UInt8} {bl : List Block} (hg : FileGuessed st h bl) :
    ∃ parts, FileTraced st h bl parts ∧ ∀ part ∈ parts, ∀ x ∈ part, x = Trace.correct := by
  induction hg with
  | nil h => exact ⟨[], .nil h, by simp⟩
  | cons h b bs u hb hu hc _ ih =>
    obtain ⟨parts, h1, h2⟩ := ih
    refine ⟨_, .cons h b bs u parts hb hu (HintedLiteralsAgree.of_none ?_) h1, ?_⟩
    · intro hm
      cases hc _ hm
    · intro part hp
      rcases List.mem_cons.1 hp with rfl | hp
      · exact hc
      · exact h2 part hp

theorem FileTraced.guessed {st : Settings} {h : List UInt8} {bl : List Block} {parts : List (List Trace)}
    (ht : FileTraced st h bl parts) (hc : ∀ part ∈ parts, ∀ x ∈ part, x = Trace.correct) :
    FileGuessed st h bl := by
  induction ht with
  | nil h => exact .nil h
  | cons h b bs u parts hb hu hh _ ih =>
    exact .cons h b bs u hb hu (hc _ (by simp)) (ih fun part hp => hc part (List.mem_cons_of_mem _ hp))

/-! ### C88 -/

/-- C88. The check that a file was made by a given gzip level passes exactly for the files that are a gzip
header, a deflate stream without stored blocks in which every code of every block is the one the reference
description guesses, and anything after it. -/
theorem C88_try_gzip (p : Profile) (level : Nat) (file : List UInt8) :
    RunGzip.tryGzip p level file = .ok () ↔ ∃ (st : Settings) (hd : GzHeader) (d rest : List UInt8)
      (blocks : List Block), gzipSettings level = some st ∧ hd.Valid ∧ file = hd.bytes ++ d ++ rest ∧
        DeflateBytes blocks d ∧ FileGuessed st [] blocks := by
  have key : ∀ parts : List (List Trace), (parts.all fun part => part.all fun x => x == .correct) = true ↔
      ∀ part ∈ parts, ∀ x ∈ part, x = Trace.correct := by
    intro parts
    simp only [List.all_eq_true, beq_iff_eq]
  constructor
  · intro h
    rw [RunGzip.tryGzip] at h
    obtain ⟨parts, h1, h⟩ := Ex.bind_eq_ok.1 h
    by_cases hc : (parts.all fun part => part.all fun x => x == .correct) = true
    · obtain ⟨st, hd, d, rest, blocks, k1, k2, k3, k4, k5⟩ := (C87_run_gzip p level file parts).1 h1
      exact ⟨st, hd, d, rest, blocks, k1, k2, k3, k4, k5.guessed ((key parts).1 hc)⟩
    · rw [if_neg hc] at h
      cases h
  · rintro ⟨st, hd, d, rest, blocks, k1, k2, k3, k4, k5⟩
    obtain ⟨parts, h1, h2⟩ := k5.parts
    rw [RunGzip.tryGzip, (C87_run_gzip p level file parts).2 ⟨st, hd, d, rest, blocks, k1, k2, k3, k4, h1⟩,
      Ex.ok_bind, if_pos ((key parts).2 h2)]
    rfl

/-- C88. Otherwise it panics. -/
theorem C88_else_panics (p : Profile) (level : Nat) (file : List UInt8)
    (h : RunGzip.tryGzip p level file ≠ .ok ()) :
    ∃ q, RunGzip.tryGzip p level file = .error (.panic q) := by
  cases hr : RunGzip.run p level file with
  | error e =>
    obtain ⟨q, hq⟩ := C87_else_panics p level file (by rw [hr]; intro _ h; cases h)
    exact ⟨q, by rw [RunGzip.tryGzip, hq]; rfl⟩
  | ok parts =>
    rw [RunGzip.tryGzip, hr, Ex.ok_bind] at h ⊢
    by_cases hc : (parts.all fun part => part.all fun x => x == .correct) = true
    · rw [if_pos hc] at h
      exact absurd rfl h
    · rw [if_neg hc]
      exact ⟨.explicit, rfl⟩

/-- A header without optional fields. -/
def exampleGz : List UInt8 := [0x1f, 0x8b, 8, 0, 0, 0, 0, 0, 0, 3]

/-- Two fixed blocks: the literals 9, 1, 2, 3, and a reference of length three, three back. -/
def exampleTwo : List UInt8 := [226, 100, 100, 98, 6, 12, 136, 0]

/-- The same data, with literals in the second block too. -/
def exampleTwoLit : List UInt8 := [226, 100, 100, 98, 6, 140, 145, 137, 25, 0]

/-- The first passes at level 1, whatever follows it; it round trips. The second cannot be traced: its first
literal of the second block is mispredicted, and then looked up past the end of the block. -/
theorem example_two :
    RunGzip.run .dev 1 (exampleGz ++ exampleTwo ++ [1, 2]) =
      .ok [[.correct, .correct, .correct, .correct], [.correct]] ∧
    RunGzip.tryGzip .dev 1 (exampleGz ++ exampleTwo ++ [1, 2]) = .ok () ∧
    RoundTrip.run (exampleGz ++ exampleTwo ++ [1, 2]) 7 = .ok () ∧
    RunGzip.run .dev 1 (exampleGz ++ exampleTwoLit) = .error (.panic .index) ∧
    RoundTrip.run (exampleGz ++ exampleTwoLit) 7 = .ok () := by
  decide +kernel

theorem exampleTwoLit_parse : parseAll exampleTwoLit = .ok ([.fixedHuffman [.literal 9, .literal 1, .literal 2,
    .literal 3], .fixedHuffman [.literal 1, .literal 2, .literal 3]], []) := by decide +kernel

/-- C87: the claim one would like is false with more than one block. -/
theorem C87_false : ¬ ∀ p level file, TraceFileClaim p level file := by
  intro h
  obtain ⟨d, hd, hdef⟩ := (parseAll_iff _ _ _).1 exampleTwoLit_parse
  rw [List.append_nil] at hd
  subst hd
  obtain ⟨_, g, hv, hg⟩ := C56_header exampleGz exampleGz [] (by decide +kernel)
  obtain ⟨parts, hp⟩ := h .dev 1 (exampleGz ++ exampleTwoLit) g exampleTwoLit [] _ [9, 1, 2, 3, 1, 2, 3]
    (by decide) (by decide) hv (by rw [← hg, List.append_nil]) hdef
    (by
      intro b hb u
      simp only [List.mem_cons, List.not_mem_nil, or_false] at hb
      rcases hb with rfl | rfl <;> intro h <;> cases h)
    (by decide +kernel)
  rw [example_two.2.2.2.1] at hp
  cases hp

end Rezip
