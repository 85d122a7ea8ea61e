import Verif.Props.FileTrace

/-!
# C89, C90: the guesser's own codes
-/

namespace Rezip

open Rezip.Spec Parse Serialise

namespace Tracing

theorem sharedPrefix_self (gs cs : List Code) : sharedPrefix gs (gs ++ cs) = (gs, cs) := by
  induction gs with
  | nil => rw [List.nil_append]; cases cs <;> rfl
  | cons g gs ih => rw [List.cons_append, sharedPrefix, if_pos rfl, ih]

/-- The codes restored from correct entries are traced as correct, and more entries restore the same. -/
theorem restoreLoop_own {t : Technique} (hb : t.allRefs.Built) (fuel : Nat) (s : Scanner) (n : Nat)
    (cs : List Code) (h : restoreLoop t fuel s (List.replicate n .correct) = .ok cs) :
    traceLoop t fuel s cs = .ok (List.replicate cs.length .correct) ∧ cs.length ≤ n ∧
    ∀ m, cs.length ≤ m → restoreLoop t fuel s (List.replicate m .correct) = .ok cs := by
  induction fuel generalizing s n cs with
  | zero => cases h
  | succ fuel ih =>
    rw [restoreLoop, moreData_iff] at h
    by_cases hp : s.pos < t.allRefs.win.length
    · rw [if_pos (by simpa using hp)] at h
      obtain ⟨gs, g1, g2, g3⟩ := Technique.codes_ok hb s hp
      have unf : ∀ l, restoreLoop t (fuel + 1) s l =
          (restoreInner t gs s l >>= fun x => restoreLoop t fuel x.1 x.2.2 >>= fun rest =>
            pure (x.2.1 ++ rest)) := by
        intro l
        rw [restoreLoop, moreData_iff, if_pos (by simpa using hp), g1, Ex.ok_bind,
          assert_of (by simp [g2]), Ex.ok_bind]
      rw [g1, Ex.ok_bind, assert_of (by simp [g2]), Ex.ok_bind] at h
      by_cases hn : n < gs.length
      · rw [restoreInner_short t gs s n hn] at h
        cases h
      · obtain ⟨k, rfl⟩ : ∃ k, n = gs.length + k := ⟨n - gs.length, by omega⟩
        rw [← List.replicate_append_replicate, restoreInner_all, Ex.ok_bind] at h
        dsimp only at h
        obtain ⟨rest, hr, h⟩ := Ex.bind_eq_ok.1 h
        cases h
        obtain ⟨i1, i2, i3⟩ := ih (feedAll t s gs) k rest hr
        refine ⟨?_, by rw [List.length_append]; omega, ?_⟩
        · rw [traceLoop, moreData_iff, if_pos (by simpa using hp), g1, Ex.ok_bind,
            assert_of (by simp [g2]), Ex.ok_bind, sharedPrefix_self]
          dsimp only
          rw [if_pos rfl, i1, Ex.ok_bind, List.length_append, ← List.replicate_append_replicate]
          rfl
        · intro m hm
          rw [List.length_append] at hm
          obtain ⟨j, rfl⟩ : ∃ j, m = gs.length + j := ⟨m - gs.length, by omega⟩
          rw [unf, ← List.replicate_append_replicate, restoreInner_all, Ex.ok_bind]
          dsimp only
          rw [i3 j (by omega)]
          rfl
    · rw [if_neg (by simpa using hp)] at h
      cases h
      refine ⟨?_, by simp, ?_⟩
      · rw [traceLoop, moreData_iff, if_neg (by simpa using hp)]
        rfl
      · intro m _
        rw [restoreLoop, moreData_iff, if_neg (by simpa using hp)]
        rfl

end Tracing

/-! ### C89 -/

/-- C89. For every configuration, preroll and data there is exactly one list of codes that emits as many
bytes as there are in the data and whose trace is correct throughout; it is what a trace of correct entries
restores to, and it expands to the data. -/
theorem C89_own_codes (config : Config) (preroll data : List UInt8) (limit : Nat) :
    ∃ a codes, AllRefs.withSixteen preroll data limit = .ok a ∧
      lzExpand 32768 preroll codes = some data ∧
      Tracing.trace codes ⟨config, a⟩ = .ok (List.replicate codes.length .correct) ∧
      (∀ n, codes.length ≤ n → Tracing.restore (List.replicate n .correct) ⟨config, a⟩ = .ok codes) ∧
      ∀ codes' tr, (codes'.map Code.emittedBytes).sum = data.length →
        Tracing.trace codes' ⟨config, a⟩ = .ok tr → (∀ x ∈ tr, x = .correct) → codes' = codes := by
  obtain ⟨a, ha, h⟩ := C44_all_correct config preroll data limit data.length
  obtain ⟨a', ha', _, _, _, hb⟩ := AllRefs.withSixteen_ok preroll data limit
  rw [ha] at ha'; cases ha'
  rcases h with ⟨codes, hr, he⟩ | ⟨hlt, _⟩
  · obtain ⟨h1, h2, h3⟩ := Tracing.restoreLoop_own (t := ⟨config, a⟩) hb _ _ _ _ hr
    refine ⟨a, codes, ha, he, h1, h3, ?_⟩
    intro codes' tr hs ht hc
    have hre : Tracing.restore tr ⟨config, a⟩ = .ok codes' :=
      (C41_exact_partial config preroll data limit codes' a tr hs ha ht).2
        (HintedLiteralsAgree.of_none fun hm => by cases hc _ hm)
    have htr : tr = List.replicate tr.length .correct := List.eq_replicate_iff.2 ⟨rfl, hc⟩
    rw [htr] at hre
    obtain ⟨k1, k2, k3⟩ := Tracing.restoreLoop_own (t := ⟨config, a⟩) hb _ _ _ _ hre
    have e1 := h3 (codes.length + codes'.length) (by omega)
    have e2 := k3 (codes.length + codes'.length) (by omega)
    rw [e1] at e2
    exact (Except.ok.inj e2).symm
  · omega

/-! ### C90 -/

/-- C90. For every data, level and header there is a file with that header and data that is recognised as
made by that level; it round trips. -/
theorem C90_exists (p : Profile) (level : Nat) (h1 : 1 ≤ level) (h9 : level ≤ 9) (hd : GzHeader)
    (hv : hd.Valid) (data : List UInt8) :
    ∃ d codes, DeflateBytes [.fixedHuffman codes] d ∧ lzExpand 32768 [] codes = some data ∧ ∀ rest,
      RunGzip.tryGzip p level (hd.bytes ++ d ++ rest) = .ok () ∧
      RoundTrip.run (hd.bytes ++ d ++ rest) data.length = .ok () := by
  obtain ⟨st, hst⟩ := gzipSettings_some ⟨h1, h9⟩
  obtain ⟨config, hc, hset, hg⟩ := gzip_settings hst
  obtain ⟨a, codes, ha, he, ht, _, _⟩ := C89_own_codes config [] data (st.insert.getD 65535)
  obtain ⟨config', a', hc', ha', ht'⟩ := C70_trace level st hst [] data (st.insert.getD 65535) codes
    (sum_of_expand he)
  rw [hc] at hc'; cases hc'
  rw [ha] at ha'; cases ha'
  rw [ht] at ht'
  have ht' := Except.ok.inj ht'
  have henc : ∀ b ∈ [Block.fixedHuffman codes], Encodable b := by
    intro b hb
    rw [List.mem_singleton.1 hb, C23_fixed_encodable]
    exact refOk_of_expand he
  obtain ⟨bits, hs⟩ := StreamBits.exists (blocks := [.fixedHuffman codes]) (by simp) henc 0
  have hbits : bytesBits (packBits (padded bits)) = padded bits := by
    rw [bytesBits_packBits]
    have : padLen (padded bits).length = 0 := by
      have := padded_length bits
      unfold padLen; omega
    rw [padded, this]; simp
  have hdef : DeflateBytes [.fixedHuffman codes] (packBits (padded bits)) :=
    ⟨bits, StreamBits.mono hs, hbits⟩
  refine ⟨packBits (padded bits), codes, hdef, he, fun rest => ⟨?_, ?_⟩⟩
  · refine (C88_try_gzip p level _).2 ⟨st, hd, _, rest, _, hst, hv, rfl, hdef, ?_⟩
    refine .cons [] _ [] data (by intro d h; cases h) he ?_ (.nil _)
    intro x hx
    change x ∈ refTrace st (st.insert.getD 65535) ([] ++ data) ([] : List UInt8).length [] codes at hx
    rw [← ht'] at hx
    exact (List.mem_replicate.1 hx).2
  · refine (C85_round_trip _ _).2 ⟨hd, _, rest, [.fixedHuffman codes], data, hv, rfl, ⟨bits, hs, hbits⟩,
      ?_, ?_, rfl⟩
    · intro b hb
      rw [List.mem_singleton.1 hb]
      trivial
    · rw [List.flatMap_cons, List.flatMap_nil, List.append_nil]
      exact he

/-- All correct traces with the same settings, window and start belong to one code list. -/
theorem blockTrace_unique (level : Nat) (st : Settings) (hst : gzipSettings level = some st)
    (h u : List UInt8) (codes codes' : List Code)
    (he : lzExpand 32768 h codes = some u) (he' : lzExpand 32768 h codes' = some u)
    (hc : ∀ x ∈ blockTrace st h u codes, x = .correct)
    (hc' : ∀ x ∈ blockTrace st h u codes', x = .correct) : codes = codes' := by
  obtain ⟨config, hcfg, hset, hg⟩ := gzip_settings hst
  obtain ⟨a, own, ha, _, _, _, huniq⟩ := C89_own_codes config (window h) u (st.insert.getD 65535)
  have key : ∀ cs, lzExpand 32768 h cs = some u → (∀ x ∈ blockTrace st h u cs, x = .correct) → cs = own := by
    intro cs he hc
    obtain ⟨config', a', hc', ha', ht'⟩ := C70_trace level st hst (window h) u (st.insert.getD 65535) cs
      (sum_of_expand he)
    rw [hcfg] at hc'; cases hc'
    rw [ha] at ha'; cases ha'
    exact huniq cs _ (sum_of_expand he) ht' hc
  rw [key codes he hc, key codes' he' hc']

theorem guessed_unique (level : Nat) (st : Settings) (hst : gzipSettings level = some st)
    (h x : List UInt8) (blocks blocks' : List Block) (hg : FileGuessed st h blocks)
    (hg' : FileGuessed st h blocks')
    (hx : lzExpand 32768 h (blocks.flatMap lzCodes) = some x)
    (hx' : lzExpand 32768 h (blocks'.flatMap lzCodes) = some x)
    (hl : blocks.map (fun b => ((lzCodes b).map Code.emittedBytes).sum) =
      blocks'.map (fun b => ((lzCodes b).map Code.emittedBytes).sum)) :
    blocks.map lzCodes = blocks'.map lzCodes := by
  induction hg generalizing blocks' x with
  | nil h =>
    cases blocks' with
    | nil => rfl
    | cons b bs => cases hl
  | cons h b bs u hb hu hc hrest ih =>
    cases hg' with
    | nil => cases hl
    | cons _ b' bs' u' hb' hu' hc' hrest' =>
      rw [List.flatMap_cons, lzExpand_append, hu] at hx
      rw [List.flatMap_cons, lzExpand_append, hu'] at hx'
      dsimp only at hx hx'
      cases hv : lzExpand 32768 (h ++ u) (bs.flatMap lzCodes) with
      | none => rw [hv] at hx; cases hx
      | some v =>
        cases hv' : lzExpand 32768 (h ++ u') (bs'.flatMap lzCodes) with
        | none => rw [hv'] at hx'; cases hx'
        | some v' =>
          rw [hv] at hx
          rw [hv'] at hx'
          have hx : some (u ++ v) = some x := hx
          have hx' : some (u' ++ v') = some x := hx'
          rw [List.map_cons, List.map_cons, List.cons.injEq, ← lzExpand_length hu,
            ← lzExpand_length hu'] at hl
          rw [← hx'] at hx
          obtain ⟨rfl, rfl⟩ := List.append_inj (Option.some.inj hx) hl.1
          rw [List.map_cons, List.map_cons, ih v bs' hrest' hv hv' hl.2,
            blockTrace_unique level st hst h u _ _ hu hu' hc hc']

theorem guessed_of_try (p : Profile) (level : Nat) (hd : GzHeader) (hv : hd.Valid) (d rest : List UInt8)
    (blocks : List Block) (hdef : DeflateBytes blocks d)
    (h : RunGzip.tryGzip p level (hd.bytes ++ d ++ rest) = .ok ()) :
    ∃ st, gzipSettings level = some st ∧ FileGuessed st [] blocks := by
  obtain ⟨st, hd', d', rest', blocks', h1, h2, h3, h4, h5⟩ := (C88_try_gzip p level _).1 h
  have a1 := C57_accepted hd hv (d ++ rest)
  have a2 := C57_accepted hd' h2 (d' ++ rest')
  rw [← List.append_assoc] at a1 a2
  rw [← h3, a1] at a2
  have e : d ++ rest = d' ++ rest' := (EStateM.Result.ok.inj a2).2
  have p1 := (parseAll_iff (d ++ rest) blocks rest).2 ⟨d, rfl, hdef⟩
  have p2 := (parseAll_iff (d' ++ rest') blocks' rest').2 ⟨d', rfl, h4⟩
  rw [e, p2] at p1
  cases p1
  exact ⟨st, h1, h5⟩

/-- C90. Two files recognised as made by the same level, with the same data cut into blocks at the same
places, have the same codes in every block, whatever the kinds of blocks, the headers and what follows. -/
theorem C90_unique (p p' : Profile) (level : Nat) (hd hd' : GzHeader) (hv : hd.Valid) (hv' : hd'.Valid)
    (d rest d' rest' x : List UInt8) (blocks blocks' : List Block)
    (hdef : DeflateBytes blocks d) (hdef' : DeflateBytes blocks' d')
    (h : RunGzip.tryGzip p level (hd.bytes ++ d ++ rest) = .ok ())
    (h' : RunGzip.tryGzip p' level (hd'.bytes ++ d' ++ rest') = .ok ())
    (hx : lzExpand 32768 [] (blocks.flatMap lzCodes) = some x)
    (hx' : lzExpand 32768 [] (blocks'.flatMap lzCodes) = some x)
    (hl : blocks.map (fun b => ((lzCodes b).map Code.emittedBytes).sum) =
      blocks'.map (fun b => ((lzCodes b).map Code.emittedBytes).sum)) :
    blocks.map lzCodes = blocks'.map lzCodes := by
  obtain ⟨st, hst, hg⟩ := guessed_of_try p level hd hv d rest blocks hdef h
  obtain ⟨st', hst', hg'⟩ := guessed_of_try p' level hd' hv' d' rest' blocks' hdef' h'
  rw [hst] at hst'; cases hst'
  exact guessed_unique level st hst [] x blocks blocks' hg hg' hx hx' hl

/-- `aaaaaaa` at level 6: the first position is never referred to, so the reference starts after the
second byte. -/
example : (match Config.gzip 6, AllRefs.withSixteen [] [97, 97, 97, 97, 97, 97, 97] 65535 with
    | .ok c, .ok a => Tracing.restore (List.replicate 9 .correct) ⟨c, a⟩
    | _, _ => .error .diverge) = .ok [.literal 97, .literal 97, .reference ⟨1, 2⟩] := by decide +kernel

/-- The file of `example_two` meets the hypotheses of `C90_unique`. -/
example : RunGzip.tryGzip .dev 1 (exampleGz ++ exampleTwo ++ [1, 2]) = .ok () := example_two.2.1

end Rezip
