import Verif.Spec.EndToEnd
import Verif.Props.Trace
import Verif.Props.Serialise

/-!
# C63: from a stream to data and traces and back
-/

namespace Rezip

open Rezip.Spec Parse Serialise

/-- What the tracer returns can be written, read back and restored: it has checked so. -/
theorem try_restores {config : Config} {preroll data : List UInt8} {codes : List Code} {tr : List Trace}
    (h : Tracer.try_ config preroll data codes = .ok tr) :
    ∃ bytes refs, SerialiseTrace.write tr = .ok bytes ∧ SerialiseTrace.read bytes = .ok tr ∧
      AllRefs.withSixteen preroll data (config.wams.insertOnlyBelowLength.getD 65535) = .ok refs ∧
      Tracing.restore tr { config := config, allRefs := refs } = .ok codes := by
  rw [Tracer.try_] at h
  obtain ⟨refs, h1, h⟩ := Ex.bind_eq_ok.1 h
  obtain ⟨tr1, h2, h⟩ := Ex.bind_eq_ok.1 h
  obtain ⟨bytes, h3, h⟩ := Ex.bind_eq_ok.1 h
  cases h
  rw [Tracing.validate] at h2
  obtain ⟨tr2, h4, h2⟩ := Ex.bind_eq_ok.1 h2
  obtain ⟨cs, h5, h2⟩ := Ex.bind_eq_ok.1 h2
  obtain ⟨u, h6, h2⟩ := Ex.bind_eq_ok.1 h2
  cases h2
  have hc : codes = cs := by
    unfold assert at h6
    split at h6
    · rename_i he
      exact beq_iff_eq.1 he
    · cases h6
  subst hc
  rw [SerialiseTrace.verify] at h3
  obtain ⟨d, h7, h3⟩ := Ex.bind_eq_ok.1 h3
  refine ⟨d, refs, h7, ?_, h1, h5⟩
  cases hr : SerialiseTrace.read d with
  | error e => rw [hr] at h3; cases e <;> cases h3
  | ok back =>
    rw [hr] at h3
    dsimp only at h3
    obtain ⟨u, h8, h3⟩ := Ex.bind_eq_ok.1 h3
    unfold assert at h8
    split at h8
    · rename_i he
      rw [beq_iff_eq.1 he]
    · cases h8

theorem tryGzip_codes {level : Nat} {preroll data : List UInt8} {codes : List Code} {tr : List Trace}
    (h : Tracer.tryGzip level preroll data codes = .ok tr) :
    ∃ bytes, SerialiseTrace.write tr = .ok bytes ∧ Part.codes level preroll data bytes = .ok codes := by
  rw [Tracer.tryGzip] at h
  obtain ⟨config, hc, h⟩ := Ex.bind_eq_ok.1 h
  obtain ⟨bytes, refs, h1, h2, h3, h4⟩ := try_restores h
  refine ⟨bytes, h1, ?_⟩
  rw [Part.codes, h2, Ex.ok_bind, hc, Ex.ok_bind, h3, Ex.ok_bind, h4]

/-- One block. -/
theorem Part.block_of {level : Nat} {preroll data : List UInt8} {b : Block} {p : Part}
    (h : Part.ofBlock level preroll data b = .ok p) : p.block level = .ok b := by
  cases b with
  | uncompressed d => cases h; rfl
  | fixedHuffman codes =>
    rw [Part.ofBlock] at h
    obtain ⟨tr, h1, h⟩ := Ex.bind_eq_ok.1 h
    obtain ⟨bytes, h2, h⟩ := Ex.bind_eq_ok.1 h
    cases h
    obtain ⟨bytes', h3, h4⟩ := tryGzip_codes h1
    rw [h2] at h3
    cases h3
    rw [Part.block, h4]
    rfl
  | dynamicHuffman trees codes =>
    rw [Part.ofBlock] at h
    obtain ⟨tr, h1, h⟩ := Ex.bind_eq_ok.1 h
    obtain ⟨bytes, h2, h⟩ := Ex.bind_eq_ok.1 h
    cases h
    obtain ⟨bytes', h3, h4⟩ := tryGzip_codes h1
    rw [h2] at h3
    cases h3
    rw [Part.block, h4]
    rfl

/-- C63, the way back: whenever tracing the blocks of a parsed stream succeeded, at any level and with any
prerolls, the parts give back the exact bytes of the stream (under the conditions of C24: length 258
encoded the usual way, and no stored block whose length reads differently with its bytes swapped). -/
theorem C63_recreate (level : Nat) (d rest : List UInt8)
    (inputs : List (Block × List UInt8 × List UInt8)) (parts : List Part)
    (hp : parseAll (d ++ rest) = .ok (inputs.map Prod.fst, rest))
    (hs : StrictDeflateBytes (inputs.map Prod.fst) d) (hsw : ∀ b ∈ inputs.map Prod.fst, SwapSafe b)
    (hd : describe level inputs = .ok parts) : recreate level parts = .ok d := by
  have key : ∀ (inputs : List (Block × List UInt8 × List UInt8)) (parts : List Part),
      describe level inputs = .ok parts → partBlocks level parts = .ok (inputs.map Prod.fst) := by
    intro inputs
    induction inputs with
    | nil => intro parts h; cases h; rfl
    | cons x xs ih =>
      obtain ⟨b, pre, data⟩ := x
      intro parts h
      rw [describe] at h
      obtain ⟨p, h1, h⟩ := Ex.bind_eq_ok.1 h
      obtain ⟨ps, h2, h⟩ := Ex.bind_eq_ok.1 h
      cases h
      rw [partBlocks, Part.block_of h1, Ex.ok_bind, ih ps h2]
      rfl
  rw [recreate, key inputs parts hd, Ex.ok_bind]
  exact (C24_recompress_partial d rest _ hp).2 ⟨hs, hsw⟩

theorem LiteralsAgree.shift {h d : List UInt8} {pos : Nat} {codes : List Code}
    (hl : LiteralsAgree (h ++ d) (h.length + pos) codes) : LiteralsAgree d pos codes := by
  induction codes generalizing pos with
  | nil => trivial
  | cons c cs ih =>
    cases c with
    | literal b =>
      refine ⟨?_, ih hl.2⟩
      have := hl.1
      rwa [List.getElem?_append_right (by omega), Nat.add_sub_cancel_left] at this
    | reference r => exact ih (by rw [← Nat.add_assoc]; exact hl)

theorem refOk_of_expand {h x : List UInt8} {codes : List Code}
    (he : lzExpand 32768 h codes = some x) : ∀ r, Code.reference r ∈ codes → RefOk r := by
  induction codes generalizing h x with
  | nil => intro r hr; cases hr
  | cons c cs ih =>
    intro r hr
    rw [lzExpand] at he
    cases hc : lzCode 32768 h c with
    | none => rw [hc] at he; cases he
    | some u =>
      rw [hc] at he
      dsimp only at he
      cases hx : lzExpand 32768 (h ++ u) cs with
      | none => rw [hx] at he; cases he
      | some v =>
        rcases List.mem_cons.1 hr with rfl | hr
        · rw [lzCode] at hc
          split at hc
          · rename_i hd
            exact ⟨hd.1, by omega, r.three_le_run, r.run_le⟩
          · cases hc
        · exact ih hx r hr

/-- A block after any history can be traced on its own. -/
theorem Part.ofBlock_ok (level : Nat) (h1 : 1 ≤ level) (h9 : level ≤ 9) (h x : List UInt8) (b : Block)
    (he : lzExpand 32768 h (lzCodes b) = some x) :
    ∃ p, Part.ofBlock level [] x b = .ok p ∧ p.data = x := by
  have hg : ∃ tr, Tracer.tryGzip level [] x (lzCodes b) = .ok tr ∧ tr.length = (lzCodes b).length := by
    refine C43_try_gzip level h1 h9 x _ (sum_of_expand he) ?_ (refOk_of_expand he)
    have := LiteralsAgree.of_expand he []
    rw [List.append_nil] at this
    exact LiteralsAgree.shift (h := h) (by simpa using this)
  obtain ⟨tr, ht, _⟩ := hg
  obtain ⟨bytes, hb, _⟩ := tryGzip_codes ht
  cases b with
  | uncompressed d =>
    refine ⟨.stored d, rfl, ?_⟩
    show d = x
    have key : ∀ (l h : List UInt8), lzExpand 32768 h (l.map .literal) = some l := by
      intro l
      induction l with
      | nil => intro h; rfl
      | cons a l ih =>
        intro h
        rw [List.map_cons, lzExpand, lzCode]
        dsimp only
        rw [ih]
        rfl
    have := key d h
    rw [show d.map Code.literal = lzCodes (.uncompressed d) from rfl, he] at this
    exact (Option.some.inj this).symm
  | fixedHuffman codes =>
    refine ⟨.fixed [] x bytes, ?_, rfl⟩
    rw [Part.ofBlock, show codes = lzCodes (.fixedHuffman codes) from rfl, ht, Ex.ok_bind, hb]
    rfl
  | dynamicHuffman trees codes =>
    refine ⟨.dynamic trees [] x bytes, ?_, rfl⟩
    rw [Part.ofBlock, show codes = lzCodes (.dynamicHuffman trees codes) from rfl, ht, Ex.ok_bind, hb]
    rfl

theorem lzExpand_split {W : Nat} {h x : List UInt8} {a b : List Code}
    (he : lzExpand W h (a ++ b) = some x) :
    ∃ u v, lzExpand W h a = some u ∧ lzExpand W (h ++ u) b = some v ∧ x = u ++ v := by
  induction a generalizing h x with
  | nil => exact ⟨[], x, rfl, by rw [List.append_nil]; exact he, rfl⟩
  | cons c cs ih =>
    rw [List.cons_append, lzExpand] at he
    cases hc : lzCode W h c with
    | none => rw [hc] at he; cases he
    | some y =>
      rw [hc] at he
      dsimp only at he
      cases hx : lzExpand W (h ++ y) (cs ++ b) with
      | none => rw [hx] at he; cases he
      | some z =>
        rw [hx] at he
        cases he
        obtain ⟨u, v, h1, h2, rfl⟩ := ih hx
        refine ⟨y ++ u, v, ?_, ?_, by rw [List.append_assoc]⟩
        · rw [lzExpand, hc]
          dsimp only
          rw [h1]
        · rw [← List.append_assoc]
          exact h2

/-- C63, both ways. For every parsed stream whose references are within the window, and every level, the
blocks can be traced, each on its own (without a preroll). The data kept is the decompressed stream, and
together with the framing and the serialised traces it gives back the exact bytes of the stream, under
the conditions of C24. -/
theorem C63_end_to_end (level : Nat) (h1 : 1 ≤ level) (h9 : level ≤ 9) (d rest x : List UInt8)
    (blocks : List Block) (hp : parseAll (d ++ rest) = .ok (blocks, rest))
    (hs : StrictDeflateBytes blocks d) (hsw : ∀ b ∈ blocks, SwapSafe b)
    (hx : lzExpand 32768 [] (blocks.flatMap lzCodes) = some x) :
    ∃ inputs parts, inputs.map Prod.fst = blocks ∧ (∀ i ∈ inputs, i.2.1 = []) ∧
      describe level inputs = .ok parts ∧ (parts.map Part.data).flatten = x ∧
      recreate level parts = .ok d := by
  have key : ∀ (blocks : List Block) (h x : List UInt8),
      lzExpand 32768 h (blocks.flatMap lzCodes) = some x →
      ∃ inputs parts, inputs.map Prod.fst = blocks ∧ (∀ i ∈ inputs, i.2.1 = []) ∧
        describe level inputs = .ok parts ∧ (parts.map Part.data).flatten = x := by
    intro blocks
    induction blocks with
    | nil =>
      intro h x hx
      cases hx
      exact ⟨[], [], rfl, by simp, rfl, rfl⟩
    | cons b bs ih =>
      intro h x hx
      rw [List.flatMap_cons] at hx
      obtain ⟨u, v, hu, hv, rfl⟩ := lzExpand_split hx
      obtain ⟨p, p1, p2⟩ := Part.ofBlock_ok level h1 h9 h u b hu
      obtain ⟨inputs, parts, i1, i2, i3, i4⟩ := ih _ v hv
      refine ⟨(b, [], u) :: inputs, p :: parts, by rw [List.map_cons, i1], ?_, ?_, ?_⟩
      · intro i hi
        rcases List.mem_cons.1 hi with rfl | hi
        · rfl
        · exact i2 i hi
      · rw [describe, p1, Ex.ok_bind, i3]
        rfl
      · rw [List.map_cons, List.flatten_cons, i4, p2]
  obtain ⟨inputs, parts, i1, i2, i3, i4⟩ := key blocks [] x hx
  refine ⟨inputs, parts, i1, i2, i3, i4, ?_⟩
  subst i1
  exact C63_recreate level d rest inputs parts hp hs hsw i3

/-- C63 for one compressed block, as stated: nothing else is needed. -/
theorem C63_one_block (level : Nat) (h1 : 1 ≤ level) (h9 : level ≤ 9) (d rest x : List UInt8)
    (b : Block) (hp : parseAll (d ++ rest) = .ok ([b], rest)) (hs : StrictDeflateBytes [b] d)
    (hb : ∀ data, b ≠ .uncompressed data) (hx : lzExpand 32768 [] (lzCodes b) = some x) :
    ∃ p, Part.ofBlock level [] x b = .ok p ∧ recreate level [p] = .ok d := by
  obtain ⟨p, p1, _⟩ := Part.ofBlock_ok level h1 h9 [] x b hx
  refine ⟨p, p1, C63_recreate level d rest [(b, [], x)] [p] hp hs ?_ ?_⟩
  · intro b' hb'
    rw [List.map_singleton, List.mem_singleton] at hb'
    rw [hb']
    dsimp only
    cases b with
    | uncompressed d => exact absurd rfl (hb d)
    | fixedHuffman codes => trivial
    | dynamicHuffman t c => trivial
  · rw [describe, p1]
    rfl

/-- A dynamic block with a reference. -/
example : ∃ p, Part.ofBlock 6 [] (List.replicate 259 0x61)
      (.dynamicHuffman exampleTrees [.literal 0x61, .reference ⟨1, 255⟩]) = .ok p ∧
    recreate 6 [p] = .ok exampleDyn :=
  C63_one_block 6 (by decide) (by decide) exampleDyn [] _ _ exampleDyn_parse
    ((C24_recompress_partial exampleDyn [] _ exampleDyn_parse).1 exampleDyn_recompress).1
    (by intro d h; cases h) (by decide +kernel)

end Rezip
