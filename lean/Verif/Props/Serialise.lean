import Verif.Spec.Deflate
import Verif.Spec.Iter
import Verif.Lemmas.Serialise
import Verif.Props.Parse

/-!
# Properties of serialisation to DEFLATE

C23 – C28.
-/

namespace Rezip

open Spec Parse Huffman Serialise

/-- Some bits, then a block, written to an empty vector. -/
def writeBlock (before : List Bool) (b : Block) : EStateM.Result Fail BitWriter Unit :=
  (do BitWriter.writeBits before; compressedBlock b : EStateM Fail BitWriter Unit)
    (BitWriter.new Sink.vec)

theorem writeBlock_eq (before : List Bool) (b : Block) :
    writeBlock before b = compressedBlock b (BitWriter.writerOf [] before) := by
  unfold writeBlock
  rw [show BitWriter.new Sink.vec = BitWriter.writerOf [] [] from BitWriter.new_eq [],
    ES.bind_ok (BitWriter.writeBits_writerOf [] [] before), List.nil_append]

theorem item_blockBits {bytes : List UInt8} {n : Nat} {b : Block}
    (h : item n (parseDeflate bytes) = some (.ok b)) :
    ∃ off bs, BlockBits LengthSym off b bs := by
  have hw := after_wf n (it := parseDeflate bytes) (BitReader.wf_new bytes)
  unfold item at h
  cases he : (after n (parseDeflate bytes)).ended with
  | true =>
    rcases next_ended hw he with ⟨r, h', _⟩ | ⟨e, r, h', _⟩ <;> rw [h'] at h <;> simp at h
  | false =>
    rcases next_open hw he (off := (8 - (after n (parseDeflate bytes)).inner.bits.length % 8))
      (by omega) with ⟨b', f, bs, r', h', _, hb, _⟩ | ⟨e, r', f, h', _⟩ <;> rw [h'] at h
    · simp only [Option.some.injEq, Except.ok.injEq] at h
      subst h
      exact ⟨_, bs, hb⟩
    · simp at h

/-! ### Examples

Dynamic blocks for `a` followed by a match of length 258 at distance 1; one with the symbol 285, one
with 284 and extra bits 31, whose literal/length code has no symbol 285. -/

def exampleDyn : List UInt8 :=
  [0xed, 0xc0, 0x81, 0x00, 0x00, 0x00, 0x00, 0x80, 0x20, 0xd6, 0xfc, 0x25, 0x16, 0x39, 0x0b]

def exampleDyn284 : List UInt8 :=
  [0xe5, 0xc0, 0x81, 0x00, 0x00, 0x00, 0x00, 0x80, 0x20, 0xd6, 0xfc, 0x25, 0x06, 0x39, 0x7f, 0x01]

/-- The header bits recorded for `exampleDyn`. -/
def exampleTrees : BitVector :=
  { bytes := [29, 56, 16, 0, 0, 0, 0, 16, 196, 154, 191, 196, 34, 7], len := 108 }

/-- The header bits recorded for `exampleDyn284`. -/
def exampleTrees284 : BitVector :=
  { bytes := [28, 56, 16, 0, 0, 0, 0, 16, 196, 154, 191, 196, 32, 7], len := 108 }

theorem exampleDyn_parse : parseAll exampleDyn =
    .ok ([.dynamicHuffman exampleTrees [.literal 0x61, .reference ⟨1, 255⟩]], []) := by
  decide +kernel

theorem exampleDyn284_parse : parseAll exampleDyn284 =
    .ok ([.dynamicHuffman exampleTrees284 [.literal 0x61, .reference ⟨1, 255⟩]], []) := by
  decide +kernel

theorem exampleDyn_recompress : recompress
    [.dynamicHuffman exampleTrees [.literal 0x61, .reference ⟨1, 255⟩]] = .ok exampleDyn := by
  decide +kernel

theorem exampleDyn284_recompress : recompress
    [.dynamicHuffman exampleTrees284 [.literal 0x61, .reference ⟨1, 255⟩]] =
    .error (.panic .unwrap) := by decide +kernel

/-! ### C23 -/

/-- C23 (`_partial`): every non-empty list of encodable blocks can be written, and parsing the
result, whatever follows it, gives back the list and leaves what follows unread. Missing: lists with
a stored block whose length has different high and low bytes (`C23_compress_parse_false`). -/
theorem C23_compress_parse_partial (blocks : List Block) (hne : blocks ≠ [])
    (henc : ∀ b ∈ blocks, Encodable b) (hst : ∀ b ∈ blocks, SwapSafe b) :
    ∃ bytes, recompress blocks = .ok bytes ∧
      ∀ rest, parseAll (bytes ++ rest) = .ok (blocks, rest) := by
  obtain ⟨bits, hs⟩ := StreamBits.exists hne henc 0
  have hl := recompressLoop_ok hs hst [] (acc := []) rfl
  rw [List.nil_append] at hl
  refine ⟨_, recompress_of_loop hl, fun rest => ?_⟩
  refine (parseAll_iff _ _ _).2 ⟨_, rfl, bits, StreamBits.mono hs, ?_⟩
  rw [bytesBits_packBits]
  have : padLen (padded bits).length = 0 := by
    have := padded_length bits
    unfold padLen; omega
  rw [padded, this]
  simp

/-- C23 fails for a stored block of one byte: what is written does not parse. -/
theorem C23_compress_parse_false :
    ¬ ∀ blocks : List Block, blocks ≠ [] → (∀ b ∈ blocks, Encodable b) →
      ∃ bytes, recompress blocks = .ok bytes ∧ parseAll bytes = .ok (blocks, []) := by
  intro h
  obtain ⟨bytes, h1, h2⟩ := h [.uncompressed [5]] (by simp) (by
    intro b hb
    rw [List.mem_singleton.1 hb]
    exact .stored [5] (by simp))
  rw [show recompress [.uncompressed [5]] = .ok [0x01, 0x00, 0x01, 0xff, 0xfe, 0x05] by
    decide +kernel] at h1
  cases h1
  rw [show parseAll [0x01, 0x00, 0x01, 0xff, 0xfe, 0x05] = .error (.err .eof) by decide +kernel] at h2
  cases h2

theorem fixed_codeOk {c : Code} (h : ∀ r, c = .reference r → RefOk r) :
    CodeOk fixedLit (some fixedDist) c := by
  have hlit : ∀ s : Fin 288, codeOf fixedLit s.val ≠ none := by decide +kernel
  have hdist : ∀ s : Fin 32, codeOf fixedDist s.val ≠ none := by decide +kernel
  cases c with
  | literal b =>
    have hb : b.toNat < 256 := b.toNat_lt
    cases hc : codeOf fixedLit b.toNat with
    | none => exact absurd hc (hlit ⟨b.toNat, by omega⟩)
    | some c => exact ⟨c, .literal b c hc⟩
  | reference r =>
    obtain ⟨h1, h2, h3, h4⟩ := h r rfl
    obtain ⟨i, v, hs⟩ := strict_exists h3 h4
    obtain ⟨j, w, hd, _⟩ := encodeDistance_spec h1 h2
    have hi := hs.1.1
    have hj := hd.1
    cases hlc : codeOf fixedLit (257 + i) with
    | none => exact absurd hlc (hlit ⟨257 + i, by omega⟩)
    | some lc =>
      cases hdc : codeOf fixedDist j with
      | none => exact absurd hdc (hdist ⟨j, by omega⟩)
      | some dc => exact ⟨_, .reference r i v j w fixedDist lc dc rfl hs hlc hd hdc⟩

/-- For fixed blocks, being encodable only means that the references are in range. -/
theorem C23_fixed_encodable (codes : List Code) :
    Encodable (.fixedHuffman codes) ↔ ∀ r, Code.reference r ∈ codes → RefOk r := by
  constructor
  · intro h r hr
    cases h with
    | fixed _ hc =>
      obtain ⟨bs, hb⟩ := hc _ hr
      cases hb with
      | reference r i v j w dl lc dc ha hls hlc hds hdc =>
        obtain ⟨h1, h2⟩ := DistSym.range hds
        obtain ⟨h3, h4⟩ := LengthSym.range hls.1
        exact ⟨h1, h2, h3, h4⟩
  · intro h
    refine .fixed codes fun c hc => fixed_codeOk ?_
    rintro r rfl
    exact h r hc

example : ∃ bytes, recompress [.fixedHuffman [.literal 7, .reference ⟨30000, 97⟩],
      .uncompressed [], .fixedHuffman []] = .ok bytes ∧
    ∀ rest, parseAll (bytes ++ rest) = .ok ([.fixedHuffman [.literal 7, .reference ⟨30000, 97⟩],
      .uncompressed [], .fixedHuffman []], rest) := by
  apply C23_compress_parse_partial
  · simp
  · intro b hb
    simp only [List.mem_cons, List.not_mem_nil, or_false] at hb
    rcases hb with rfl | rfl | rfl
    · rw [C23_fixed_encodable]
      intro r hr
      simp only [List.mem_cons, List.not_mem_nil, or_false, reduceCtorEq, Code.reference.injEq,
        false_or] at hr
      subst hr
      unfold RefOk Ref.run; decide
    · exact .stored [] (by simp)
    · rw [C23_fixed_encodable]
      simp
  · intro b hb
    simp only [List.mem_cons, List.not_mem_nil, or_false] at hb
    rcases hb with rfl | rfl | rfl <;> simp [SwapSafe]

/-! ### C24 -/

theorem recompress_strict {blocks : List Block} {d : List UInt8}
    (h : StrictDeflateBytes blocks d) (hst : ∀ b ∈ blocks, SwapSafe b) :
    recompress blocks = .ok d := by
  obtain ⟨bits, hs, hb⟩ := h
  have hl := recompressLoop_ok hs hst [] (acc := []) rfl
  rw [List.nil_append] at hl
  rw [recompress_of_loop hl, ← hb, packBits_bytesBits]

/-- C24 (`_partial`): the full claim is `parseAll (d ++ rest) = .ok (blocks, rest) →
recompress blocks = .ok d`. It holds exactly for the streams that follow the length table of the RFC
and have no stored block whose length has different high and low bytes. Missing: the other streams,
for which this theorem says it is false (concrete ones in `C24_recompress_false`). -/
theorem C24_recompress_partial (d rest : List UInt8) (blocks : List Block)
    (hparse : parseAll (d ++ rest) = .ok (blocks, rest)) :
    recompress blocks = .ok d ↔
      StrictDeflateBytes blocks d ∧ ∀ b ∈ blocks, SwapSafe b := by
  constructor
  · intro h
    obtain ⟨d', hd, bits, hs, hb⟩ := (parseAll_iff _ _ _).1 hparse
    cases List.append_cancel_right hd
    obtain ⟨w, hw⟩ := loop_of_recompress h
    obtain ⟨wb, hw'⟩ := recompressLoop_total (recompressLoop_encodable hs hw) [] []
    rw [List.nil_append] at hw'
    have h2 := recompress_of_loop hw'
    rw [h] at h2
    have h3 : bytesBits d = padded wb := by
      rw [Except.ok.inj h2, bytesBits_packBits]
      have : padLen (padded wb).length = 0 := by
        have := padded_length wb
        unfold padLen; omega
      rw [padded, this]; simp
    rw [hb, padded, padded] at h3
    obtain ⟨s1, s2⟩ := recompressLoop_same hs rfl writerOf_inj hw' h3
    exact ⟨⟨bits, s1, hb⟩, s2⟩
  · rintro ⟨h1, h2⟩
    exact recompress_strict h1 h2

/-- C24 fails: for a stored block, for a fixed block with length 258 written as 284 and 31, and (with
a panic) for a dynamic block with it. -/
theorem C24_recompress_false :
    (parseAll [0x01, 0x01, 0x00, 0xfe, 0xff, 0x05] = .ok ([.uncompressed [5]], []) ∧
      recompress [.uncompressed [5]] = .ok [0x01, 0x00, 0x01, 0xff, 0xfe, 0x05]) ∧
    (parseAll [0x4b, 0x1c, 0xf9, 0x00, 0x00] =
        .ok ([.fixedHuffman [.literal 0x61, .reference ⟨1, 255⟩]], []) ∧
      recompress [.fixedHuffman [.literal 0x61, .reference ⟨1, 255⟩]] =
        .ok [0x4b, 0x1c, 0x05, 0x00]) ∧
    (parseAll exampleDyn284 =
        .ok ([.dynamicHuffman exampleTrees284 [.literal 0x61, .reference ⟨1, 255⟩]], []) ∧
      recompress [.dynamicHuffman exampleTrees284 [.literal 0x61, .reference ⟨1, 255⟩]] =
        .error (.panic .unwrap)) :=
  ⟨by decide +kernel, by decide +kernel, exampleDyn284_parse, exampleDyn284_recompress⟩

/-- The hypothesis and the right hand side are met, e.g., by a dynamic block. -/
example : StrictDeflateBytes [.dynamicHuffman exampleTrees [.literal 0x61, .reference ⟨1, 255⟩]]
    exampleDyn :=
  ((C24_recompress_partial exampleDyn [] _ exampleDyn_parse).1 exampleDyn_recompress).1

/-! ### C25 -/

/-- C25 (`_partial`): a parsed block can be written again, after any bits, if it is stored, fixed,
or has no match of length 258. Missing: dynamic blocks with a match of length 258, see the next two
theorems. -/
theorem C25_reserialise_partial (bytes : List UInt8) (n : Nat) (b : Block)
    (h : item n (parseDeflate bytes) = some (.ok b))
    (h258 : ∀ trees codes, b = .dynamicHuffman trees codes →
      ∀ r, Code.reference r ∈ codes → r.run ≠ 258) (before : List Bool) :
    ∃ w, writeBlock before b = .ok () w := by
  obtain ⟨off, bs, hb⟩ := item_blockBits h
  have henc : Encodable b := by
    cases hb with
    | stored data hd => exact .stored data hd
    | fixed codes bs hc =>
      refine (C23_fixed_encodable codes).2 fun r hr => CodesBits.refOk hc r hr
    | dynamic lit dist alpha codes trees hdr bs hh hc ha ht hcs =>
      have h' : ∀ r, Code.reference r ∈ codes → r.run ≠ 258 := h258 _ _ rfl
      have key : (∀ c ∈ codes, CodeOk lit alpha c) ∧ codeOf lit 256 ≠ none := by
        clear h h258 hc hh ha ht
        induction hcs with
        | nil c hc => exact ⟨by simp, by rw [hc]; simp⟩
        | cons c cs a b h1 _ ih =>
          obtain ⟨i1, i2⟩ := ih (fun r hr => h' r (by simp [hr]))
          refine ⟨?_, i2⟩
          intro x hx
          rcases List.mem_cons.1 hx with rfl | hx
          · cases h1 with
            | literal b _ hc => exact ⟨_, .literal b _ hc⟩
            | reference r i v j w dl lc dc ha hls hlc hds hdc =>
              exact ⟨_, .reference r i v j w dl lc dc ha
                ⟨hls, fun he => absurd he (h' r (by simp))⟩ hlc hds hdc⟩
          · exact i1 x hx
      exact .dynamic lit dist alpha codes trees hdr hh hc ha ht key.2 key.1
  obtain ⟨bs', h1⟩ := compressedBlock_total henc [] before
  exact ⟨_, by rw [writeBlock_eq]; exact h1⟩

/-- C25 (`_partial`): the blocks of a stream that follows the length table of the RFC can all be
written again (stored blocks of any length included). -/
theorem C25_reserialise_strict_partial (blocks : List Block) (d : List UInt8)
    (h : StrictDeflateBytes blocks d) : ∃ out, recompress blocks = .ok out := by
  obtain ⟨bits, hs, hb⟩ := h
  obtain ⟨bits', hl⟩ := recompressLoop_total (StreamBits.encodable hs) [] []
  exact ⟨_, recompress_of_loop hl⟩

/-- C23, exactly: the blocks that survive being written and parsed, even with nothing after them. -/
theorem C23_exact (blocks : List Block) :
    (∃ bytes, recompress blocks = .ok bytes ∧ parseAll bytes = .ok (blocks, [])) ↔
      blocks ≠ [] ∧ (∀ b ∈ blocks, Encodable b) ∧ ∀ b ∈ blocks, SwapSafe b := by
  constructor
  · rintro ⟨bytes, h, hp⟩
    have hp' : parseAll (bytes ++ []) = .ok (blocks, []) := by rw [List.append_nil]; exact hp
    obtain ⟨d', hd, bits, hs, hb⟩ := (parseAll_iff _ _ _).1 hp'
    obtain ⟨w, hw⟩ := loop_of_recompress h
    refine ⟨?_, recompressLoop_encodable hs hw, ((C24_recompress_partial bytes [] blocks hp').1 h).2⟩
    rintro rfl
    cases hs
  · rintro ⟨hne, henc, hst⟩
    obtain ⟨bytes, h1, h2⟩ := C23_compress_parse_partial blocks hne henc hst
    exact ⟨bytes, h1, by have := h2 []; rwa [List.append_nil] at this⟩

/-- C25 fails: this dynamic block parses (length 258 as 284 and 31, no code for 285), and writing it
panics. -/
theorem C25_reserialise_false :
    ∃ bytes blocks, parseAll bytes = .ok (blocks, []) ∧
      recompress blocks = .error (.panic .unwrap) :=
  ⟨_, _, exampleDyn284_parse, exampleDyn284_recompress⟩

/-- Exactly when the blocks of a parsed stream can all be written again. -/
theorem C25_reserialise_iff (bytes rest : List UInt8) (blocks : List Block)
    (h : parseAll bytes = .ok (blocks, rest)) :
    (∃ out, recompress blocks = .ok out) ↔ ∀ b ∈ blocks, Encodable b := by
  obtain ⟨d, rfl, bits, hs, hb⟩ := (parseAll_iff _ _ _).1 h
  constructor
  · rintro ⟨out, ho⟩
    obtain ⟨w, hw⟩ := loop_of_recompress ho
    exact recompressLoop_encodable hs hw
  · intro henc
    obtain ⟨bits', hl⟩ := recompressLoop_total henc [] []
    exact ⟨_, recompress_of_loop hl⟩

example : item 0 (parseDeflate exampleRun) =
    some (.ok (.fixedHuffman [.literal 0x61, .reference ⟨1, 255⟩])) := by decide +kernel
example : ∃ w, writeBlock [true] (.fixedHuffman [.literal 0x61, .reference ⟨1, 255⟩]) = .ok () w :=
  C25_reserialise_partial exampleRun 0 _ (by decide +kernel) (by intro t c h; cases h) _

/-! ### C26 -/

/-- C26. When the header of a dynamic block has been read from any reader, with its bits recorded,
reading the recorded bits again gives the same two decoding tables and uses up all of them. -/
theorem C26_replay (r r' : BitReader) (hw : r.remainingBits ≤ 7)
    (tables : CodeTree × Option CodeTree) (trees : BitVector)
    (h : BitReader.run (readCodes.collect BitVector.new) r = .ok (tables, trees) r') :
    BitProg.runIter readCodes trees.iter = .ok tables { inner := trees, pos := trees.len } := by
  cases hx : readCodes.exec r.bits with
  | ok p rest =>
    obtain ⟨d, hd, hd0⟩ := BitProg.exec_ok_split hx
    have hx' := hx
    rw [hd] at hx'
    have hcol := BitProg.exec_collect_ok (d := []) hx'
    obtain ⟨r2, h2, w2, b2⟩ := BitReader.run_ok (r := r) hw (by rw [hd]; exact hcol)
    rw [BitVector.ofBits_nil, h] at h2
    cases h2
    rw [List.nil_append]
    unfold BitVector.iter
    rw [BitProg.runIter_ok (bs := d) (i := 0) (by omega) hd0]
    simp [BitVector.ofBits]
  | fail e =>
    have hcol := BitProg.exec_collect_fail (d := []) hx
    rw [BitVector.ofBits_nil] at hcol
    obtain ⟨r2, h2, w2⟩ := BitReader.run_fail (r := r) hw hcol
    rw [h] at h2; cases h2
  | starved =>
    have hcol := BitProg.exec_collect_starved (d := []) hx
    rw [BitVector.ofBits_nil] at hcol
    obtain ⟨r2, h2, w2⟩ := BitReader.run_starved (r := r) hw hcol
    rw [h] at h2; cases h2

/-- C26, for the blocks the iterator yields: the recorded bits of a dynamic block can be read again,
are used up, and give the tables of code lengths under which some bits spell the codes. -/
theorem C26_block (bytes : List UInt8) (n : Nat) (trees : BitVector) (codes : List Code)
    (h : item n (parseDeflate bytes) = some (.ok (.dynamicHuffman trees codes))) :
    ∃ lt dt lit alpha bits, BitProg.runIter readCodes trees.iter =
        .ok (lt, dt) { inner := trees, pos := trees.len } ∧
      CodeTree.new lit = .ok lt ∧ alpha.map CodeTree.new = dt.map .ok ∧
      CodesBits LengthSym lit alpha codes bits := by
  obtain ⟨off, bs, hb⟩ := item_blockBits h
  cases hb with
  | dynamic lit dist alpha _ _ hdr bs hh hc ha ht hcs =>
    obtain ⟨lt, dt, hr, hl, hd⟩ := readCodes_complete hh hc ha []
    rw [List.append_nil] at hr
    cases pushAll_eq ht
    refine ⟨lt, dt, lit, alpha, bs, ?_, hl.built, isOptTree_map hd, hcs⟩
    unfold BitVector.iter
    rw [BitProg.runIter_ok (bs := hdr) (i := 0) (by omega) hr]
    simp [BitVector.ofBits]

example : item 0 (parseDeflate exampleDyn) =
    some (.ok (.dynamicHuffman exampleTrees [.literal 0x61, .reference ⟨1, 255⟩])) := by
  decide +kernel

/-! ### C27 -/

theorem TreesOf.codes_eq {b : Block} {lit : List Nat} {alpha : Option (List Nat)}
    (h : TreesOf b lit alpha) (before : List Bool) :
    ∀ cs₁ c cs₂ e, blockCodes b = cs₁ ++ c :: cs₂ →
      (∀ c ∈ cs₁, CodeOk lit alpha c) → ¬ CodeOk lit alpha c →
      (∀ acc', ∃ w, compressedCode (table lit) (alpha.map table) c
        (BitWriter.writerOf [] acc') = .error e w) →
      ∃ w, writeBlock before b = .error e w := by
  intro cs₁ c cs₂ e hcodes h1 hn hc
  have loop : ∀ lt dt, CodeTree.IsTree lit lt → IsOptTree alpha dt → lit.length ≤ 288 →
      (∀ dl, alpha = some dl → dl.length ≤ 288) → ∀ acc,
      ∃ w, compressedCodes lt dt (blockCodes b) (BitWriter.writerOf [] acc) = .error e w := by
    intro lt dt hl hd hlen hdlen acc
    rw [compressedCodes_unfold hl hd hlen hdlen]
    rcases compressedCodesLoop_cases (lit := lit) (alpha := alpha) (blockCodes b) [] acc with
      ⟨hall, _⟩ | ⟨cs₁', c', cs₂', acc', e', w, h2, g1, g2, g3, g4⟩
    · exact absurd (hall c (by rw [hcodes]; simp)) hn
    · -- the first code without bits is the same in both splits
      have : cs₁ = cs₁' ∧ c = c' := by
        rw [hcodes] at h2
        rcases List.append_eq_append_iff.1 h2 with ⟨l, e1, e2⟩ | ⟨l, e1, e2⟩
        · cases l with
          | nil => simp at e1 e2; exact ⟨e1.symm, e2.1⟩
          | cons x l =>
            simp only [List.cons_append, List.cons.injEq] at e2
            exact absurd (g1 c (by rw [e1, e2.1]; simp)) hn
        · cases l with
          | nil => simp at e1 e2; exact ⟨e1, e2.1.symm⟩
          | cons x l =>
            simp only [List.cons_append, List.cons.injEq] at e2
            exact absurd (h1 c' (by rw [e1, e2.1]; simp)) g2
      obtain ⟨_, rfl⟩ := this
      obtain ⟨w', hw'⟩ := hc acc'
      rw [hw'] at g3
      cases g3
      exact ⟨_, ES.bind_err g4⟩
  rw [writeBlock_eq]
  cases h with
  | fixed codes =>
    obtain ⟨lt, hlt, hl⟩ := fixedLengthTree_ok
    obtain ⟨dt, hdt, hd⟩ := fixedDistanceTree_ok
    rw [compressedBlock, ES.bind_ok (BitWriter.writeBitsVal_writerOf [] before (by omega)), hlt,
      ES.liftE_bind_ok, hdt, ES.liftE_bind_ok]
    exact loop lt (some dt) hl hd (by rw [fixedLit_length]; omega)
      (by intro dl h; cases h; rw [fixedDist_length]; omega) _
  | dynamic lit dist alpha codes trees hdr extra hh hcl ha hp =>
    cases pushAll_eq hp
    obtain ⟨lt, dt, hr, hl, hd⟩ := readCodes_complete hh hcl ha extra
    obtain ⟨hlen, hdl⟩ := header_length hh
    rw [compressedBlock, ES.bind_ok (BitWriter.writeBitsVal_writerOf [] before (by omega)),
      ES.bind_ok (BitWriter.writeVec_writerOf [] _ _), readCodesOf_ok hr, ES.liftE_bind_ok]
    exact loop lt dt hl hd hlen (alpha_length ha hdl) _

/-- C27 (`_partial`): if the first code of a block that its trees cannot express is a literal, writing
the block returns an error. -/
theorem C27_literal_partial (b : Block) (lit : List Nat) (alpha : Option (List Nat))
    (ht : TreesOf b lit alpha) (cs₁ cs₂ : List Code) (x : UInt8)
    (hc : blockCodes b = cs₁ ++ .literal x :: cs₂) (h1 : ∀ c ∈ cs₁, CodeOk lit alpha c)
    (hx : ¬ CodeOk lit alpha (.literal x)) (before : List Bool) :
    ∃ w, writeBlock before b = .error (.err .invalidLiteral) w := by
  have h := TreesOf.codes_eq ht before
  refine h cs₁ _ cs₂ _ hc h1 hx fun acc => ?_
  rcases compressedCode_cases (lit := lit) (alpha := alpha) (.literal x) [] acc with
    ⟨bs, h1, h2⟩ | ⟨e, w, he, _, hk⟩
  · exact absurd ⟨bs, h1⟩ hx
  · rcases hk with ⟨b, _, rfl⟩ | ⟨r, h, _⟩ | ⟨r, h, _⟩ | ⟨r, h, _⟩
    · exact ⟨w, he⟩
    all_goals cases h

/-- C27 (`_partial`): if it is a reference whose length is expressible, in a block without distance
codes, writing the block returns an error. -/
theorem C27_no_distance_partial (b : Block) (lit : List Nat) (ht : TreesOf b lit none)
    (cs₁ cs₂ : List Code) (r : Ref) (hc : blockCodes b = cs₁ ++ .reference r :: cs₂)
    (h1 : ∀ c ∈ cs₁, CodeOk lit none c) (hr : RefOk r) (i v : Nat)
    (hi : StrictLengthSym r.run i v) (hl : codeOf lit (257 + i) ≠ none) (before : List Bool) :
    ∃ w, writeBlock before b = .error (.err .noDistanceTree) w := by
  have h := TreesOf.codes_eq ht before
  refine h cs₁ _ cs₂ _ hc h1 ?_ fun acc => ?_
  · rintro ⟨bs, hb⟩
    cases hb with
    | reference _ _ _ _ _ _ _ _ ha => cases ha
  · cases hlc : codeOf lit (257 + i) with
    | none => exact absurd hlc hl
    | some lc =>
      rw [compressedCode, ES.bind_ok (encodeRun_ok hi hlc [] acc)]
      exact ⟨_, encodeDistance_notree hr.1 hr.2.1 _⟩

/-- C27: nothing is written silently wrong. If writing a block of codes succeeds (whatever its codes
and recorded bits are), its trees express every code and the end of block symbol. -/
theorem C27_written_expressible (before : List Bool) (b : Block) (w : BitWriter)
    (h : writeBlock before b = .ok () w) (hd : ∀ data, b ≠ .uncompressed data)
    (hb : ∀ trees codes, b = .dynamicHuffman trees codes →
      ∃ bits, pushAll bits BitVector.new = .ok trees) :
    ∃ lit alpha, TreesOf b lit alpha ∧ codeOf lit 256 ≠ none ∧
      ∀ c ∈ blockCodes b, CodeOk lit alpha c := by
  rw [writeBlock_eq] at h
  rcases compressedBlock_inv h hb with ⟨data, rfl, _⟩ | ⟨lit, alpha, bs, h1, h2⟩
  · exact absurd rfl (hd data)
  · exact ⟨lit, alpha, h1, (CodesBits.ok h2).2, (CodesBits.ok h2).1⟩

/-- C27 fails: a length symbol, or a distance symbol, missing from the trees gives a panic. (The
recorded bits announce the literal `a`, the end of block, the length symbol 285 and the distance
symbol 0.) -/
theorem C27_unencodable_false :
    (∃ w, writeBlock [] (.dynamicHuffman exampleTrees [.reference ⟨1, 0⟩]) =
      .error (.panic .unwrap) w) ∧
    (∃ w, writeBlock [] (.dynamicHuffman exampleTrees [.reference ⟨2, 255⟩]) =
      .error (.panic .unwrap) w) := by
  have key : ∀ b : Block, (match writeBlock [] b with
      | .error (.panic .unwrap) _ => true
      | _ => false) = true → ∃ w, writeBlock [] b = .error (.panic .unwrap) w := by
    intro b hb
    split at hb
    · rename_i w h; exact ⟨w, h⟩
    · cases hb
  exact ⟨key _ (by decide +kernel), key _ (by decide +kernel)⟩

/-- ... while a missing literal gives an error. -/
example : (match writeBlock [] (.dynamicHuffman exampleTrees [.literal 0x62]) with
    | .error (.err .invalidLiteral) _ => true
    | _ => false) = true := by decide +kernel

/-! ### C28 -/

/-- C28 (`_partial`): the estimate for a code that the trees express is the number of bits written
for it, minus the extra bits of the run length. So it is exact for literals, and for matches of
length 3 to 10 and 258. Missing: matches of length 11 to 257, where it is wrong (`C28_estimate_false`). -/
theorem C28_estimate_partial (lit dist : List Nat) (lt dt : CodeTree) (hl : CodeTree.new lit = .ok lt)
    (hd : CodeTree.new dist = .ok dt) (hl288 : lit.length ≤ 288) (hd288 : dist.length ≤ 288)
    (hl15 : ∀ l ∈ lit, l ≤ 15) (hd15 : ∀ l ∈ dist, l ≤ 15) (c : Code)
    (hc : CodeOk lit (some dist) c) (before : List Bool) :
    ∃ L n tl td bits, Lengths.new lt dt = .ok L ∧ L.lengthOf c = .ok (some n) ∧
      lt.invert = .ok tl ∧ dt.invert = .ok td ∧
      (do BitWriter.writeBits before; compressedCode tl (some td) c : EStateM Fail BitWriter Unit)
        (BitWriter.new Sink.vec) = BitWriter.writeBits (before ++ bits) (BitWriter.new Sink.vec) ∧
      bits.length = n + codeRunExtra c := by
  obtain ⟨bits, hb⟩ := hc
  have tl : CodeTree.IsTree lit lt := ⟨by omega, hl15, hl⟩
  have td : CodeTree.IsTree dist dt := ⟨by omega, hd15, hd⟩
  obtain ⟨m, hm⟩ := Lengths.new_eq tl td hl288 hd288
  obtain ⟨n, h1, h2⟩ := lengthOf_some hl15 hd15 hb m
  refine ⟨_, n, _, _, bits, hm, h1, invert_table tl hl288, invert_table td hd288, ?_, h2⟩
  rw [show BitWriter.new Sink.vec = BitWriter.writerOf [] [] from BitWriter.new_eq [],
    ES.bind_ok (BitWriter.writeBits_writerOf [] [] before), BitWriter.writeBits_writerOf]
  have := compressedCode_ok hb [] before
  simpa using this

/-- The estimate is absent exactly for codes in range that the trees do not express. -/
theorem C28_estimate_none (lit dist : List Nat) (lt dt : CodeTree) (hl : CodeTree.new lit = .ok lt)
    (hd : CodeTree.new dist = .ok dt) (hl288 : lit.length ≤ 288) (hd288 : dist.length ≤ 288)
    (hl15 : ∀ l ∈ lit, l ≤ 15) (hd15 : ∀ l ∈ dist, l ≤ 15) (c : Code)
    (hr : ∀ r, c = .reference r → RefOk r) :
    ∃ L, Lengths.new lt dt = .ok L ∧
      (L.lengthOf c = .ok none ↔ ¬ CodeOk lit (some dist) c) := by
  have tl : CodeTree.IsTree lit lt := ⟨by omega, hl15, hl⟩
  have td : CodeTree.IsTree dist dt := ⟨by omega, hd15, hd⟩
  obtain ⟨m, hm⟩ := Lengths.new_eq tl td hl288 hd288
  refine ⟨_, hm, ?_, fun h => lengthOf_none hr h m⟩
  rintro h ⟨bs, hb⟩
  obtain ⟨n, h1, _⟩ := lengthOf_some hl15 hd15 hb m
  rw [h1] at h
  cases h

/-- C28 fails for a match of length 11 at distance 1 in the fixed codes: estimated 12 bits, written
13. -/
theorem C28_estimate_false :
    ∃ lt dt L tl td, fixedLengthTree = .ok lt ∧ fixedDistanceTree = .ok dt ∧
      Lengths.new lt dt = .ok L ∧ lt.invert = .ok tl ∧ dt.invert = .ok td ∧
      L.lengthOf (.reference ⟨1, 8⟩) = .ok (some 12) ∧
      ∃ bits, bits.length = 13 ∧
        compressedCode tl (some td) (.reference ⟨1, 8⟩) (BitWriter.new Sink.vec) =
          BitWriter.writeBits bits (BitWriter.new Sink.vec) := by
  obtain ⟨lt, hlt, hl⟩ := fixedLengthTree_ok
  obtain ⟨dt, hdt, hd⟩ := fixedDistanceTree_ok
  have hr : RefOk ⟨1, 8⟩ := by unfold RefOk Ref.run; decide
  obtain ⟨bits, hb⟩ := fixed_codeOk (c := .reference ⟨1, 8⟩)
    (by rintro r h; cases h; exact hr)
  obtain ⟨m, hm⟩ := Lengths.new_eq hl hd (by rw [fixedLit_length]; omega)
    (by rw [fixedDist_length]; omega)
  have hlen : bits.length = 13 := by
    have : CodeBits StrictLengthSym fixedLit (some fixedDist) (.reference ⟨1, 8⟩)
        (([false, false, false, true, false, false, true] ++ lsbBits 1 0) ++
          ([false, false, false, false, false] ++ lsbBits 0 0)) :=
      .reference ⟨1, 8⟩ 8 0 0 0 fixedDist _ _ rfl
        ⟨by unfold LengthSym; decide, by decide⟩ (by decide +kernel)
        (by unfold DistSym; decide) (by decide +kernel)
    rw [CodeBits.unique hb this]
    rfl
  obtain ⟨n, h1, h2⟩ := lengthOf_some hl.le15 hd.le15 hb m
  have hn : n = 12 := by
    have : codeRunExtra (.reference ⟨1, 8⟩) = 1 := by decide
    simp only [this, hlen] at h2
    omega
  subst hn
  refine ⟨lt, dt, _, _, _, hlt, hdt, hm, invert_table hl (by rw [fixedLit_length]; omega),
    invert_table hd (by rw [fixedDist_length]; omega), h1, bits, hlen, ?_⟩
  rw [show BitWriter.new Sink.vec = BitWriter.writerOf [] [] from BitWriter.new_eq [],
    BitWriter.writeBits_writerOf]
  exact compressedCode_ok hb [] []

example : CodeOk fixedLit (some fixedDist) (.reference ⟨20000, 255⟩) :=
  fixed_codeOk (by rintro r h; cases h; unfold RefOk Ref.run; decide)

end Rezip
