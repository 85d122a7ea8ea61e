import Verif.Lemmas.Header
import Verif.Lemmas.BitReader

/-!
# C07–C16: prefix codes, run lengths, distances, dynamic headers
-/

namespace Rezip

open Spec

/-! ## C07 -/

/-- C07. Building a tree succeeds exactly for complete codes, and otherwise reports an error (no
panic, no divergence). -/
theorem C07_new_iff_complete (lens : List Nat) (h2 : 2 ≤ lens.length)
    (hl : lens.length ≤ 65536) (h15 : ∀ l ∈ lens, l ≤ 15) :
    (Complete lens → ∃ t, CodeTree.new lens = .ok t) ∧
    (¬ Complete lens → ∃ e, CodeTree.new lens = .error (.err e)) := by
  refine ⟨(CodeTree.new_ok_iff_complete h2 hl h15).2, fun hn => ?_⟩
  cases h : CodeTree.new lens with
  | ok t => exact absurd ((CodeTree.new_ok_iff_complete h2 hl h15).1 ⟨t, h⟩) hn
  | error e =>
    obtain ⟨x, rfl⟩ := CodeTree.new_error hl h
    exact ⟨x, rfl⟩

/-- C07, shorter lists: fewer than two code lengths are always an error. -/
theorem C07_too_few (lens : List Nat) (h : lens.length < 2) :
    CodeTree.new lens = .error (.err .tooFewLengths) := by
  unfold CodeTree.new
  have : decide (lens.length ≥ 2) = false := by simp; omega
  rw [this]
  rfl

example : Complete [2, 1, 0, 2] ∧ ¬ Complete [2, 1, 2, 2] ∧ ¬ Complete [2, 1, 3] := by
  unfold Complete; decide +kernel

example : CodeTree.new [2, 1, 0, 2] = .ok
    { left := .leaf 1, right := .internal (.leaf 0) (.leaf 3) } := by decide +kernel

example : CodeTree.new [2, 1, 2, 2] = .error (.err .notATree) := by decide +kernel

/-! ## C08 -/

/-- C08. The table of codes (`invert`) has an entry exactly for the symbols of non-zero length, and
the bits of each entry are the canonical RFC 1951 code. -/
theorem C08_canonical (lens : List Nat) (hl : lens.length ≤ 288) (h15 : ∀ l ∈ lens, l ≤ 15)
    (t : CodeTree) (ht : CodeTree.new lens = .ok t) :
    ∃ table, t.invert = .ok table ∧ table.length = 288 ∧
      (∀ s < 288, lens.getD s 0 = 0 → table[s]? = some none) ∧
      (∀ s < 288, lens.getD s 0 ≠ 0 → ∃ v, table[s]? = some (some v) ∧
        v.toBits = .ok (msbBits (lens.getD s 0) (codeValue lens s))) := by
  have hT : CodeTree.IsTree lens t := ⟨by omega, h15, ht⟩
  refine ⟨_, hT.invert hl, by simp, ?_, ?_⟩
  · intro s hs h0
    rw [List.getElem?_map, List.getElem?_range hs]
    simp [codeOf, -List.getD_eq_getElem?_getD, h0]
  · intro s hs h0
    refine ⟨BitVector.ofBits (msbBits (lens.getD s 0) (codeValue lens s)), ?_,
      BitVector.toBits_ofBits _⟩
    rw [List.getElem?_map, List.getElem?_range hs]
    simp [codeOf, -List.getD_eq_getElem?_getD, h0]

/-- The RFC's own example (3.2.2): lengths (3, 3, 3, 3, 3, 2, 4, 4) for A to H. -/
example : (List.range 8).map (codeOf [3, 3, 3, 3, 3, 2, 4, 4]) =
    [some [false, true, false], some [false, true, true], some [true, false, false],
     some [true, false, true], some [true, true, false], some [false, false],
     some [true, true, true, false], some [true, true, true, true]] := by decide +kernel

example : (CodeTree.new [3, 3, 3, 3, 3, 2, 4, 4]).isOk = true := by decide +kernel

/-! ## C09 -/

theorem invert_entry {lens : List Nat} (hl : lens.length ≤ 288) {t : CodeTree}
    (hT : CodeTree.IsTree lens t)
    {table : List (Option BitVector)} (hi : t.invert = .ok table) {s : Nat} {v : BitVector}
    (hs : table[s]? = some (some v)) :
    s < 288 ∧ ∃ c, codeOf lens s = some c ∧ v = BitVector.ofBits c := by
  rw [hT.invert hl, Except.ok.injEq] at hi
  subst hi
  rw [List.getElem?_map, Option.map_eq_some_iff] at hs
  obtain ⟨s', hs', h⟩ := hs
  have hlt : s < 288 := by
    have := List.getElem?_eq_some_iff.1 hs'
    simpa using this.1
  rw [List.getElem?_range hlt, Option.some.injEq] at hs'
  subst hs'
  rw [Option.map_eq_some_iff] at h
  obtain ⟨c, h1, h2⟩ := h
  exact ⟨hlt, c, h1, h2.symm⟩

/-- C09, decoding a code: the bits of a symbol's code, followed by anything, decode to the symbol
and leave what follows. -/
theorem C09_decode_encode (lens : List Nat) (hl : lens.length ≤ 288) (h15 : ∀ l ∈ lens, l ≤ 15)
    (t : CodeTree) (ht : CodeTree.new lens = .ok t) (table : List (Option BitVector))
    (hi : t.invert = .ok table) (s : Nat) (v : BitVector) (hs : table[s]? = some (some v)) :
    ∃ c, v.toBits = .ok c ∧ ∀ (r : BitReader) (rest : List Bool), r.WF → r.bits = c ++ rest →
      ∃ r', BitReader.run t.decodeSymbol r = .ok s r' ∧ r'.WF ∧ r'.bits = rest := by
  have hT : CodeTree.IsTree lens t := ⟨by omega, h15, ht⟩
  obtain ⟨_, c, hc, rfl⟩ := invert_entry hl hT hi hs
  refine ⟨c, BitVector.toBits_ofBits c, fun r rest hw hb => ?_⟩
  exact BitReader.run_ok hw (by rw [hb]; exact hT.decode hc rest)

/-- C09, converse: whatever decoding returns, the bits consumed are the code of that symbol; the
only other outcome is running out of input. -/
theorem C09_encode_decode (lens : List Nat) (hl : lens.length ≤ 288) (h15 : ∀ l ∈ lens, l ≤ 15)
    (t : CodeTree) (ht : CodeTree.new lens = .ok t) (r : BitReader) (hw : r.WF) :
    (∃ s r' v c table, BitReader.run t.decodeSymbol r = .ok s r' ∧ t.invert = .ok table ∧
      table[s]? = some (some v) ∧ v.toBits = .ok c ∧ r.bits = c ++ r'.bits ∧ r'.WF) ∨
    (∃ r', BitReader.run t.decodeSymbol r = .error (.err .eof) r') := by
  have hT : CodeTree.IsTree lens t := ⟨by omega, h15, ht⟩
  cases hd : t.decodeSymbol.exec r.bits with
  | ok s rest =>
    obtain ⟨c, hc, hb⟩ := hT.decode_inv hd
    obtain ⟨r', h1, h2, h3⟩ := BitReader.run_ok hw hd
    obtain ⟨hs, _⟩ := CodeTree.codeOf_lt hc
    refine .inl ⟨s, r', BitVector.ofBits c, c, _, h1, hT.invert hl, ?_, BitVector.toBits_ofBits c,
      by rw [hb, h3], h2⟩
    rw [List.getElem?_map, List.getElem?_range (by omega)]
    simp [hc]
  | fail e => exact absurd hd CodeTree.IsTree.decode_ne_fail
  | starved =>
    obtain ⟨r', h1, _⟩ := BitReader.run_starved hw hd
    exact .inr ⟨r', h1⟩

/-- The tree of lengths 2, 1, 0, 2. -/
def exampleTree : CodeTree := { left := .leaf 1, right := .internal (.leaf 0) (.leaf 3) }

example : CodeTree.new [2, 1, 0, 2] = .ok exampleTree ∧
    exampleTree.invert = .ok ([some ⟨[1], 2⟩, some ⟨[0], 1⟩, none, some ⟨[3], 2⟩] ++
      List.replicate 284 none) ∧
    BitReader.run exampleTree.decodeSymbol (BitReader.new [0b00000111]) =
      .ok 3 { inner := [], current := 7, remainingBits := 6 } := by decide +kernel

/-! ## C10 -/

/-- C10. Codes have their declared length, between one and fifteen bits, and no code is a prefix of
the code of a different symbol. -/
theorem C10_prefix_free (lens : List Nat) (hl : lens.length ≤ 288) (h15 : ∀ l ∈ lens, l ≤ 15)
    (t : CodeTree) (ht : CodeTree.new lens = .ok t) (table : List (Option BitVector))
    (hi : t.invert = .ok table) (s₁ s₂ : Nat) (v₁ v₂ : BitVector)
    (h₁ : table[s₁]? = some (some v₁)) (h₂ : table[s₂]? = some (some v₂)) :
    ∃ c₁ c₂, v₁.toBits = .ok c₁ ∧ v₂.toBits = .ok c₂ ∧
      c₁.length = lens.getD s₁ 0 ∧ 1 ≤ c₁.length ∧ c₁.length ≤ 15 ∧
      (c₁ <+: c₂ → s₁ = s₂) := by
  have hT : CodeTree.IsTree lens t := ⟨by omega, h15, ht⟩
  obtain ⟨_, c₁, hc₁, rfl⟩ := invert_entry hl hT hi h₁
  obtain ⟨_, c₂, hc₂, rfl⟩ := invert_entry hl hT hi h₂
  obtain ⟨hs₁, hlen, hne⟩ := CodeTree.codeOf_lt hc₁
  have hg : lens.getD s₁ 0 = lens[s₁] := by simp [List.getD, hs₁]
  refine ⟨c₁, c₂, BitVector.toBits_ofBits _, BitVector.toBits_ofBits _, by rw [hg, hlen], by omega,
    by rw [hlen]; exact h15 _ (List.getElem_mem hs₁), ?_⟩
  rintro ⟨q, rfl⟩
  have d1 := hT.decode hc₁ q
  have d2 := hT.decode hc₂ []
  rw [List.append_nil, d1, ExecRes.ok.injEq] at d2
  exact d2.1

/-! ## C11 -/

theorem fixedLit_codes : (List.range 288).map (codeOf fixedLit) =
    (List.range 288).map (fun s => some (fixedLitCode s)) := by decide +kernel

theorem fixedDist_codes : (List.range 288).map (codeOf fixedDist) =
    (List.range 32).map (fun s => some (msbBits 5 s)) ++ List.replicate 256 none := by
  decide +kernel

theorem complete_fixedLit : Complete fixedLit := by unfold Complete; decide +kernel
theorem complete_fixedDist : Complete fixedDist := by unfold Complete; decide +kernel

theorem fixedLit_le : ∀ l ∈ fixedLit, l ≤ 15 := by decide +kernel
theorem fixedDist_le : ∀ l ∈ fixedDist, l ≤ 15 := by decide +kernel

theorem fixedLengthTree_ok :
    ∃ t, Huffman.fixedLengthTree = .ok t ∧ CodeTree.IsTree fixedLit t := by
  obtain ⟨t, ht⟩ := (CodeTree.new_ok_iff_complete (lens := fixedLit) (by decide +kernel) (by decide +kernel)
    fixedLit_le).2 complete_fixedLit
  refine ⟨t, ?_, by decide +kernel, fixedLit_le, ht⟩
  show Huffman.expect (CodeTree.new fixedLit) = _
  rw [ht]
  rfl

theorem fixedDistanceTree_ok :
    ∃ t, Huffman.fixedDistanceTree = .ok t ∧ CodeTree.IsTree fixedDist t := by
  obtain ⟨t, ht⟩ := (CodeTree.new_ok_iff_complete (lens := fixedDist) (by decide) (by decide)
    fixedDist_le).2 complete_fixedDist
  refine ⟨t, ?_, by decide, fixedDist_le, ht⟩
  show Huffman.expect (CodeTree.new fixedDist) = _
  rw [ht]
  rfl

/-- C11. The fixed trees exist, and their code tables are those of RFC 1951, 3.2.6. -/
theorem C11_fixed_tables :
    (∃ t table, Huffman.fixedLengthTree = .ok t ∧ t.invert = .ok table ∧
      ∀ s < 288, ∃ v, table[s]? = some (some v) ∧ v.toBits = .ok (fixedLitCode s)) ∧
    (∃ t table, Huffman.fixedDistanceTree = .ok t ∧ t.invert = .ok table ∧
      (∀ s < 32, ∃ v, table[s]? = some (some v) ∧ v.toBits = .ok (msbBits 5 s)) ∧
      (∀ s, 32 ≤ s → s < 288 → table[s]? = some none)) := by
  constructor
  · obtain ⟨t, h1, hT⟩ := fixedLengthTree_ok
    refine ⟨t, _, h1, hT.invert (by decide +kernel), fun s hs => ?_⟩
    refine ⟨BitVector.ofBits (fixedLitCode s), ?_, BitVector.toBits_ofBits _⟩
    have := congrArg (fun l => l[s]?) fixedLit_codes
    simp only [List.getElem?_map, List.getElem?_range hs, Option.map_some, Option.some.injEq] at this
    rw [List.getElem?_map, List.getElem?_range hs, Option.map_some, this]
    rfl
  · obtain ⟨t, h1, hT⟩ := fixedDistanceTree_ok
    refine ⟨t, _, h1, hT.invert (by decide +kernel), fun s hs => ?_, fun s hs hs' => ?_⟩
    · refine ⟨BitVector.ofBits (msbBits 5 s), ?_, BitVector.toBits_ofBits _⟩
      have := congrArg (fun l => l[s]?) fixedDist_codes
      rw [List.getElem?_append_left (by simp; omega)] at this
      simp only [List.getElem?_map, List.getElem?_range hs,
        List.getElem?_range (show s < 288 by omega), Option.map_some, Option.some.injEq] at this
      rw [List.getElem?_map, List.getElem?_range (by omega), Option.map_some, this]
      rfl
    · have := congrArg (fun l => l[s]?) fixedDist_codes
      rw [List.getElem?_append_right (by simpa using hs), List.getElem?_replicate,
        if_pos (by simp; omega)] at this
      simp only [List.getElem?_map, List.getElem?_range hs', Option.map_some,
        Option.some.injEq] at this
      rw [List.getElem?_map, List.getElem?_range hs', Option.map_some, this]
      rfl

/-! ## C12 -/

/-- C12. Every run length is encoded as a symbol with extra bits that decode to it, whatever
follows. -/
theorem C12_run_roundtrip (len : Nat) (h3 : 3 ≤ len) (h258 : len ≤ 258) :
    ∃ sym extra, Huffman.encodeRunLength len = .ok sym ∧ Huffman.extraRunLength len = .ok extra ∧
      257 ≤ sym ∧ sym ≤ 285 ∧ ∃ width val, extra.getD (0, 0) = (width, val) ∧
      width ≤ 5 ∧ val < 2 ^ width ∧
      ∀ (r : BitReader) (rest : List Bool), r.WF → r.bits = lsbBits width val ++ rest →
        ∃ r', BitReader.run (Huffman.decodeRunLength sym) r = .ok len r' ∧ r'.WF ∧
          r'.bits = rest := by
  obtain ⟨i, v, hs, he, hx, _⟩ := Huffman.encodeRunLength_spec h3 h258
  obtain ⟨hi, hv, _⟩ := id hs
  have h5 := (Huffman.length_table ⟨i, hi⟩).1
  simp only at h5
  refine ⟨_, _, he, hx, by omega, by omega, lengthExtra.getD i 0, v, ?_, h5, hv, ?_⟩
  · split
    · rename_i h0
      rw [h0] at hv ⊢
      have : v = 0 := by simpa using hv
      simp [this]
    · rfl
  · intro r rest hw hb
    exact BitReader.run_ok hw (by rw [hb]; exact Huffman.exec_decodeRunLength hs rest)

example : Huffman.encodeRunLength 227 = .ok 284 ∧ Huffman.extraRunLength 227 = .ok (some (5, 0)) ∧
    Huffman.encodeRunLength 257 = .ok 284 ∧ Huffman.extraRunLength 257 = .ok (some (5, 30)) ∧
    Huffman.encodeRunLength 258 = .ok 285 := by decide +kernel

/-! ## C13 -/

/-- C13. Every distance is encoded as a symbol with extra bits that decode to it, whatever
follows. -/
theorem C13_distance_roundtrip (dist : Nat) (h1 : 1 ≤ dist) (h2 : dist ≤ 32768) :
    ∃ sym width val, Huffman.encodeDistance dist = .ok (sym, width, val) ∧
      sym ≤ 29 ∧ width ≤ 13 ∧ val < 2 ^ width ∧
      ∀ (r : BitReader) (rest : List Bool), r.WF → r.bits = lsbBits width val ++ rest →
        ∃ r', BitReader.run (Huffman.decodeDistance sym) r = .ok dist r' ∧ r'.WF ∧
          r'.bits = rest := by
  obtain ⟨i, v, hs, he⟩ := Huffman.encodeDistance_spec h1 h2
  obtain ⟨hi, hv, _⟩ := id hs
  refine ⟨i, _, v, he, by omega, (Huffman.dist_table ⟨i, hi⟩).1, hv, ?_⟩
  intro r rest hw hb
  exact BitReader.run_ok hw (by rw [hb]; exact Huffman.exec_decodeDistance hs rest)

example : Huffman.encodeDistance 32768 = .ok (29, 13, 8191) ∧
    Huffman.encodeDistance 24577 = .ok (29, 13, 0) ∧
    Huffman.encodeDistance 24576 = .ok (28, 13, 8191) := by decide +kernel

/-! ## C14 -/

/-- C14, run lengths. -/
theorem C14_decode_run (sym : Nat) (r : BitReader) (hw : r.WF) :
    (∀ i, sym = 257 + i → i < 29 →
      (∀ ebits rest, r.bits = ebits ++ rest → ebits.length = lengthExtra.getD i 0 →
        ∃ r', BitReader.run (Huffman.decodeRunLength sym) r =
          .ok (lengthBase.getD i 0 + bitsVal ebits) r' ∧ r'.WF ∧ r'.bits = rest) ∧
      (r.bits.length < lengthExtra.getD i 0 →
        ∃ r', BitReader.run (Huffman.decodeRunLength sym) r = .error (.err .eof) r')) ∧
    (sym < 257 ∨ 285 < sym →
      ∃ e r', BitReader.run (Huffman.decodeRunLength sym) r = .error (.err e) r') := by
  refine ⟨?_, ?_⟩
  · rintro i rfl hi
    constructor
    · intro ebits rest hb hl
      have hv : bitsVal ebits < 2 ^ lengthExtra.getD i 0 := by rw [← hl]; exact bitsVal_lt _
      have := Huffman.exec_decodeRunLength (len := lengthBase.getD i 0 + bitsVal ebits)
        ⟨hi, hv, rfl⟩ rest
      rw [← hl, lsbBits_bitsVal] at this
      exact BitReader.run_ok hw (by rw [hb]; exact this)
    · intro hlt
      have : (Huffman.decodeRunLength (257 + i)).exec r.bits = .starved := by
        cases h : (Huffman.decodeRunLength (257 + i)).exec r.bits with
        | starved => rfl
        | ok len rest =>
          obtain ⟨j, v, hj, _, hb⟩ := Huffman.exec_decodeRunLength_inv h
          have : j = i := by omega
          subst this
          rw [hb] at hlt
          simp [-List.getD_eq_getElem?_getD] at hlt
          omega
        | fail e =>
          have hx := BitProg.exec_fail_append h (List.replicate (lengthExtra.getD i 0) false)
          have hlen : lengthExtra.getD i 0 ≤
              (r.bits ++ List.replicate (lengthExtra.getD i 0) false).length := by
            rw [List.length_append, List.length_replicate]; omega
          have hok := Huffman.exec_decodeRunLength
            (len := lengthBase.getD i 0 + bitsVal
              ((r.bits ++ List.replicate (lengthExtra.getD i 0) false).take (lengthExtra.getD i 0)))
            (i := i) (v := bitsVal
              ((r.bits ++ List.replicate (lengthExtra.getD i 0) false).take (lengthExtra.getD i 0)))
            ⟨hi, by
              have := bitsVal_lt
                ((r.bits ++ List.replicate (lengthExtra.getD i 0) false).take (lengthExtra.getD i 0))
              rwa [List.length_take, Nat.min_eq_left hlen] at this, rfl⟩
            ((r.bits ++ List.replicate (lengthExtra.getD i 0) false).drop (lengthExtra.getD i 0))
          have hl2 : ((r.bits ++ List.replicate (lengthExtra.getD i 0) false).take
              (lengthExtra.getD i 0)).length = lengthExtra.getD i 0 := by
            rw [List.length_take, Nat.min_eq_left hlen]
          have hbv := lsbBits_bitsVal
            ((r.bits ++ List.replicate (lengthExtra.getD i 0) false).take (lengthExtra.getD i 0))
          rw [hl2] at hbv
          rw [hbv, List.take_append_drop, hx] at hok
          cases hok
      obtain ⟨r', h1, _⟩ := BitReader.run_starved hw this
      exact ⟨r', h1⟩
  · intro hout
    cases h : (Huffman.decodeRunLength sym).exec r.bits with
    | ok len rest =>
      obtain ⟨j, v, hj, ⟨hj2, _⟩, _⟩ := Huffman.exec_decodeRunLength_inv h
      omega
    | fail e =>
      obtain ⟨x, rfl⟩ := Huffman.exec_decodeRunLength_fail h
      obtain ⟨r', h1, _⟩ := BitReader.run_fail hw h
      exact ⟨x, r', h1⟩
    | starved =>
      obtain ⟨r', h1, _⟩ := BitReader.run_starved hw h
      exact ⟨_, r', h1⟩

/-- C14, distances. -/
theorem C14_decode_distance (sym : Nat) (r : BitReader) (hw : r.WF) :
    (sym < 30 →
      (∀ ebits rest, r.bits = ebits ++ rest → ebits.length = distExtra.getD sym 0 →
        ∃ r', BitReader.run (Huffman.decodeDistance sym) r =
          .ok (distBase.getD sym 0 + bitsVal ebits) r' ∧ r'.WF ∧ r'.bits = rest) ∧
      (r.bits.length < distExtra.getD sym 0 →
        ∃ r', BitReader.run (Huffman.decodeDistance sym) r = .error (.err .eof) r')) ∧
    (30 ≤ sym →
      ∃ e r', BitReader.run (Huffman.decodeDistance sym) r = .error (.err e) r') := by
  refine ⟨?_, ?_⟩
  · intro hi
    constructor
    · intro ebits rest hb hl
      have hv : bitsVal ebits < 2 ^ distExtra.getD sym 0 := by rw [← hl]; exact bitsVal_lt _
      have := Huffman.exec_decodeDistance (dist := distBase.getD sym 0 + bitsVal ebits)
        ⟨hi, hv, rfl⟩ rest
      rw [← hl, lsbBits_bitsVal] at this
      exact BitReader.run_ok hw (by rw [hb]; exact this)
    · intro hlt
      have : (Huffman.decodeDistance sym).exec r.bits = .starved := by
        obtain ⟨h13, h1, h2⟩ := Huffman.dist_table ⟨sym, hi⟩
        simp only at h13 h1 h2
        unfold Huffman.decodeDistance
        by_cases h3 : sym ≤ 3
        · rw [(h1 h3).1] at hlt; omega
        · rw [if_neg h3, if_pos (by omega)]
          simp only [BitProg.bind_eq, (h2 (by omega)).1]
          rw [BitProg.exec_bind, BitProg.exec_readPart_short (by omega) hlt]
      obtain ⟨r', h1, _⟩ := BitReader.run_starved hw this
      exact ⟨r', h1⟩
  · intro hout
    cases h : (Huffman.decodeDistance sym).exec r.bits with
    | ok len rest =>
      obtain ⟨v, ⟨hj2, _⟩, _⟩ := Huffman.exec_decodeDistance_inv h
      omega
    | fail e =>
      obtain ⟨x, rfl⟩ := Huffman.exec_decodeDistance_fail h
      obtain ⟨r', h1, _⟩ := BitReader.run_fail hw h
      exact ⟨x, r', h1⟩
    | starved =>
      obtain ⟨r', h1, _⟩ := BitReader.run_starved hw h
      exact ⟨_, r', h1⟩

example : BitReader.run (Huffman.decodeRunLength 284) (BitReader.new [31]) =
    .ok 258 { inner := [], current := 31, remainingBits := 3 } ∧
    BitReader.run (Huffman.decodeDistance 29) (BitReader.new [0xff, 0xff]) =
    .ok 32768 { inner := [], current := 255, remainingBits := 3 } := by decide +kernel

/-! ## C15, C16 -/

/-- The tree for an alphabet that may be absent. -/
theorem isOptTree_map {alpha : Option (List Nat)} {dt : Option CodeTree}
    (h : Huffman.IsOptTree alpha dt) : alpha.map CodeTree.new = dt.map .ok := by
  cases alpha <;> cases dt
  · rfl
  · cases h
  · cases h
  · simp only [Option.map_some, h.built]

/-- C15. Every dynamic header is read: the trees are those of the announced code lengths, and
exactly the header is consumed. -/
theorem C15_header_complete (lit dist : List Nat) (alpha : Option (List Nat)) (hdr : List Bool)
    (hh : HeaderBits lit dist hdr) (hc : Complete lit) (hd : DistAlphabet dist alpha)
    (r : BitReader) (hw : r.WF) (rest : List Bool) (hb : r.bits = hdr ++ rest) :
    ∃ lt dt r', BitReader.run Huffman.readCodes r = .ok (lt, dt) r' ∧ r'.WF ∧ r'.bits = rest ∧
      CodeTree.new lit = .ok lt ∧ alpha.map CodeTree.new = dt.map .ok := by
  obtain ⟨lt, dt, h1, h2, h3⟩ := Huffman.readCodes_complete hh hc hd rest
  obtain ⟨r', h4, h5, h6⟩ := BitReader.run_ok hw (by rw [hb]; exact h1)
  exact ⟨lt, dt, r', h4, h5, h6, h2.built, isOptTree_map h3⟩

/-- C16. Whenever reading a dynamic header succeeds, the bits consumed are a dynamic header and the
trees are those of the code lengths it announces; the only other outcome is an error. -/
theorem C16_header_sound (r : BitReader) (hw : r.WF) :
    (∃ lt dt r' lit dist alpha hdr, BitReader.run Huffman.readCodes r = .ok (lt, dt) r' ∧
      HeaderBits lit dist hdr ∧ Complete lit ∧ DistAlphabet dist alpha ∧
      r.bits = hdr ++ r'.bits ∧ r'.WF ∧
      CodeTree.new lit = .ok lt ∧ alpha.map CodeTree.new = dt.map .ok) ∨
    (∃ e r', BitReader.run Huffman.readCodes r = .error (.err e) r') := by
  have hs := Huffman.readCodes_sound r.bits
  cases h : Huffman.readCodes.exec r.bits with
  | ok p rest =>
    obtain ⟨lt, dt⟩ := p
    rw [h] at hs
    obtain ⟨lit, dist, alpha, hdr, h1, h2, h3, h4, h5, h6⟩ := hs
    obtain ⟨r', g1, g2, g3⟩ := BitReader.run_ok hw h
    exact .inl ⟨lt, dt, r', lit, dist, alpha, hdr, g1, h1, h2, h3, by rw [h4, g3], g2, h5.built,
      isOptTree_map h6⟩
  | fail e =>
    rw [h] at hs
    obtain ⟨x, rfl⟩ := hs
    obtain ⟨r', h1, _⟩ := BitReader.run_fail hw h
    exact .inr ⟨x, r', h1⟩
  | starved =>
    obtain ⟨r', h1, _⟩ := BitReader.run_starved hw h
    exact .inr ⟨_, r', h1⟩

/-- Code lengths that use literal 0 and the end of block symbol only. -/
def exampleLit : List Nat := 1 :: List.replicate 255 0 ++ [1]

/-- Code length code: one bit for 1, two bits for 0 and 18. -/
def exampleCl : List Nat := [2, 1, 0, 0, 0, 0, 0, 0, 0, 0, 0, 0, 0, 0, 0, 0, 0, 0, 2]

/-- A dynamic header for `exampleLit` without distance codes. -/
def exampleHeader : List Bool :=
  lsbBits 5 0 ++ lsbBits 5 0 ++ lsbBits 4 14 ++
    (clOrder.take 18).flatMap (fun s => lsbBits 3 (exampleCl.getD s 0)) ++
    ([false] ++ ([true, true] ++ lsbBits 7 127 ++ ([true, true] ++ lsbBits 7 106 ++
      ([false] ++ ([true, false] ++ [])))))

theorem exampleHeader_bits : HeaderBits exampleLit [0] exampleHeader := by
  rw [show exampleHeader = lsbBits 5 (exampleLit.length - 257) ++ lsbBits 5 ([0].length - 1) ++
    lsbBits 4 (18 - 4) ++ (clOrder.take 18).flatMap (fun s => lsbBits 3 (exampleCl.getD s 0)) ++
    ([false] ++ ([true, true] ++ lsbBits 7 127 ++ ([true, true] ++ lsbBits 7 106 ++
      ([false] ++ ([true, false] ++ []))))) from by decide +kernel]
  refine HeaderBits.mk (lit := exampleLit) (dist := [0]) exampleCl 18 _ (by decide +kernel)
    (by decide +kernel) (by decide) (by decide) (by decide) (by decide) (by decide) (by decide)
    (by unfold Complete; decide +kernel) (by decide) ?_
  have : exampleLit ++ [0] = 1 :: (List.replicate (11 + 127) 0 ++
      (List.replicate (11 + 106) 0 ++ (1 :: (0 :: [])))) := by decide +kernel
  rw [this]
  refine .len _ _ _ _ _ (by decide) (by decide +kernel) ?_
  refine .manyZeros _ _ _ _ _ (by decide) (by decide +kernel) ?_
  refine .manyZeros _ _ _ _ _ (by decide) (by decide +kernel) ?_
  refine .len _ _ _ _ _ (by decide) (by decide +kernel) ?_
  exact .len _ _ _ _ _ (by decide) (by decide +kernel) (.nil _)

example : ∃ hdr, HeaderBits exampleLit [0] hdr ∧ Complete exampleLit ∧ DistAlphabet [0] none :=
  ⟨_, exampleHeader_bits, by unfold Complete; decide +kernel, .unused⟩

/-- The header above is accepted by the model, followed by further bits. -/
example : Huffman.readCodes.exec (exampleHeader ++ [true, true, false]) =
    .ok ({ left := .leaf 0, right := .leaf 256 }, none) [true, true, false] := by decide +kernel

end Rezip
