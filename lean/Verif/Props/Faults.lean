import Verif.Lemmas.Faults
import Verif.Props.Cat
import Verif.Props.Dump

/-!
# C118: which error a deflate stream is refused for; parts of C07 and C14
-/

namespace Rezip

open Spec Parse Serialise

namespace Parse

theorem new_offset (bytes : List UInt8) : (0 + (parseDeflate bytes).inner.bits.length) % 8 = 0 := by
  show (0 + (BitReader.new bytes).bits.length) % 8 = 0
  rw [BitReader.bits_new, bytesBits_length]
  omega

theorem StreamFault.length_le {off : Nat} {blocks : List Block} {e : Err} {bits : List Bool}
    (h : StreamFault off blocks e bits) : blocks.length ≤ bits.length := by
  induction h with
  | block => simp
  | padding => simp
  | after _ _ _ _ _ _ _ _ ih => simp; omega

theorem collect_items (bytes : List UInt8) :
    ∃ r bl it', collect bytes = (r, bl, it') ∧
      (∀ n b, bl[n]? = some b → item n (parseDeflate bytes) = some (.ok b)) ∧
      ((item bl.length (parseDeflate bytes) = none ∧ r = .ok ()) ∨
        ∃ e, item bl.length (parseDeflate bytes) = some (.error (.err e)) ∧ r = .error (.err e)) := by
  obtain ⟨r, bl, it', h1, _, h3, h4⟩ := Cat.loop_eq (8 * bytes.length + 2) (parseDeflate bytes)
  have hc : collect bytes = (r, bl, it') := by rw [collect, h1]; rfl
  refine ⟨r, bl, it', hc, h3, ?_⟩
  rcases h4 with h4 | h4 | ⟨e, h4, h5⟩
  · exfalso
    have : parseAll bytes = .error .diverge := by rw [parseAll, hc, h4]
    obtain ⟨x, hx⟩ := parseAll_error this
    cases hx
  · exact .inl h4
  · right
    rcases C17_total bytes bl.length with h | ⟨b, h⟩ | ⟨x, h⟩
    · rw [h] at h4; cases h4
    · rw [h] at h4; cases h4
    · rw [h] at h4; cases h4; exact ⟨x, h, h5⟩

/-- The blocks before the first item that is not a block are determined. -/
theorem items_unique {it : BlockIter} {b1 b2 : List Block}
    (h1 : ∀ n b, b1[n]? = some b → item n it = some (.ok b)) (e1 : ∀ b, item b1.length it ≠ some (.ok b))
    (h2 : ∀ n b, b2[n]? = some b → item n it = some (.ok b)) (e2 : ∀ b, item b2.length it ≠ some (.ok b)) :
    b1 = b2 := by
  have key : ∀ {b1 b2 : List Block}, (∀ b, item b1.length it ≠ some (.ok b)) →
      (∀ n b, b2[n]? = some b → item n it = some (.ok b)) → b2.length ≤ b1.length := by
    intro b1 b2 e1 h2
    apply Nat.le_of_not_lt
    intro hlt
    exact e1 _ (h2 _ _ (List.getElem?_eq_getElem hlt))
  have hlen := Nat.le_antisymm (key e2 h1) (key e1 h2)
  apply List.ext_getElem hlen
  intro n l1 l2
  have a1 := h1 n _ (List.getElem?_eq_getElem l1)
  have a2 := h2 n _ (List.getElem?_eq_getElem l2)
  rw [a1] at a2
  injection a2 with h
  injection h

theorem collect_fault {bytes : List UInt8} {blocks : List Block} {e : Err} (he : e ≠ .eof) :
    (∃ it, collect bytes = (.error (.err e), blocks, it)) ↔
      ∃ bits rest, bytesBits bytes = bits ++ rest ∧ StreamFault 0 blocks e bits := by
  constructor
  · rintro ⟨it, h⟩
    unfold collect at h
    rcases collectLoop_fault _ (off := 0) (BitReader.wf_new bytes) rfl (new_offset bytes)
      (by show (BitReader.new bytes).bits.length < _
          rw [BitReader.bits_new, bytesBits_length]; omega) [] h with h | ⟨x, bl, bits, rest, h1, h2, h3, h4⟩
    · cases h; exact absurd rfl he
    · cases h1
      rw [List.nil_append] at h2
      subst h2
      refine ⟨bits, rest, ?_, h3⟩
      rw [← h4]
      exact (BitReader.bits_new bytes).symm
  · rintro ⟨bits, rest, h1, h2⟩
    have hl := StreamFault.length_le h2
    have hl' : (bytesBits bytes).length = bits.length + rest.length := by rw [h1]; simp
    rw [bytesBits_length] at hl'
    obtain ⟨it, h3⟩ := collectLoop_refused h2 (it := parseDeflate bytes) (BitReader.wf_new bytes) rfl (new_offset bytes)
      (by rw [← h1]; exact BitReader.bits_new bytes) (fuel := 8 * bytes.length + 2) (by omega) []
    exact ⟨it, by rw [collect, h3, List.nil_append]⟩

end Parse

/-- C118. The parser gives some blocks and then an error other than the end of the input exactly if the input begins
with these blocks and then the fault which that error stands for. -/
theorem C118_fault (bytes : List UInt8) (blocks : List Block) (e : Err) (he : e ≠ .eof) :
    ((∀ n b, blocks[n]? = some b → item n (parseDeflate bytes) = some (.ok b)) ∧
      item blocks.length (parseDeflate bytes) = some (.error (.err e))) ↔
    ∃ bits rest, bytesBits bytes = bits ++ rest ∧ StreamFault 0 blocks e bits := by
  rw [← collect_fault he]
  obtain ⟨r, bl, it', h1, h2, h3⟩ := collect_items bytes
  constructor
  · rintro ⟨h4, h5⟩
    have hbl : bl = blocks := by
      refine items_unique h2 ?_ h4 (by rw [h5]; intro b h; cases h)
      intro b hb
      rcases h3 with ⟨h, _⟩ | ⟨x, h, _⟩ <;> · rw [h] at hb; cases hb
    subst hbl
    rcases h3 with ⟨h, _⟩ | ⟨x, h, hr⟩
    · rw [h] at h5; cases h5
    · rw [h] at h5
      cases h5
      exact ⟨it', by rw [h1, hr]⟩
  · rintro ⟨it, h⟩
    rw [h1] at h
    simp only [Prod.mk.injEq] at h
    obtain ⟨rfl, rfl, rfl⟩ := h
    rcases h3 with ⟨_, hr⟩ | ⟨x, h, hr⟩
    · cases hr
    · cases hr
      exact ⟨h2, h⟩

/-- C118. The same for reading the stream as a whole. -/
theorem C118_parse (bytes : List UInt8) (e : Err) (he : e ≠ .eof) :
    parseAll bytes = .error (.err e) ↔
      ∃ blocks bits rest, bytesBits bytes = bits ++ rest ∧ StreamFault 0 blocks e bits := by
  constructor
  · intro h
    rw [parseAll] at h
    split at h
    · cases h
    · next x bl it hc =>
      cases h
      exact ⟨bl, (collect_fault he).1 ⟨it, hc⟩⟩
  · rintro ⟨blocks, bits, rest, h⟩
    obtain ⟨it, hc⟩ := (collect_fault he).2 ⟨bits, rest, h⟩
    rw [parseAll, hc]

/-- C118. An input is the beginning of no stream for at most one reason, which is found after the same blocks. -/
theorem C118_unique (bytes : List UInt8) (b1 b2 : List Block) (e1 e2 : Err) (s1 s2 r1 r2 : List Bool)
    (h1 : bytesBits bytes = s1 ++ r1) (f1 : StreamFault 0 b1 e1 s1)
    (h2 : bytesBits bytes = s2 ++ r2) (f2 : StreamFault 0 b2 e2 s2) : b1 = b2 ∧ e1 = e2 := by
  obtain ⟨i1, c1⟩ := (collect_fault f1.ne_eof).2 ⟨s1, r1, h1, f1⟩
  obtain ⟨i2, c2⟩ := (collect_fault f2.ne_eof).2 ⟨s2, r2, h2, f2⟩
  rw [c1] at c2
  simp only [Prod.mk.injEq] at c2
  obtain ⟨h, h', _⟩ := c2
  cases h
  exact ⟨h', rfl⟩

/-- C118. The end of the input is reported exactly if the input neither begins with a stream nor shows a fault. -/
theorem C118_eof (bytes : List UInt8) :
    parseAll bytes = .error (.err .eof) ↔
      (¬ ∃ blocks d rest, bytes = d ++ rest ∧ DeflateBytes blocks d) ∧
      ¬ ∃ e blocks bits rest, bytesBits bytes = bits ++ rest ∧ StreamFault 0 blocks e bits := by
  constructor
  · intro h
    constructor
    · rintro ⟨blocks, d, rest, hd⟩
      rw [(C22_parse_iff bytes blocks rest).2 ⟨d, hd⟩] at h
      cases h
    · rintro ⟨e, blocks, bits, rest, h1, h2⟩
      rw [(C118_parse bytes e h2.ne_eof).2 ⟨blocks, bits, rest, h1, h2⟩] at h
      cases h
      exact h2.ne_eof rfl
  · rintro ⟨h1, h2⟩
    cases hp : parseAll bytes with
    | ok p =>
      obtain ⟨blocks, rest⟩ := p
      obtain ⟨d, hd⟩ := (C22_parse_iff bytes blocks rest).1 hp
      exact absurd ⟨blocks, d, rest, hd⟩ h1
    | error e =>
      obtain ⟨x, rfl⟩ := parseAll_error hp
      by_cases hx : x = .eof
      · rw [hx]
      · exact absurd ⟨x, (C118_parse bytes x hx).1 hp⟩ h2

/-- C118. No other error is ever given by the parser. -/
theorem C118_kinds (bytes : List UInt8) (e : Fail) (h : parseAll bytes = .error e) :
    e ∈ [.err .eof, .err .padding, .err .storedLength, .err .reservedBlock, .err .tooFewLengths, .err .notATree,
      .err .nonCanonical, .err .noValueToCopy, .err .runExceeds, .err .reservedRunSymbol, .err .noDistanceTable,
      .err .reservedDistSymbol] := by
  obtain ⟨x, rfl⟩ := parseAll_error h
  by_cases hx : x = .eof
  · rw [hx]; decide
  · obtain ⟨blocks, bits, rest, hr, hf⟩ := (C118_parse bytes x hx).1 h
    have tree : ∀ l : List Nat, Fail.err (treeError l) ∈ [Fail.err .eof, .err .padding, .err .storedLength,
        .err .reservedBlock, .err .tooFewLengths, .err .notATree, .err .nonCanonical, .err .noValueToCopy,
        .err .runExceeds, .err .reservedRunSymbol, .err .noDistanceTable, .err .reservedDistSymbol] := by
      intro l
      unfold treeError
      split
      · decide
      · split <;> decide
    have codes : ∀ {lit : List Nat} {dist : Option (List Nat)} {e : Err} {bs : List Bool}, CodesFault lit dist e bs →
        Fail.err e ∈ [Fail.err .eof, .err .padding, .err .storedLength,
        .err .reservedBlock, .err .tooFewLengths, .err .notATree, .err .nonCanonical, .err .noValueToCopy,
        .err .runExceeds, .err .reservedRunSymbol, .err .noDistanceTable, .err .reservedDistSymbol] := by
      intro lit dist e bs h
      induction h with
      | here e a h => cases h <;> decide
      | after _ _ _ _ _ _ ih => exact ih
    clear h hx hr
    generalize 0 = off at hf
    induction hf with
    | padding => decide
    | after _ _ _ _ _ _ _ _ ih => exact ih
    | block off f e bs hb =>
      cases hb with
      | reserved => decide
      | padding => decide
      | storedLength => decide
      | fixed _ _ h => exact codes h
      | dynamic _ _ _ _ _ _ _ _ _ h => exact codes h
      | header _ _ h =>
        cases h with
        | lengthCode => exact tree _
        | lens _ _ _ _ _ _ _ _ h => cases h <;> decide
        | literals => exact tree _
        | distances => exact tree _

/-- Each of them happens: the blocks of a stream with padding, stored lengths that do not agree, a reserved kind. -/
example : parseAll [9] = .error (.err .padding) ∧ parseAll [1, 0, 0, 0, 0] = .error (.err .storedLength) ∧
    parseAll [7] = .error (.err .reservedBlock) := by decide +kernel

/-- Headers: of a code length code with a single code, and with none; that copy nothing, and too much. -/
example : parseAll [5, 0, 16, 0] = .error (.err .notATree) ∧ parseAll [5, 0, 0, 0] = .error (.err .nonCanonical) ∧
    parseAll [5, 0, 18, 0] = .error (.err .noValueToCopy) ∧
    parseAll [5, 0, 144, 224, 255, 31] = .error (.err .runExceeds) := by decide +kernel

/-- Literal codes with a single code, and with none. -/
example : parseAll [5, 192, 1, 9, 0, 0, 0, 128, 32, 255, 191, 22] = .error (.err .notATree) ∧
    parseAll [5, 192, 1, 9, 0, 0, 0, 128, 160, 255, 179, 5] = .error (.err .nonCanonical) := by decide +kernel

/-- Distance codes: a single one of two bits, two of two bits, four of one bit. -/
example : parseAll [5, 192, 1, 9, 0, 0, 0, 128, 32, 255, 175, 54] = .error (.err .tooFewLengths) ∧
    parseAll [5, 193, 1, 9, 0, 0, 0, 128, 32, 255, 175, 182, 0] = .error (.err .notATree) ∧
    parseAll [5, 195, 1, 9, 0, 0, 0, 128, 32, 255, 175, 86, 21] = .error (.err .nonCanonical) := by decide +kernel

/-- Codes: a length and a distance without a meaning, and a match where there are no distance codes. -/
example : parseAll [27, 3] = .error (.err .reservedRunSymbol) ∧ parseAll [3, 62] = .error (.err .reservedDistSymbol) ∧
    parseAll [13, 192, 1, 9, 0, 0, 0, 128, 160, 255, 175, 149] = .error (.err .noDistanceTable) := by decide +kernel

/-- An input as in the theorem: a reserved kind of block, after an empty block. -/
example : StreamFault 0 [.fixedHuffman []] .reservedBlock
    (false :: ((lsbBits 2 1 ++ List.replicate 7 false) ++ (true :: lsbBits 2 3))) :=
  .after 0 _ [] _ _ _ (.fixed [] _ (.nil _ (by decide +kernel))) (.block _ true _ _ .reserved)

/-! ### Code lengths and symbols without a meaning -/

/-- C07. Which error refused code lengths give. -/
theorem C07_which (lens : List Nat) (hl : lens.length ≤ 65536) (h15 : ∀ l ∈ lens, l ≤ 15) (e : Fail) :
    CodeTree.new lens = .error e ↔ ¬ (2 ≤ lens.length ∧ Complete lens) ∧ e = .err (treeError lens) :=
  ⟨fun h => CodeTree.new_fault hl h15 h, fun ⟨h, he⟩ => by rw [he]; exact CodeTree.new_refused hl h15 h⟩

/-- One code of each length up to three; two codes of one bit and two of two; no codes at all. -/
example : CodeTree.new [1, 2, 3] = .error (.err .notATree) ∧ CodeTree.new [1, 1, 1, 2, 2] = .error (.err .nonCanonical) ∧
    CodeTree.new [0, 0] = .error (.err .nonCanonical) := by decide +kernel

/-- C14. Which error a symbol without a meaning gives; no bit is read. -/
theorem C14_refused (sym : Nat) (r : BitReader) :
    (sym < 257 ∨ 287 < sym → BitReader.run (Huffman.decodeRunLength sym) r = .error (.err .decompressorBug) r) ∧
    (sym = 286 ∨ sym = 287 → BitReader.run (Huffman.decodeRunLength sym) r = .error (.err .reservedRunSymbol) r) ∧
    (sym = 30 ∨ sym = 31 → BitReader.run (Huffman.decodeDistance sym) r = .error (.err .reservedDistSymbol) r) ∧
    (31 < sym → BitReader.run (Huffman.decodeDistance sym) r = .error (.err .invalidDistSymbol) r) := by
  refine ⟨?_, ?_, ?_, ?_⟩
  · intro h
    have e : (decide (sym ≥ 257) && decide (sym ≤ 287)) = false := by
      rcases h with h | h
      · have : ¬ sym ≥ 257 := by omega
        simp [this]
      · have : ¬ sym ≤ 287 := by omega
        simp [this]
    unfold Huffman.decodeRunLength
    rw [e]
    rfl
  · rintro (rfl | rfl) <;> rfl
  · rintro (rfl | rfl) <;> rfl
  · intro h
    unfold Huffman.decodeDistance
    rw [if_neg (by omega), if_neg (by omega), if_neg (by omega)]
    rfl

example : BitReader.run (Huffman.decodeDistance 40) (BitReader.new [1]) =
    .error (.err .invalidDistSymbol) (BitReader.new [1]) := (C14_refused 40 _).2.2.2 (by omega)

/-! ### The tools -/

/-- C118. Dump, after a header, ends with an error other than the end of the input exactly if the stream begins with
some blocks and then the fault for that error, and these blocks are printed. -/
theorem C118_dump (dbg : UInt8 → List Char) (hd : GzHeader) (hv : hd.Valid) (rest : List UInt8) (e : Err)
    (he : e ≠ .eof) (text : List Char) :
    Dump.run dbg (hd.bytes ++ rest) = (.error (.err e), text) ↔
      ∃ blocks bits more, bytesBits rest = bits ++ more ∧ StreamFault 0 blocks e bits ∧
        text = Dump.joined (dumpText (fun b => String.ofList (dbg b)) 0 blocks) := by
  obtain ⟨r, bl, it', h1, _, _, h4⟩ := Dump.run_eq dbg _ _ _ (C57_accepted hd hv rest)
  rw [h4]
  constructor
  · intro h
    cases h
    obtain ⟨bits, more, h2, h3⟩ := (collect_fault he).1 ⟨it', h1⟩
    exact ⟨bl, bits, more, h2, h3, rfl⟩
  · rintro ⟨blocks, bits, more, h2, h3, rfl⟩
    obtain ⟨it, h5⟩ := (collect_fault he).2 ⟨bits, more, h2, h3⟩
    rw [h1] at h5
    simp only [Prod.mk.injEq] at h5
    obtain ⟨rfl, rfl, _⟩ := h5
    rfl

/-- C118. Cat, after a header and with an output that takes everything, ends with an error other than the end of the
input or a match that reaches too far back exactly if the stream begins with some blocks, all of whose matches can be
resolved, and then the fault for that error; the data of these blocks is printed. -/
theorem C118_cat (hd : GzHeader) (hv : hd.Valid) (rest out : List UInt8) (e : Err)
    (he : e ≠ .eof) (hm : e ≠ .distMustFit) (sink : Sink) :
    Cat.run (hd.bytes ++ rest) ⟨out, none⟩ = (.error (.err e), sink) ↔
      ∃ blocks bits more x, bytesBits rest = bits ++ more ∧ StreamFault 0 blocks e bits ∧
        lzExpand 32768 [] (blocks.flatMap lzCodes) = some x ∧ sink = ⟨out ++ x, none⟩ := by
  obtain ⟨r, bl, it', h1, _, _, h4, h5, h6⟩ := Cat.run_eq _ out _ _ none (C57_accepted hd hv rest)
  rw [if_neg (by simp [Cat.fits])] at h6
  rw [Cat.accepted] at h4
  have e0 : ∀ p : Except Fail Unit × Sink, p = (p.1, ⟨p.2.out, p.2.room⟩) := fun p => rfl
  rw [e0 (Cat.run _ _), h4, h5 rfl, h6]
  constructor
  · intro h
    cases hx : lzExpand 32768 [] (bl.flatMap lzCodes) with
    | none =>
      rw [if_pos hx] at h
      cases h
      exact absurd rfl hm
    | some x =>
      rw [if_neg (by rw [hx]; simp)] at h
      cases h
      obtain ⟨bits, more, h2, h3⟩ := (collect_fault he).1 ⟨it', h1⟩
      exact ⟨bl, bits, more, x, h2, h3, hx, by rw [(C35_decodable 32768 [] _).1 x hx]⟩
  · rintro ⟨blocks, bits, more, x, h2, h3, hx, rfl⟩
    obtain ⟨it, h7⟩ := (collect_fault he).2 ⟨bits, more, h2, h3⟩
    rw [h1] at h7
    simp only [Prod.mk.injEq] at h7
    obtain ⟨rfl, rfl, _⟩ := h7
    rw [if_neg (by rw [hx]; simp), (C35_decodable 32768 [] _).1 x hx]

/-- A length symbol without a meaning in the first block; a stored block, which is printed, and then a reserved
kind. -/
example : Cat.run [0x1f, 0x8b, 8, 0, 0, 0, 0, 0, 0, 3, 27, 3] Sink.vec = (.error (.err .reservedRunSymbol), Sink.vec) ∧
    Cat.run [0x1f, 0x8b, 8, 0, 0, 0, 0, 0, 0, 3, 0, 1, 0, 254, 255, 97, 7] Sink.vec =
      (.error (.err .reservedBlock), ⟨[97], none⟩) := by decide +kernel

end Rezip
