import Verif.Spec.Document
import Verif.Props.Debug

/-!
# C105: the documented table of the fixed tree is the tree in use
-/

namespace Rezip

open Spec

/-- The symbols in the order of their codes. -/
def fixedOrder : List Nat :=
  (List.range 24).map (256 + ·) ++ List.range 144 ++ (List.range 8).map (280 + ·) ++ (List.range 112).map (144 + ·)

theorem documented_eq : documented = some (fixedOrder.map fun s => (fixedLitCode s, s)) := by decide +kernel

theorem mem_fixedOrder (s : Nat) : s ∈ fixedOrder ↔ s < 288 := by
  simp only [fixedOrder, List.mem_append, List.mem_map, List.mem_range]
  constructor
  · rintro (((⟨_, _, _⟩ | _) | ⟨_, _, _⟩) | ⟨_, _, _⟩) <;> omega
  · intro h
    by_cases h1 : s < 144
    · exact .inl (.inl (.inr h1))
    · by_cases h2 : s < 256
      · exact .inr ⟨s - 144, by omega, by omega⟩
      · by_cases h3 : s < 280
        · exact .inl (.inl (.inl ⟨s - 256, by omega, by omega⟩))
        · exact .inl (.inr ⟨s - 280, by omega, by omega⟩)

theorem documented_codeOf (c : List Bool) (s : Nat) :
    (c, s) ∈ fixedOrder.map (fun s => (fixedLitCode s, s)) ↔ codeOf fixedLit s = some c := by
  have hall : ∀ s < 288, codeOf fixedLit s = some (fixedLitCode s) := by
    intro s hs
    have := congrArg (fun l => l[s]?) fixedLit_codes
    simpa only [List.getElem?_map, List.getElem?_range hs, Option.map_some, Option.some.injEq] using this
  rw [List.mem_map]
  constructor
  · rintro ⟨s', h, he⟩
    cases he
    exact hall _ ((mem_fixedOrder _).1 h)
  · intro h
    have hs : s < 288 := by
      have := (CodeTree.codeOf_lt h).1
      have hl : fixedLit.length = 288 := by decide +kernel
      omega
    rw [hall s hs, Option.some.injEq] at h
    exact ⟨s, (mem_fixedOrder s).2 hs, by rw [h]⟩

/-- C105. Every line of huffman-fixed.txt makes sense, and there is one for each of the 288 symbols. -/
theorem C105_complete : ∃ table, documented = some table ∧
    (table.map Prod.snd).Perm (List.range 288) := by
  refine ⟨_, documented_eq, ?_⟩
  decide +kernel

/-- C105. The file documents the tree that fixed blocks are read with: after the bits of a documented code comes the
documented symbol, and when a symbol is read the bits it took are documented for it. -/
theorem C105_tree : ∃ table t, documented = some table ∧ Huffman.fixedLengthTree = .ok t ∧
    (∀ c s, (c, s) ∈ table → ∀ (r : BitReader) (rest : List Bool), r.WF → r.bits = c ++ rest →
      ∃ r', BitReader.run t.decodeSymbol r = .ok s r' ∧ r'.WF ∧ r'.bits = rest) ∧
    (∀ (r r' : BitReader) s, r.WF → BitReader.run t.decodeSymbol r = .ok s r' →
      ∃ c, (c, s) ∈ table ∧ r.bits = c ++ r'.bits) := by
  obtain ⟨t, ht, hT⟩ := fixedLengthTree_ok
  refine ⟨_, t, documented_eq, ht, fun c s h r rest hw hb => ?_, fun r r' s hw hr => ?_⟩
  · rw [documented_codeOf] at h
    exact BitReader.run_ok hw (by rw [hb]; exact hT.decode h rest)
  · cases hd : t.decodeSymbol.exec r.bits with
    | ok s' rest =>
      obtain ⟨c, hc, hb⟩ := hT.decode_inv hd
      obtain ⟨r'', h1, h2, h3⟩ := BitReader.run_ok hw hd
      rw [h1] at hr
      cases hr
      exact ⟨c, (documented_codeOf c s).2 hc, by rw [hb, h3]⟩
    | fail e => exact absurd hd CodeTree.IsTree.decode_ne_fail
    | starved =>
      obtain ⟨r'', h1, _⟩ := BitReader.run_starved hw hd
      rw [h1] at hr
      cases hr

/-- The literal 'd' = 0x64 after which comes something else. -/
example : ([true, false, false, true, false, true, false, false], 0x64) ∈ documented.getD [] ∧
    (BitReader.new [0b00101001, 0xff]).bits =
      [true, false, false, true, false, true, false, false] ++ List.replicate 8 true := by
  rw [documented_eq]
  decide +kernel

theorem fixedLengthTree_lines : Huffman.fixedLengthTree.map (fun t => CodeTree.codeLines [] (.internal t.left t.right)) =
    .ok (fixedOrder.map fun s => (fixedLitCode s, s)) := by decide +kernel

theorem fixedDocument_lines : ∀ p ∈ fixedDocument.zip (fixedOrder.map fun s => (fixedLitCode s, s)),
    p.2.2 ≠ 256 → p.2.2 ≠ 0 → p.2.2 ≠ 34 →
      p.1.toList ++ ['\n'] = List.replicate (9 - p.2.1.length) ' ' ++ treeLine p.2 := by decide +kernel

/-- C105. The lines are those of the `Debug` text of the tree, in the same order and with the codes
right-aligned, but for three symbols that are written differently: the end of the stream, the byte 0 and the
quotation mark. -/
theorem C105_text : ∃ t lines, Huffman.fixedLengthTree = .ok t ∧ documented = some lines ∧
    t.debug = lines.flatMap treeLine ∧ ∀ line c s, (line, c, s) ∈ fixedDocument.zip lines →
      s ≠ 256 → s ≠ 0 → s ≠ 34 →
        line.toList ++ ['\n'] = List.replicate (9 - c.length) ' ' ++ treeLine (c, s) := by
  obtain ⟨t, ht, _⟩ := fixedLengthTree_ok
  have hl := fixedLengthTree_lines
  rw [ht] at hl
  refine ⟨t, _, ht, documented_eq, ?_, fun line c s h => fixedDocument_lines _ h⟩
  rw [t.debug_eq]
  exact congrArg _ (Except.ok.inj hl)

example : (" 10010100 => 0x64 'd'", [true, false, false, true, false, true, false, false], 0x64) ∈
      fixedDocument.zip (fixedOrder.map fun s => (fixedLitCode s, s)) ∧
    " 10010100 => 0x64 'd'\n".toList =
      ' ' :: treeLine ([true, false, false, true, false, true, false, false], 0x64) := by decide +kernel

end Rezip
