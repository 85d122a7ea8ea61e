import Verif.Props.Serialise
import Verif.Props.Cat

/-!
# C104: recompression is a normal form
-/

namespace Rezip

open Rezip.Spec Rezip.Parse Rezip.Serialise

theorem recompressed_stream {d out : List UInt8} {blocks : List Block} (hd : DeflateBytes blocks d)
    (h : recompress blocks = .ok out) (hs : ∀ b ∈ blocks, SwapSafe b) : DeflateBytes blocks out := by
  obtain ⟨bits, hb, _⟩ := hd
  obtain ⟨w, hw⟩ := loop_of_recompress h
  have henc := recompressLoop_encodable hb hw
  have hne : blocks ≠ [] := by rintro rfl; cases hb
  obtain ⟨bytes, h1, h2⟩ := C23_compress_parse_partial blocks hne henc hs
  rw [h] at h1
  cases h1
  obtain ⟨d', h3, h4⟩ := (parseAll_iff _ _ _).1 (h2 [])
  rw [List.append_nil, List.append_nil] at h3
  subst h3
  exact h4

/-- C104: what recompression writes for the blocks of a stream is a stream of the same blocks, whatever follows it;
recompressing that changes nothing; and it is the stream itself exactly if that uses the standard length symbols. -/
theorem C104_normal (d out : List UInt8) (blocks : List Block) (hd : DeflateBytes blocks d)
    (h : recompress blocks = .ok out) (hs : ∀ b ∈ blocks, SwapSafe b) :
    (∀ rest, ∃ blocks', parseAll (out ++ rest) = .ok (blocks', rest) ∧ blocks' = blocks ∧
      recompress blocks' = .ok out) ∧
    (out = d ↔ StrictDeflateBytes blocks d) := by
  have ho := recompressed_stream hd h hs
  refine ⟨fun rest => ⟨blocks, (parseAll_iff _ _ _).2 ⟨out, rfl, ho⟩, rfl, h⟩, ?_⟩
  have := C24_recompress_partial d [] blocks ((parseAll_iff _ _ _).2 ⟨d, rfl, hd⟩)
  rw [h] at this
  constructor
  · rintro rfl
    exact (this.1 rfl).1
  · intro hst
    have := this.2 ⟨hst, hs⟩
    cases this
    rfl

/-- C104: two streams are recompressed to the same bytes exactly if they have the same blocks. -/
theorem C104_same (d d' out out' : List UInt8) (blocks blocks' : List Block) (hd : DeflateBytes blocks d)
    (hd' : DeflateBytes blocks' d') (h : recompress blocks = .ok out) (h' : recompress blocks' = .ok out')
    (hs : ∀ b ∈ blocks, SwapSafe b) (hs' : ∀ b ∈ blocks', SwapSafe b) : out = out' ↔ blocks = blocks' := by
  constructor
  · rintro rfl
    have h1 := (parseAll_iff out blocks []).2 ⟨out, by simp, recompressed_stream hd h hs⟩
    have h2 := (parseAll_iff out blocks' []).2 ⟨out, by simp, recompressed_stream hd' h' hs'⟩
    rw [h1] at h2
    cases h2
    rfl
  · rintro rfl
    rw [h] at h'
    cases h'
    rfl

/-- C104: `cat` gives the same output, and the same result, for a file whose stream was recompressed. -/
theorem C104_cat (hd : GzHeader) (hv : hd.Valid) (d out trailer x into : List UInt8) (blocks : List Block)
    (hb : DeflateBytes blocks d) (hx : lzExpand 32768 [] (blocks.flatMap lzCodes) = some x)
    (h : recompress blocks = .ok out) (hs : ∀ b ∈ blocks, SwapSafe b) :
    Cat.run (hd.bytes ++ out ++ trailer) ⟨into, none⟩ = Cat.run (hd.bytes ++ d ++ trailer) ⟨into, none⟩ := by
  rw [C62_cat hd hv d trailer into x blocks hb hx,
    C62_cat hd hv out trailer into x blocks (recompressed_stream hb h hs) hx]

/-- Length 258 written as 284 and 31: recompressed with 285, a byte shorter. -/
example : parseAll [0x4b, 0x1c, 0xf9, 0x00, 0x00] = .ok ([.fixedHuffman [.literal 0x61, .reference ⟨1, 255⟩]], []) ∧
    recompress [.fixedHuffman [.literal 0x61, .reference ⟨1, 255⟩]] = .ok [0x4b, 0x1c, 0x05, 0x00] ∧
    parseAll [0x4b, 0x1c, 0x05, 0x00] = .ok ([.fixedHuffman [.literal 0x61, .reference ⟨1, 255⟩]], []) := by
  decide +kernel

end Rezip
