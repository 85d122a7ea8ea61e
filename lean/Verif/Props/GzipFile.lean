import Verif.Props.ZeroTool
import Verif.Spec.GzipFile

/-!
# C83, C84: whole gzip files
-/

namespace Rezip

open Rezip.Spec Parse

/-! ### C83 -/

/-- A member that holds `a`, in a fixed block, with its checksum and length. -/
def memberA : List UInt8 :=
  [0x1f, 0x8b, 8, 0, 0, 0, 0, 0, 0, 3, 0x4b, 0x04, 0x00, 0x43, 0xbe, 0xb7, 0xe8, 1, 0, 0, 0]

theorem memberA_holds : GzMember [0x61] memberA := by
  refine ⟨⟨false, (0, 0, 0, 0), 0, 3, none, none, none, none⟩, [.fixedHuffman [.literal 0x61]],
    [0x4b, 0x04, 0x00], ⟨(by intro x hx; cases hx), (by intro x hx; cases hx), (by intro x hx; cases hx)⟩, ?_,
    rfl, by decide +kernel⟩
  obtain ⟨d, h1, h2⟩ := (C22_parse_iff [0x4b, 0x04, 0x00] [.fixedHuffman [.literal 0x61]] []).1
    (by decide +kernel)
  rw [List.append_nil] at h1
  rwa [h1]

/-- C83 is false: of a file with two members, cat prints only the first, and reports success. -/
theorem C83_members_false : ¬ ∀ data file : List UInt8, GzFile data file →
    Cat.run file Sink.vec = (.ok (), ⟨data, none⟩) := by
  intro h
  have := h _ _ (.more _ _ _ _ memberA_holds (.one _ _ memberA_holds))
  revert this
  decide +kernel

/-- C83 is false: a file with a wrong checksum is accepted. -/
theorem C83_trailer_false : ¬ ∀ data file : List UInt8,
    Cat.run file Sink.vec = (.ok (), ⟨data, none⟩) → GzFile data file := by
  intro h
  have key : ∀ data file, GzFile data file → file.length ≠ 13 := by
    have hm : ∀ data file, GzMember data file → 18 ≤ file.length := by
      rintro data file ⟨hd, bl, d, _, _, _, rfl⟩
      simp [GzHeader.bytes, le32]
      omega
    intro data file hf
    cases hf with
    | one _ _ h => have := hm _ _ h; omega
    | more _ _ _ _ h => have := hm _ _ h; rw [List.length_append]; omega
  exact key _ _ (h [0x61] [0x1f, 0x8b, 8, 0, 0, 0, 0, 0, 0, 3, 0x4b, 0x04, 0x00] (by decide +kernel)) rfl

/-- C83 for files of a single member: cat prints the data. -/
theorem C83_single_partial (data file : List UInt8) (h : GzMember data file) :
    Cat.run file Sink.vec = (.ok (), ⟨data, none⟩) := by
  obtain ⟨hd, bl, d, hv, hb, hx, rfl⟩ := h
  have := C62_cat hd hv d (le32 (crc32 data) ++ le32 (data.length % 2 ^ 32)) [] data bl hb hx
  rw [← List.append_assoc] at this
  exact this

/-- What cat accepts, exactly: a header and a deflate stream, and after that anything or nothing. -/
theorem C83_exact_partial (data file : List UInt8) :
    Cat.run file Sink.vec = (.ok (), ⟨data, none⟩) ↔
      ∃ (hd : GzHeader) (blocks : List Block) (d rest : List UInt8), hd.Valid ∧ DeflateBytes blocks d ∧
        lzExpand 32768 [] (blocks.flatMap lzCodes) = some data ∧ file = hd.bytes ++ d ++ rest := by
  constructor
  · intro h
    obtain ⟨hd, d, rest, x, bl, hv, h1, h2, h3, h4⟩ := C62_only file [] none _ h
    simp only [List.nil_append] at h4
    subst h4
    exact ⟨hd, bl, d, rest, hv, h2, h3, h1⟩
  · rintro ⟨hd, bl, d, rest, hv, h1, h2, rfl⟩
    exact C62_cat hd hv d rest [] data bl h1 h2

example : Cat.run (memberA ++ [1, 2, 3]) Sink.vec = (.ok (), ⟨[0x61], none⟩) := by decide +kernel

/-! ### C84 -/

/-- C84. What the zero tool writes is a gzip file that holds the same data: the length and the checksum in the
trailer are right. The header and the trailer are those of the original. For data without a chunk of 65536
bytes. -/
theorem C84_valid_partial (inflate : List UInt8 → Zero.Source) (hi : Inflates inflate) (data file : List UInt8)
    (h : GzMember data file) (hne : data ≠ []) (h64 : ∀ cs, Chunks data cs → ∀ c ∈ cs, c.length ≠ 65536) :
    ∃ file', Zero.tool crc32 inflate file Sink.vec = .ok () ⟨file', none⟩ ∧ GzMember data file' ∧
      ∃ (hd : GzHeader) (d d' t : List UInt8), hd.Valid ∧ t.length = 8 ∧ file = hd.bytes ++ d ++ t ∧
        file' = hd.bytes ++ d' ++ t := by
  obtain ⟨hd, bl, d, hv, hb, hx, rfl⟩ := h
  obtain ⟨cs, hc, _⟩ := taken_chunks data
  obtain ⟨d', h1, h2⟩ := C80_file crc32 inflate hi hd hv d data
    (le32 (crc32 data) ++ le32 (data.length % 2 ^ 32)) [] bl hb hx hne cs hc (h64 cs hc)
  rw [← List.append_assoc, List.nil_append] at h2
  exact ⟨_, h2, ⟨hd, _, d', hv, h1, by rw [Zero.lzExpand_stored, hc.facts.1], rfl⟩,
    hd, d, d', le32 (crc32 data) ++ le32 (data.length % 2 ^ 32), hv, rfl, List.append_assoc _ _ _,
    List.append_assoc _ _ _⟩

/-- The file written for `a` is a member. -/
example : ∃ file', Zero.tool crc32 ownInflate memberA Sink.vec = .ok () ⟨file', none⟩ ∧
    GzMember [0x61] file' := by
  have := C84_valid_partial ownInflate ownInflate_inflates [0x61] memberA memberA_holds (by simp) (by
    intro cs hc c hcm e
    have := hc.facts.1
    have h := (List.sublist_flatten_of_mem hcm).length_le
    rw [this] at h
    simp at h
    omega)
  obtain ⟨file', h1, h2, _⟩ := this
  exact ⟨file', h1, h2⟩

/-- C84 is false in general: with 65536 bytes in one chunk the written file is not a member that holds the
data. -/
theorem C84_false : ¬ ∀ data file file' : List UInt8, GzMember data file → data ≠ [] →
    Zero.tool crc32 ownInflate file Sink.vec = .ok () ⟨file', none⟩ → GzMember data file' := by
  intro h
  obtain ⟨u, hul, huc⟩ : ∃ u : List UInt8, u.length = 65536 ∧ FirstChunk u 65536 :=
    ⟨unlucky, unlucky_length, unlucky_chunk⟩
  let hd : GzHeader := ⟨false, (0, 0, 0, 0), 0, 3, none, none, none, none⟩
  have hv : hd.Valid := ⟨(by intro x hx; cases hx), (by intro x hx; cases hx), (by intro x hx; cases hx)⟩
  have hne : u ≠ [] := by
    intro e
    have := hul
    rw [e] at this
    cases this
  obtain ⟨file', h1, h2⟩ := C61_lost crc32 hd hv u hul huc
  let cs := [u.take 32768, u.drop 32768]
  have hl : ∀ c ∈ cs, c.length ≤ 65535 := by
    intro c hc
    simp only [cs, List.mem_cons, List.not_mem_nil, or_false] at hc
    rcases hc with rfl | rfl
    · rw [List.length_take]; omega
    · rw [List.length_drop, hul]; omega
  have hb : DeflateBytes (cs.map .uncompressed) (Zero.chunkBlocks cs) := by
    refine ⟨_, Zero.chunks_stream cs (by simp [cs]) hl 0 rfl, ?_⟩
    rw [padded, bytesBits_length, show padLen (8 * (Zero.chunkBlocks cs).length) = 0 by
      unfold padLen; omega]
    simp
  have hx : lzExpand 32768 [] ((cs.map Block.uncompressed).flatMap lzCodes) = some u := by
    rw [Zero.lzExpand_stored]
    simp [cs]
  have hm : GzMember u (hd.bytes ++ Zero.chunkBlocks cs ++ le32 (crc32 u) ++
    le32 (u.length % 2 ^ 32)) := ⟨hd, _, _, hv, hb, hx, rfl⟩
  have ht : Zero.tool crc32 ownInflate (hd.bytes ++ Zero.chunkBlocks cs ++ le32 (crc32 u) ++
      le32 (u.length % 2 ^ 32)) Sink.vec = .ok () ⟨file', none⟩ := by
    have hh := C57_accepted hd hv (Zero.chunkBlocks cs ++ (le32 (crc32 u) ++
      le32 (u.length % 2 ^ 32)))
    rw [← List.append_assoc, ← List.append_assoc] at hh
    rw [Zero.tool, hh]
    dsimp only
    rw [ownInflate_inflates _ _ _ _ hb hx]
    obtain ⟨cs', hc, _⟩ := taken_chunks u
    rw [Zero.run_chunks crc32 _ _ _ hne hc] at h1
    rw [Sink.vec, Zero.runTo_chunks crc32 _ _ _ _ hne hc, List.nil_append, Except.ok.inj h1]
  have := C83_single_partial u file' (h _ _ _ hm hne ht)
  rw [Sink.vec, h2 []] at this
  simp only [Prod.mk.injEq, Sink.mk.injEq, true_and, and_true] at this
  exact hne this.symm

end Rezip
