import Verif.Props.GzipFile
import Verif.Props.EndToEnd

/-!
# C61 and C84, continued: what becomes of data with a chunk of 65536 bytes
-/

namespace Rezip

open Rezip.Spec Parse

namespace Zero

/-! ### Streams that begin with stored blocks -/

/-- What precedes a block matters only for its alignment. -/
theorem _root_.Rezip.Spec.BlockBits.shift {off off' : Nat} {b : Block} {bs : List Bool}
    (h : BlockBits LengthSym off b bs) (ho : off % 8 = off' % 8) : BlockBits LengthSym off' b bs := by
  cases h with
  | stored data hd =>
    have : padLen (off + 2) = padLen (off' + 2) := by unfold padLen; omega
    rw [this]
    exact .stored data hd
  | fixed codes bs hc => exact .fixed codes bs hc
  | dynamic lit dist alpha codes trees hdr bs h1 h2 h3 h4 h5 =>
    exact .dynamic lit dist alpha codes trees hdr bs h1 h2 h3 h4 h5

theorem _root_.Rezip.Spec.StreamBits.shift {off : Nat} {blocks : List Block} {bs : List Bool}
    (h : StreamBits LengthSym off blocks bs) (off' : Nat) (ho : off % 8 = off' % 8) :
    StreamBits LengthSym off' blocks bs := by
  induction h generalizing off' with
  | last off b bs hb => exact .last off' b bs (hb.shift (by omega))
  | cons off b rest bs rs hb _ ih =>
    exact .cons off' b rest bs rs (hb.shift (by omega)) (ih _ (by omega))

/-- A stream after a stored block that is not the last. -/
theorem stored_cons {c : List UInt8} (hc : c.length ≤ 65535) {blocks : List Block} {d : List UInt8}
    (h : DeflateBytes blocks d) : DeflateBytes (.uncompressed c :: blocks) (chunkBytes false c ++ d) := by
  obtain ⟨bits, h1, h2⟩ := h
  obtain ⟨bs, b1, b2⟩ := chunkBytes_bits false c hc 0 rfl
  have hl := congrArg List.length b2
  rw [bytesBits_length, List.length_cons] at hl
  refine ⟨_, .cons 0 _ _ bs bits b1 (h1.shift _ (by omega)), ?_⟩
  rw [bytesBits_append, b2, h2]
  have : padLen (false :: bs ++ bits).length = padLen bits.length := by
    simp only [List.length_cons, List.cons_append, List.length_append]
    unfold padLen
    omega
  rw [padded, padded, this, List.append_assoc]

/-- A stream that begins with the bytes of such a block has the block. -/
theorem stored_uncons {c : List UInt8} (hc : c.length ≤ 65535) {blocks : List Block} {d rest tail : List UInt8}
    (h : DeflateBytes blocks d) (he : chunkBytes false c ++ tail = d ++ rest) :
    ∃ blocks' d', blocks = .uncompressed c :: blocks' ∧ DeflateBytes blocks' d' ∧ tail = d' ++ rest := by
  obtain ⟨bits, h1, h2⟩ := h
  obtain ⟨bs, b1, b2⟩ := chunkBytes_bits false c hc 0 rfl
  have hl := congrArg List.length b2
  rw [bytesBits_length, List.length_cons] at hl
  have e : bytesBits (d ++ rest) = false :: (bs ++ bytesBits tail) := by
    rw [← he, bytesBits_append, b2, List.cons_append]
  have e' := e
  rw [bytesBits_append, h2, padded] at e'
  generalize hz : (0 : Nat) = off at h1
  cases h1 with
  | last _ b bs' hb =>
    simp at e'
  | cons _ b blocks' bs' rs hb hs =>
    subst hz
    have hw : (parseDeflate (d ++ rest)).inner.WF := BitReader.wf_new _
    have hbits : (parseDeflate (d ++ rest)).inner.bits = bytesBits (d ++ rest) := BitReader.bits_new _
    have hmod : (0 + (parseDeflate (d ++ rest)).inner.bits.length) % 8 = 0 := by
      rw [hbits, bytesBits_length]; omega
    obtain ⟨r, n1, _, n3⟩ := next_block hw rfl hmod (hbits.trans e) b1
    generalize hp : List.replicate (padLen (false :: bs' ++ rs).length) false = pad at e'
    have e2 : bytesBits (d ++ rest) = false :: (bs' ++ (rs ++ pad ++ bytesBits rest)) := by
      rw [e, ← e']
      simp
    obtain ⟨r', m1, _, m3⟩ := next_block hw rfl hmod (hbits.trans e2) hb
    rw [n1] at m1
    simp only [Prod.mk.injEq, Option.some.injEq, Except.ok.injEq, BlockIter.mk.injEq, and_true] at m1
    obtain ⟨rfl, rfl⟩ := m1
    rw [n3] at m3
    have hlen : bs'.length = bs.length := by
      have := congrArg List.length (e.symm.trans e2)
      rw [m3] at this
      simp only [List.length_cons, List.length_append] at this ⊢
      omega
    have hpad : rs ++ pad = padded rs := by
      rw [← hp, padded]
      congr 2
      simp only [List.length_cons, List.cons_append, List.length_append]
      unfold padLen
      omega
    rw [hpad, ← bytesBits_packBits] at m3
    obtain ⟨t, t1, t2⟩ := bytesBits_split m3
    refine ⟨blocks', packBits rs, rfl, ⟨rs, hs.shift _ (by omega), bytesBits_packBits rs⟩, ?_⟩
    rw [t1, bytesBits_inj t2]

theorem stored_prefix {cs : List (List UInt8)} (hcs : ∀ c ∈ cs, c.length ≤ 65535) (tail rest : List UInt8)
    (blocks : List Block) :
    (∃ d, DeflateBytes blocks d ∧ cs.flatMap (chunkBytes false) ++ tail = d ++ rest) ↔
      ∃ blocks' d', blocks = cs.map .uncompressed ++ blocks' ∧ DeflateBytes blocks' d' ∧ tail = d' ++ rest := by
  induction cs generalizing blocks with
  | nil => simp
  | cons c cs ih =>
    have ih := ih (fun x hx => hcs x (by simp [hx]))
    have hc := hcs c (by simp)
    rw [List.flatMap_cons, List.append_assoc]
    constructor
    · rintro ⟨d, h1, h2⟩
      obtain ⟨bl, d1, rfl, g1, g2⟩ := stored_uncons hc h1 h2
      obtain ⟨bl', d', rfl, g3, g4⟩ := (ih bl).1 ⟨d1, g1, g2⟩
      exact ⟨bl', d', rfl, g3, g4⟩
    · rintro ⟨bl', d', rfl, g3, g4⟩
      obtain ⟨d1, g1, g2⟩ := (ih _).2 ⟨bl', d', rfl, g3, g4⟩
      exact ⟨_, stored_cons hc g1, by rw [g2, List.append_assoc]⟩

theorem chunkBlocks_append (a b : List (List UInt8)) (hb : b ≠ []) :
    chunkBlocks (a ++ b) = a.flatMap (chunkBytes false) ++ chunkBlocks b := by
  induction a with
  | nil => rfl
  | cons c a ih =>
    have : (a ++ b).isEmpty = false := by
      cases a with
      | nil => cases b with
        | nil => exact absurd rfl hb
        | cons x b => rfl
      | cons x a => rfl
    rw [List.cons_append, chunkBlocks, ih, this, List.flatMap_cons, List.append_assoc]

/-- A chunk of 65536 bytes looks like an empty one with the bytes after it. -/
theorem chunkBytes_wide (last : Bool) {c : List UInt8} (h : c.length = 65536) :
    chunkBytes last c = chunkBytes last [] ++ c := by
  rw [chunkBytes, h, chunkBytes]
  simp

theorem flatMap_chunkBytes_length (cs : List (List UInt8)) :
    (cs.flatMap (chunkBytes false)).length = cs.flatten.length + 5 * cs.length := by
  induction cs with
  | nil => rfl
  | cons c cs ih =>
    rw [List.flatMap_cons, List.length_append, ih, List.flatten_cons, List.length_append, List.length_cons,
      chunkBytes]
    simp only [List.length_append, u16le, List.length_cons, List.length_nil]
    omega

end Zero

theorem header_unique {hd hd' : GzHeader} (hv : hd.Valid) (hv' : hd'.Valid) {a b : List UInt8}
    (h : hd.bytes ++ a = hd'.bytes ++ b) : hd.bytes = hd'.bytes ∧ a = b := by
  have h1 := C57_accepted hd hv a
  rw [h, C57_accepted hd' hv' b] at h1
  injection h1 with h1 h2
  exact ⟨h1.symm, h2.symm⟩

/-! ### C61 -/

/-- C61, what happens to the first chunk of 65536 bytes, exactly. The file has the chunks before it as stored blocks,
an empty stored block, and then the bytes of the chunk. If the chunk is the last one, cat prints what is before it
and reports success. Otherwise cat takes the data in the chunk for compressed data: it succeeds exactly if the chunk
and the rest of the file begin with a DEFLATE stream with no reference to before the window, and prints what that
stands for. -/
theorem C61_exact_partial (crc : List UInt8 → Nat) (hd : GzHeader) (hv : hd.Valid) (data : List UInt8)
    (before : List (List UInt8)) (c : List UInt8) (after : List (List UInt8))
    (hc : Chunks data (before ++ c :: after)) (hb : ∀ b ∈ before, b.length ≠ 65536) (h64 : c.length = 65536) :
    ∃ pre tail, pre.length = before.flatten.length + 5 * (before.length + 1) ∧
      Zero.run crc hd.bytes (data.map .ok) = .ok (hd.bytes ++ pre ++ c ++ tail) ∧
      (after = [] → ∀ out, Cat.run (hd.bytes ++ pre ++ c ++ tail) ⟨out, none⟩ =
        (.ok (), ⟨out ++ before.flatten, none⟩)) ∧
      (after ≠ [] → ∀ x, Cat.run (hd.bytes ++ pre ++ c ++ tail) Sink.vec = (.ok (), ⟨x, none⟩) ↔
        ∃ blocks d rest y, DeflateBytes blocks d ∧ c ++ tail = d ++ rest ∧
          lzExpand 32768 before.flatten (blocks.flatMap lzCodes) = some y ∧ x = before.flatten ++ y) := by
  obtain ⟨f1, f2, _⟩ := hc.facts
  have hne : data ≠ [] := by
    rintro rfl
    have : (before ++ c :: after).flatten.length = 0 := by rw [f1]; rfl
    rw [List.flatten_append, List.flatten_cons, List.length_append, List.length_append] at this
    omega
  have hb' : ∀ b ∈ before, b.length ≤ 65535 := fun b hm => by
    have := (f2 b (by simp [hm])).2
    have := hb b hm
    omega
  refine ⟨before.flatMap (Zero.chunkBytes false) ++ Zero.chunkBytes after.isEmpty [],
    Zero.chunkBlocks after ++ Zero.u32le (crc data) ++ Zero.u32le (data.length % 2 ^ 32), ?_, ?_, ?_, ?_⟩
  · rw [List.length_append, Zero.flatMap_chunkBytes_length]
    show _ + 5 = _
    omega
  · rw [Zero.run_chunks crc hd.bytes data _ hne hc, Zero.chunkBlocks_append _ _ (by simp), Zero.chunkBlocks,
      Zero.chunkBytes_wide _ h64]
    simp only [List.append_assoc]
  · rintro rfl out
    generalize Zero.chunkBlocks [] ++ Zero.u32le (crc data) ++ Zero.u32le (data.length % 2 ^ 32) = tail
    have hl : DeflateBytes [.uncompressed []] (Zero.chunkBytes true []) :=
      ⟨_, .last 0 _ _ (.stored [] (by decide)), by decide⟩
    obtain ⟨d, g1, g2⟩ := (Zero.stored_prefix hb' (Zero.chunkBytes true []) [] _).2
      ⟨_, _, rfl, hl, (List.append_nil _).symm⟩
    rw [List.append_nil] at g2
    have hx : lzExpand 32768 [] ((before.map Block.uncompressed ++ [Block.uncompressed []]).flatMap lzCodes) =
        some before.flatten := by
      have := Zero.lzExpand_stored 32768 [] (before ++ [[]])
      simpa using this
    have := C62_cat hd hv d (c ++ tail) out _ _ g1 hx
    rw [← g2] at this
    rw [← this]
    simp only [List.append_assoc, List.isEmpty_nil]
  · intro ha x
    have hi : after.isEmpty = false := by
      cases after with
      | nil => exact absurd rfl ha
      | cons a t => rfl
    rw [hi]
    generalize Zero.chunkBlocks after ++ Zero.u32le (crc data) ++ Zero.u32le (data.length % 2 ^ 32) = tail
    have hcs : ∀ b ∈ before ++ [[]], b.length ≤ 65535 := by
      intro b hm
      rcases List.mem_append.1 hm with hm | hm
      · exact hb' b hm
      · rw [List.mem_singleton.1 hm]; decide
    have hpre : before.flatMap (Zero.chunkBytes false) ++ Zero.chunkBytes false [] =
        (before ++ [[]]).flatMap (Zero.chunkBytes false) := by
      rw [List.flatMap_append]; simp
    have hfl : (before ++ [[]]).flatten = before.flatten := by simp
    have hfile : hd.bytes ++ (before ++ [[]]).flatMap (Zero.chunkBytes false) ++ c ++ tail =
        hd.bytes ++ ((before ++ [[]]).flatMap (Zero.chunkBytes false) ++ (c ++ tail)) := by
      simp only [List.append_assoc]
    rw [hpre, hfile, C83_exact_partial]
    constructor
    · rintro ⟨hd', blocks, D, rest, hv', hD, hx, hf⟩
      rw [List.append_assoc hd'.bytes] at hf
      obtain ⟨_, hf⟩ := header_unique hv hv' hf
      obtain ⟨bl, d, rfl, g1, g2⟩ := (Zero.stored_prefix hcs _ _ _).1 ⟨D, hD, hf⟩
      rw [List.flatMap_append] at hx
      obtain ⟨u, v, e1, e2, rfl⟩ := lzExpand_split hx
      rw [Zero.lzExpand_stored, hfl] at e1
      cases e1
      exact ⟨bl, d, rest, v, g1, g2, e2, rfl⟩
    · rintro ⟨bl, d, rest, y, g1, g2, g3, rfl⟩
      obtain ⟨D, hD, hf⟩ := (Zero.stored_prefix hcs _ rest _).2 ⟨bl, d, rfl, g1, g2⟩
      refine ⟨hd, _, D, rest, hv, hD, ?_, by rw [hf, List.append_assoc]⟩
      rw [List.flatMap_append, lzExpand_append, Zero.lzExpand_stored, hfl]
      dsimp only
      rw [List.nil_append, g3]

/-- C61 and C84: with a chunk of 65536 bytes at the end, and none before, the file that zero writes is never one that
holds the data; cat prints less and reports success. -/
theorem C84_wide (crc : List UInt8 → Nat) (hd : GzHeader) (hv : hd.Valid) (data : List UInt8)
    (before : List (List UInt8)) (c : List UInt8) (hc : Chunks data (before ++ [c]))
    (hb : ∀ b ∈ before, b.length ≠ 65536) (h64 : c.length = 65536) :
    ∃ file, Zero.run crc hd.bytes (data.map .ok) = .ok file ∧ ¬ GzMember data file ∧
      data = before.flatten ++ c ∧ Cat.run file Sink.vec = (.ok (), ⟨before.flatten, none⟩) := by
  obtain ⟨pre, tail, _, h2, h3, _⟩ := C61_exact_partial crc hd hv data before c [] hc hb h64
  have hcat := h3 rfl []
  have hdata : data = before.flatten ++ c := by
    rw [← hc.facts.1]
    simp
  refine ⟨_, h2, fun hm => ?_, hdata, hcat⟩
  have := (C83_single_partial data _ hm).symm.trans hcat
  simp only [Prod.mk.injEq, Sink.mk.injEq, true_and, and_true, List.nil_append] at this
  rw [hdata] at this
  have := congrArg List.length this
  rw [List.length_append] at this
  omega

/-- 65536 bytes that begin with an empty stored block, marked as the last one. -/
def sly : List UInt8 := (List.range 65536).map fun i =>
  if i % 8192 = 0 then 1 else if i % 8192 = 3 ∨ i % 8192 = 4 then 255 else 0

theorem sly_length : sly.length = 65536 := by simp [sly]

/-- Every window of 8192 of these bytes adds up to 511. -/
theorem sly_window (pos : Nat) (h : 8192 + pos ≤ 65536) : windowSum sly (8192 + pos) = 511 := by
  have hl := sly_length
  induction pos with
  | zero =>
    have : sly.take 8192 = (List.range 8192).map (fun i =>
        if i % 8192 = 0 then 1 else if i % 8192 = 3 ∨ i % 8192 = 4 then 255 else 0) := by
      rw [sly, ← List.map_take, List.take_range]
      rfl
    rw [windowSum, this]
    decide +kernel
  | succ pos ih =>
    have ih := ih (by omega)
    rw [windowSum, show 8192 + pos - 8192 = pos by omega] at ih
    rw [windowSum, show 8192 + (pos + 1) - 8192 = pos + 1 by omega]
    have h1 : (sly.take (8192 + pos)).drop pos =
        sly[pos] :: (sly.take (8192 + pos)).drop (pos + 1) := by
      rw [List.drop_eq_getElem_cons (by rw [List.length_take]; omega)]
      simp
    have h2 : (sly.take (8192 + (pos + 1))).drop (pos + 1) =
        (sly.take (8192 + pos)).drop (pos + 1) ++ [sly[8192 + pos]'(by omega)] := by
      rw [← Nat.add_assoc, List.take_add_one, List.getElem?_eq_getElem (by omega),
        List.drop_append_of_le_length (by rw [List.length_take]; omega)]
      rfl
    have h3 : sly[8192 + pos]'(by omega) = sly[pos]'(by omega) := by
      simp only [sly, List.getElem_map, List.getElem_range]
      rw [Nat.add_mod_left]
    rw [h1] at ih
    rw [h2, h3]
    simp only [List.map_cons, List.sum_cons, List.map_append, List.sum_append, List.map_nil,
      List.sum_nil] at ih ⊢
    omega

theorem sly_chunks : Chunks (sly ++ [7]) ([] ++ sly :: [[7]]) := by
  have hl := sly_length
  have h1 : FirstChunk (sly ++ [7]) 65536 := by
    refine ⟨by rw [List.length_append, hl]; decide, Nat.le_refl _, .inr (.inl rfl), ?_⟩
    rintro L hL ⟨h1, h2⟩
    have := sly_window (L - 8192) (by omega)
    rw [show 8192 + (L - 8192) = L by omega] at this
    rw [windowSum, List.take_append_of_le_length (by omega), ← windowSum, this] at h2
    cases h2
  have h2 : Chunks [7] [[7]] :=
    .cons [7] 1 [] (by simp) ⟨by decide, by decide, .inl rfl, fun L hL hb => by have := hb.1; omega⟩ .nil
  have := Chunks.cons (sly ++ [7]) 65536 [[7]] (by simp) h1 (by rw [List.drop_left' hl]; exact h2)
  rwa [List.take_left' hl] at this

/-- C61: also a chunk that is not the last one can make all data vanish without an error. -/
theorem C61_vanishes (crc : List UInt8 → Nat) (hd : GzHeader) (hv : hd.Valid) :
    ∃ data file, Chunks data [sly, [7]] ∧ Zero.run crc hd.bytes (data.map .ok) = .ok file ∧
      Cat.run file Sink.vec = (.ok (), ⟨[], none⟩) := by
  obtain ⟨pre, tail, _, h2, _, h4⟩ := C61_exact_partial crc hd hv _ [] sly [[7]] sly_chunks (by simp) sly_length
  refine ⟨_, _, sly_chunks, h2, (h4 (by simp) []).2 ?_⟩
  refine ⟨[.uncompressed []], [1, 0, 0, 255, 255], sly.drop 5 ++ tail, [],
    ⟨_, .last 0 _ _ (.stored [] (by decide)), by decide⟩, ?_, rfl, rfl⟩
  have : sly.take 5 = [1, 0, 0, 255, 255] := by
    rw [sly, ← List.map_take, List.take_range]
    rfl
  rw [← List.append_assoc, ← this, List.take_append_drop]

end Rezip
