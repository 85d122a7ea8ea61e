import Verif.Spec.Runs
import Verif.Lemmas.Runs
import Verif.Props.Own
import Verif.Props.Dump

/-!
# C112: the documented codes of a byte repeated
-/

namespace Rezip

open Spec Runs Parse Serialise

namespace Runs

/-- The settings of levels 4 to 9. -/
theorem slow_settings {level : Nat} (h4 : 4 ≤ level) (h9 : level ≤ 9) :
    ∃ st, gzipSettings level = some st ∧ 0 < st.chain ∧ st.insert = none := by
  have : level = 4 ∨ level = 5 ∨ level = 6 ∨ level = 7 ∨ level = 8 ∨ level = 9 := by omega
  rcases this with rfl | rfl | rfl | rfl | rfl | rfl <;> exact ⟨_, rfl, by decide, rfl⟩

/-- The settings of levels 1 to 3. -/
theorem fast_settings {level : Nat} (h1 : 1 ≤ level) (h3 : level ≤ 3) :
    ∃ st l, gzipSettings level = some st ∧ 0 < st.chain ∧ st.insert = some l ∧ 0 < l ∧ l < 258 := by
  have : level = 1 ∨ level = 2 ∨ level = 3 := by omega
  rcases this with rfl | rfl | rfl <;> exact ⟨_, _, rfl, by decide, rfl, by decide, by decide⟩

/-- The codes with a correct trace are the only ones. -/
theorem only {level : Nat} {st : Settings} (hst : gzipSettings level = some st) {data : List UInt8}
    {own codes : List Code} (ho : lzExpand 32768 [] own = some data) (hc : lzExpand 32768 [] codes = some data)
    (ht : refTrace st (st.insert.getD 65535) data 0 [] own = List.replicate own.length .correct) :
    (∃ tr, Tracer.tryGzip level [] data codes = .ok tr ∧ ∀ x ∈ tr, x = .correct) ↔ codes = own := by
  constructor
  · rintro ⟨tr, h1, h2⟩
    rw [C70_try_gzip level st hst data codes hc] at h1
    cases h1
    refine blockTrace_unique level st hst [] data codes own hc ho h2 ?_
    intro x hx
    change x ∈ refTrace st (st.insert.getD 65535) data 0 [] own at hx
    rw [ht] at hx
    exact (List.mem_replicate.1 hx).2
  · rintro rfl
    refine ⟨_, C70_try_gzip level st hst data codes hc, ?_⟩
    rw [ht]
    intro x hx
    exact (List.mem_replicate.1 hx).2

theorem window_replicate (b : UInt8) (n : Nat) : window (List.replicate n b) = List.replicate (min n 32768) b := by
  unfold window
  rw [List.length_replicate, List.drop_replicate, show n - (n - 32768) = min n 32768 by omega]

theorem From.file {st : Settings} (hc : 0 < st.chain) (hi : st.insert = none) {b : UInt8} {pos : Nat}
    {blocks : List Block} (hs : ∀ bl ∈ blocks, ∀ d, bl ≠ .uncompressed d)
    (h : From b pos (blocks.flatMap lzCodes)) : FileGuessed st (List.replicate pos b) blocks := by
  induction blocks generalizing pos with
  | nil => exact .nil _
  | cons bl bs ih =>
    rw [List.flatMap_cons] at h
    obtain ⟨f1, f2⟩ := h.split
    refine .cons _ _ _ _ (hs bl (by simp)) f1.stays.expand ?_ ?_
    · unfold blockTrace
      rw [window_replicate, List.length_replicate, List.replicate_append_replicate,
        f1.traced (by rw [hi]; decide) hc hi (q := min pos 32768) (by omega) rfl]
      intro x hx
      exact (List.mem_replicate.1 hx).2
    · rw [List.replicate_append_replicate]
      exact ih (fun x hx => hs x (by simp [hx])) f2

end Runs

/-! ### C112 -/

/-- C112. At levels 4 to 9, the codes of a byte repeated `n` times that are traced as correct are exactly two
literals, references one back of 258 bytes each, and the rest. -/
theorem C112_runs (level : Nat) (h4 : 4 ≤ level) (h9 : level ≤ 9) (b : UInt8) (n : Nat) (codes : List Code)
    (hc : lzExpand 32768 [] codes = some (List.replicate n b)) :
    (∃ tr, Tracer.tryGzip level [] (List.replicate n b) codes = .ok tr ∧ ∀ x ∈ tr, x = .correct) ↔
      codes = runCodes b n := by
  obtain ⟨st, hst, h1, h2⟩ := slow_settings h4 h9
  have he := (From.runCodes b n).stays.expand
  rw [total_runCodes] at he
  refine only hst he hc ?_
  exact (From.runCodes b n).traced (by rw [h2]; decide) h1 h2 (q := 0) (.inl rfl) (by rw [total_runCodes]; omega)

/-- The codes stand for the byte repeated. -/
theorem C112_bytes (b : UInt8) (n : Nat) :
    lzExpand 32768 [] (runCodes b n) = some (List.replicate n b) ∧
    lzExpand 32768 [] (fastRunCodes b n) = some (List.replicate n b) := by
  have h1 := (From.runCodes b n).stays.expand
  have h2 := (fast_stays b n).expand
  rw [total_runCodes] at h1
  rw [total_fast] at h2
  exact ⟨h1, h2⟩

/-- C112, at levels 1 to 3: the references after the first one of 258 bytes refer 258 back. -/
theorem C112_fast (level : Nat) (h1 : 1 ≤ level) (h3 : level ≤ 3) (b : UInt8) (n : Nat) (codes : List Code)
    (hc : lzExpand 32768 [] codes = some (List.replicate n b)) :
    (∃ tr, Tracer.tryGzip level [] (List.replicate n b) codes = .ok tr ∧ ∀ x ∈ tr, x = .correct) ↔
      codes = fastRunCodes b n := by
  obtain ⟨st, l, hst, k1, k2, k3, k4⟩ := fast_settings h1 h3
  exact only hst (C112_bytes b n).2 hc (fast_traced (by rw [k2]; exact k3) k1 k2 k4 b n)

/-- C112, for files: wherever these codes are cut into blocks, the file is recognised as made by any of the levels
4 to 9. -/
theorem C112_file (p : Profile) (level : Nat) (h4 : 4 ≤ level) (h9 : level ≤ 9) (b : UInt8) (n : Nat)
    (hd : GzHeader) (hv : hd.Valid) (blocks : List Block) (d rest : List UInt8) (hb : DeflateBytes blocks d)
    (hs : ∀ bl ∈ blocks, ∀ x, bl ≠ .uncompressed x) (hc : blocks.flatMap lzCodes = runCodes b n) :
    RunGzip.tryGzip p level (hd.bytes ++ d ++ rest) = .ok () := by
  obtain ⟨st, hst, h1, h2⟩ := slow_settings h4 h9
  refine (C88_try_gzip p level _).2 ⟨st, hd, d, rest, blocks, hst, hv, rfl, hb, ?_⟩
  exact From.file (pos := 0) h1 h2 hs (hc ▸ From.runCodes b n)

/-- The file of lib/src/lib.rs:84-99: 8453631 times `a`, two literals and 32765 references in a dynamic block, a reference
and a literal in a fixed block. -/
theorem C112_documented (p : Profile) (level : Nat) (h4 : 4 ≤ level) (h9 : level ≤ 9) (hd : GzHeader) (hv : hd.Valid)
    (trees : BitVector) (d rest : List UInt8)
    (hb : DeflateBytes [
      .dynamicHuffman trees ([.literal 97, .literal 97] ++ List.replicate 32765 (.reference ⟨1, 255⟩)),
      .fixedHuffman [.reference ⟨1, 255⟩, .literal 97]] d) :
    lzExpand 32768 [] (([.literal 97, .literal 97] ++ List.replicate 32765 (.reference ⟨1, 255⟩)) ++
      [.reference ⟨1, 255⟩, .literal 97]) = some (List.replicate 8453631 97) ∧
    RunGzip.tryGzip p level (hd.bytes ++ d ++ rest) = .ok () := by
  have e : runCodes 97 8453631 = ([.literal 97, .literal 97] ++ List.replicate 32765 (.reference ⟨1, 255⟩)) ++
      [.reference ⟨1, 255⟩, .literal 97] := by
    unfold runCodes
    rw [show min 8453631 2 = 2 by decide, show (8453631 - 2) / 258 = 32765 + 1 by decide,
      show (8453631 - 2) % 258 = 1 by decide, List.replicate_succ' (n := 32765), List.append_assoc, List.append_assoc]
    rfl
  refine ⟨e ▸ (C112_bytes 97 8453631).1, ?_⟩
  refine C112_file p level h4 h9 97 8453631 hd hv _ d rest hb ?_ ?_
  · intro bl hbl x hx
    subst hx
    rcases List.mem_cons.1 hbl with h | h
    · cases h
    · cases List.mem_singleton.1 h
  · rw [e]
    simp only [List.flatMap_cons, List.flatMap_nil, List.append_nil, lzCodes]

/-- What `dump` prints for it, as documented, if the byte is shown as `'a'`. -/
theorem C112_dump (dbg : UInt8 → List Char) (ha : dbg 97 = ['\'', 'a', '\'']) (hd : GzHeader) (hv : hd.Valid)
    (trees : BitVector) (bits : List Bool) (ht : trees.toBits = .ok bits) (d rest : List UInt8)
    (hb : DeflateBytes [
      .dynamicHuffman trees ([.literal 97, .literal 97] ++ List.replicate 32765 (.reference ⟨1, 255⟩)),
      .fixedHuffman [.reference ⟨1, 255⟩, .literal 97]] d) :
    Dump.run dbg (hd.bytes ++ d ++ rest) = (.ok (), Dump.joined (
      ["block 0:", s!" - dynamic huffman: BitVec: {bits.length}: {bitText bits}"] ++
      List.replicate 2 "    - lit: 0x61: 'a'" ++
      List.replicate 32765 "    - backref: 1 byte(s) back, 258 bytes long" ++
      ["block 1:", " - fixed huffman:", "    - backref: 1 byte(s) back, 258 bytes long", "    - lit: 0x61: 'a'"])) := by
  rw [C75_dump dbg hd hv d rest _ hb]
  have e1 : dumpCode (fun b => String.ofList (dbg b)) (.literal 97) = "    - lit: 0x61: 'a'" := by
    unfold dumpCode
    dsimp only
    rw [ha]
    decide +kernel
  have e2 : dumpCode (fun b => String.ofList (dbg b)) (.reference ⟨1, 255⟩) =
      "    - backref: 1 byte(s) back, 258 bytes long" := by
    unfold dumpCode
    dsimp only
    decide +kernel
  have e3 : headerBits (.dynamicHuffman trees
      ([.literal 97, .literal 97] ++ List.replicate 32765 (.reference ⟨1, 255⟩))) = bits := by
    unfold headerBits
    dsimp only
    rw [ht]
    rfl
  have e4 : s!"block {0}:" = "block 0:" ∧ s!"block {0 + 1}:" = "block 1:" := by decide +kernel
  rw [dumpText, dumpText, dumpText, e3, dumpBlock, dumpBlock, List.map_append, List.map_replicate, List.map_cons,
    List.map_cons, List.map_nil, List.map_cons, List.map_cons, List.map_nil, e1, e2, e4.1, e4.2]
  simp only [List.cons_append, List.nil_append, List.append_nil, List.replicate_succ (n := 1),
    List.replicate_succ (n := 0), List.replicate_zero]

/-- There are such files: the dynamic block can be written, e.g., with the trees of `exampleDyn`. -/
example : ∃ trees d, DeflateBytes [
    .dynamicHuffman trees ([.literal 97, .literal 97] ++ List.replicate 32765 (.reference ⟨1, 255⟩)),
    .fixedHuffman [.reference ⟨1, 255⟩, .literal 97]] d := by
  have e : Encodable (.dynamicHuffman exampleTrees [.literal 97, .reference ⟨1, 255⟩]) := by
    obtain ⟨bits, hs, _⟩ := ((C24_recompress_partial exampleDyn [] _ exampleDyn_parse).1 exampleDyn_recompress).1
    exact StreamBits.encodable hs _ (by simp)
  have e' : Encodable (.dynamicHuffman exampleTrees
      ([.literal 97, .literal 97] ++ List.replicate 32765 (.reference ⟨1, 255⟩))) := by
    cases e with
    | dynamic lit dist alpha codes trees hdr h1 h2 h3 h4 h5 h6 =>
      refine .dynamic lit dist alpha _ _ hdr h1 h2 h3 h4 h5 fun c hc => ?_
      rcases List.mem_append.1 hc with hc | hc
      · have : c = .literal 97 := by simpa using hc
        exact h6 c (by simp [this])
      · exact h6 c (by simp [(List.mem_replicate.1 hc).2])
  have f : Encodable (.fixedHuffman [.reference ⟨1, 255⟩, .literal 97]) := by
    rw [C23_fixed_encodable]
    intro r hr
    have : r = ⟨1, 255⟩ := by simpa using hr
    subst this
    unfold RefOk
    decide
  obtain ⟨bytes, hr, hp⟩ := C23_compress_parse_partial [
      .dynamicHuffman exampleTrees ([.literal 97, .literal 97] ++ List.replicate 32765 (.reference ⟨1, 255⟩)),
      .fixedHuffman [.reference ⟨1, 255⟩, .literal 97]] (List.cons_ne_nil _ _)
    (by intro b hb
        rcases List.mem_cons.1 hb with rfl | hb
        · exact e'
        · rw [List.mem_singleton.1 hb]
          exact f)
    (by intro b hb
        rcases List.mem_cons.1 hb with rfl | hb
        · trivial
        · rw [List.mem_singleton.1 hb]
          trivial)
  obtain ⟨d, _, h⟩ := (parseAll_iff _ _ _).1 (hp [])
  exact ⟨_, d, h⟩

/-- "aaaaaa" is "aa" and a reference one back (lib/src/lib.rs:81); a longer run at a slow and at a fast level. -/
example : runCodes 97 6 = [.literal 97, .literal 97, .reference ⟨1, 1⟩] ∧
    runCodes 97 600 = [.literal 97, .literal 97, .reference ⟨1, 255⟩, .reference ⟨1, 255⟩, .reference ⟨1, 79⟩] ∧
    fastRunCodes 97 600 =
      [.literal 97, .literal 97, .reference ⟨1, 255⟩, .reference ⟨258, 255⟩, .reference ⟨258, 79⟩] ∧
    runCodes 97 261 = [.literal 97, .literal 97, .reference ⟨1, 255⟩, .literal 97] := by decide +kernel

/-- The codes of the other kind of level are not traced as correct. -/
example : lzExpand 32768 [] (fastRunCodes 97 600) = some (List.replicate 600 97) ∧
    fastRunCodes 97 600 ≠ runCodes 97 600 := ⟨(C112_bytes 97 600).2, by decide +kernel⟩

end Rezip
