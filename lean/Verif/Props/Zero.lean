import Verif.Props.Cat
import Verif.Lemmas.Zero
import Verif.Spec.Rsync

/-!
# C59-C61: rsync-friendly chunks and the stored-only rewrite
-/

namespace Rezip

open Rezip.Spec

namespace Zero

theorem boundary_iff (d : List UInt8) (L : Nat) (h : 8192 ≤ L) :
    boundary 8192 4096 d L ↔ Boundary d L :=
  ⟨fun x => ⟨h, x⟩, fun x => x.2⟩

end Zero

/-! ### C60 -/

/-- C60. From any error-free source, `take_rsync` takes the first chunk, as specified, and leaves the
rest. -/
theorem C60_first_chunk (d : List UInt8) :
    ∃ L, FirstChunk d L ∧
      Zero.takeRsync (d.map .ok) = .ok (d.take L) ((d.drop L).map .ok) := by
  rcases Zero.takeRsyncWith_eq 8192 4096 65536 (by decide) (by decide) (by decide) d with
    ⟨h1, h2⟩ | ⟨L, h1, h2, h3, h4, h5, h6⟩
  · refine ⟨d.length, ⟨by omega, by omega, .inl rfl, ?_⟩, ?_⟩
    · rintro L' hL ⟨h, _⟩; omega
    · rw [List.take_length, List.drop_length]; exact h2
  · refine ⟨L, ⟨h3, h2, ?_, ?_⟩, h4⟩
    · rcases h5 with h5 | h5 | h5
      · exact .inr (.inl h5)
      · exact .inl h5
      · exact .inr (.inr ((Zero.boundary_iff d L h1).1 h5))
    · intro L' hL hb
      exact h6 L' hb.1 hL ((Zero.boundary_iff d L' hb.1).2 hb)

/-- The specification determines the length of the chunk. -/
theorem C60_unique (d : List UInt8) (L M : Nat) (hL : FirstChunk d L) (hM : FirstChunk d M) : L = M := by
  have key : ∀ {a b : Nat}, FirstChunk d a → FirstChunk d b → ¬ a < b := by
    intro a b ha hb hlt
    obtain ⟨a1, a2, a3, a4⟩ := ha
    obtain ⟨b1, b2, b3, b4⟩ := hb
    rcases a3 with a3 | a3 | a3
    · omega
    · omega
    · exact b4 a hlt a3
  have := key hL hM
  have := key hM hL
  omega

/-- A chunk that ends before the end of the data does not depend on what follows: not even on the next
byte. -/
theorem C60_local (d more : List UInt8) (L : Nat) (h : FirstChunk d L) (hl : L < d.length) :
    FirstChunk (d.take L ++ more) L := by
  obtain ⟨h1, h2, h3, h4⟩ := h
  have hlen : (d.take L).length = L := by rw [List.length_take]; omega
  have hb : ∀ M, M ≤ L → (Boundary (d.take L ++ more) M ↔ Boundary d M) := by
    intro M hM
    unfold Boundary windowSum
    rw [List.take_append_of_le_length (by omega), List.take_take, Nat.min_eq_left hM]
  refine ⟨by rw [List.length_append]; omega, h2, ?_, ?_⟩
  · rcases h3 with h3 | h3 | h3
    · omega
    · exact .inr (.inl h3)
    · exact .inr (.inr ((hb L (Nat.le_refl L)).2 h3))
  · intro L' hL hb'
    exact h4 L' hL ((hb L' (by omega)).1 hb')

/-- An error of the source within the first 8192 bytes is returned. -/
theorem C60_error (d : List UInt8) (e : Fail) (rest : Zero.Source) (h : d.length < 8192) :
    Zero.takeRsync (d.map .ok ++ .error e :: rest) = .error e rest := by
  have key : ∀ (n : Nat) (d buf : List UInt8) (sum : Nat), d.length < n →
      Zero.fill n buf sum (d.map .ok ++ .error e :: rest) = .error e rest := by
    intro n
    induction n with
    | zero => intro d _ _ h; omega
    | succ n ih =>
      intro d buf sum h
      cases d with
      | nil => rfl
      | cons a d => exact ih d _ _ (by simpa using h)
  exact ES.bind_err (key 8192 d [] 0 h)

/-! ### C59 -/

/-- The chunks obtained by taking until an empty one. -/
inductive Taken : Zero.Source → List (List UInt8) → Prop
  | nil (src src' : Zero.Source) : Zero.takeRsync src = .ok [] src' → Taken src []
  | cons (src src' : Zero.Source) (c : List UInt8) (cs : List (List UInt8)) :
      Zero.takeRsync src = .ok c src' → c ≠ [] → Taken src' cs → Taken src (c :: cs)

theorem Spec.FirstChunk.pos {d : List UInt8} {L : Nat} (h : FirstChunk d L) (hd : d ≠ []) : 0 < L := by
  obtain ⟨h1, h2, h3, h4⟩ := h
  have := List.length_pos_iff.2 hd
  rcases h3 with h3 | h3 | h3
  · omega
  · omega
  · have := h3.1; omega

theorem taken_chunks (d : List UInt8) : ∃ cs, Chunks d cs ∧ Taken (d.map .ok) cs := by
  induction hn : d.length using Nat.strongRecOn generalizing d with
  | ind n ih =>
    obtain ⟨L, h1, h2⟩ := C60_first_chunk d
    by_cases hd : d = []
    · subst hd
      exact ⟨[], .nil, .nil _ _ (by simpa using h2)⟩
    · have hL := h1.pos hd
      have hl := h1.1
      obtain ⟨cs, c1, c2⟩ := ih (d.drop L).length (by rw [List.length_drop]; omega) _ rfl
      exact ⟨d.take L :: cs, .cons d L cs hd h1 c1, .cons _ _ _ _ h2 (by
        intro h
        have := congrArg List.length h
        rw [List.length_take, List.length_nil] at this
        omega) c2⟩

theorem Taken.unique {s : Zero.Source} {a b : List (List UInt8)} (ha : Taken s a) (hb : Taken s b) :
    a = b := by
  induction ha generalizing b with
  | nil src src' h =>
    cases hb with
    | nil => rfl
    | cons _ src'' c cs h' hc => rw [h] at h'; cases h'; exact absurd rfl hc
  | cons src src' c cs h hc hcs ih =>
    cases hb with
    | nil _ _ h' => rw [h] at h'; cases h'; exact absurd rfl hc
    | cons _ src'' c' cs' h' hc' hcs' =>
      rw [h] at h'
      cases h'
      rw [ih hcs']

theorem Spec.Chunks.facts {d : List UInt8} {cs : List (List UInt8)} (h : Chunks d cs) :
    cs.flatten = d ∧ (∀ c ∈ cs, c ≠ [] ∧ c.length ≤ 65536) ∧
      ∀ c ∈ cs.dropLast, 8192 ≤ c.length := by
  induction h with
  | nil => simp
  | cons d L cs hd hf hcs ih =>
    obtain ⟨i1, i2, i3⟩ := ih
    have hL := hf.pos hd
    have hl := hf.1
    have hlen : (d.take L).length = L := by rw [List.length_take]; omega
    refine ⟨?_, ?_, ?_⟩
    · rw [List.flatten_cons, i1, List.take_append_drop]
    · intro c hc
      rcases List.mem_cons.1 hc with rfl | hc
      · exact ⟨fun h => by rw [h] at hlen; simp at hlen; omega, by rw [hlen]; exact hf.2.1⟩
      · exact i2 c hc
    · intro c hc
      cases cs with
      | nil => simp at hc
      | cons c2 cs =>
        rw [List.dropLast_cons_of_ne_nil (by simp)] at hc
        rcases List.mem_cons.1 hc with rfl | hc
        · rw [hlen]
          have hne : d.drop L ≠ [] := by
            intro h
            rw [h] at hcs
            cases hcs with
            | cons _ _ _ hx => exact hx rfl
          have : L < d.length := by
            have := List.length_pos_iff.2 hne
            rw [List.length_drop] at this
            omega
          rcases hf.2.2.1 with h | h | h
          · omega
          · omega
          · exact h.1
        · exact i3 c hc

/-- C59. Taking chunks until an empty one gives exactly one list of chunks: none is empty or longer than
65536, all but the last have at least 8192 bytes, and together they are the data. -/
theorem C59_chunks (d : List UInt8) :
    ∃ cs, Taken (d.map .ok) cs ∧ (∀ cs', Taken (d.map .ok) cs' → cs' = cs) ∧ cs.flatten = d ∧
      (∀ c ∈ cs, c ≠ [] ∧ c.length ≤ 65536) ∧ ∀ c ∈ cs.dropLast, 8192 ≤ c.length := by
  obtain ⟨cs, h1, h2⟩ := taken_chunks d
  exact ⟨cs, h2, fun cs' h => h.unique h2, h1.facts⟩

/-- These are the chunks of the specification. -/
theorem C59_are_chunks (d : List UInt8) (cs : List (List UInt8)) :
    Taken (d.map .ok) cs ↔ Chunks d cs := by
  obtain ⟨cs', h1, h2⟩ := taken_chunks d
  have u : ∀ {d a b}, Chunks d a → Chunks d b → a = b := by
    intro d a b ha hb
    induction ha generalizing b with
    | nil => cases hb with
      | nil => rfl
      | cons _ _ _ h => exact absurd rfl h
    | cons d L cs hd hf hcs ih =>
      cases hb with
      | nil => exact absurd rfl hd
      | cons _ M cs2 _ hf2 hcs2 =>
        cases C60_unique _ _ _ hf hf2
        rw [ih hcs2]
  constructor
  · intro h; rw [h.unique h2]; exact h1
  · intro h; rw [u h h1]; exact h2

/-! ### C61 -/

namespace Zero

/-- The bytes of a chunk: header byte, length, complement, data. -/
def chunkBytes (last : Bool) (buf : List UInt8) : List UInt8 :=
  [if last then 1 else 0] ++ u16le (buf.length % 65536) ++ u16le (buf.length % 65536 ^^^ 0xffff) ++ buf

/-- The stored blocks of chunks, the last one marked as such. -/
def chunkBlocks : List (List UInt8) → List UInt8
  | [] => []
  | c :: cs => chunkBytes cs.isEmpty c ++ chunkBlocks cs

theorem writeAll_none (buf o : List UInt8) : writeAll buf ⟨o, none⟩ = .ok () ⟨o ++ buf, none⟩ := rfl

theorem writeChunk_none (last : Bool) (buf o : List UInt8) :
    writeChunk last buf ⟨o, none⟩ = .ok () ⟨o ++ chunkBytes last buf, none⟩ := by
  rw [writeChunk]
  dsimp only
  rw [ES.bind_ok (writeAll_none _ _), ES.bind_ok (writeAll_none _ _), ES.bind_ok (writeAll_none _ _),
    writeAll_none, chunkBytes]
  simp only [List.append_assoc]

theorem loop_chunks {d : List UInt8} {cs : List (List UInt8)} (h : Chunks d cs) (fuel n : Nat)
    (hf : d.length < fuel) (hn : n < 2 ^ 32)
    (all o : List UInt8) :
    loop takeRsync fuel (source d) n all ⟨o, none⟩ =
      .ok ((n + d.length) % 2 ^ 32, all ++ d) ⟨o ++ chunkBlocks cs, none⟩ := by
  induction h generalizing fuel n all o with
  | nil =>
    cases fuel with
    | zero => omega
    | succ fuel =>
      obtain ⟨L, _, h2⟩ := C60_first_chunk []
      rw [loop]
      simp only [List.take_nil, List.drop_nil] at h2
      rw [show source [] = List.map Except.ok [] from rfl, h2]
      simp only [List.isEmpty_nil, if_true, chunkBlocks, List.append_nil, List.length_nil, Nat.add_zero,
        Nat.mod_eq_of_lt hn]
      rfl
  | cons d L cs hd hfc hcs ih =>
    cases fuel with
    | zero => omega
    | succ fuel =>
      obtain ⟨L', h1, h2⟩ := C60_first_chunk d
      cases C60_unique _ _ _ hfc h1
      have hL := hfc.pos hd
      have hl := hfc.1
      have hlen : (d.take L).length = L := by rw [List.length_take]; omega
      rw [loop, show source d = List.map Except.ok d from rfl, h2]
      dsimp only
      rw [if_neg (by
        intro h
        rw [List.isEmpty_iff] at h
        rw [h] at hlen
        simp at hlen
        omega), show List.map Except.ok (d.drop L) = source (d.drop L) from rfl]
      have he : (source (d.drop L)).isEmpty = cs.isEmpty := by
        clear ih h2
        generalize d.drop L = t at hcs
        cases hcs with
        | nil => rfl
        | cons _ L' cs' hd' _ _ =>
          cases t with
          | nil => exact absurd rfl hd'
          | cons a t => rfl
      rw [ES.bind_ok (writeChunk_none _ _ _), ih fuel _ (by rw [List.length_drop]; omega)
        (Nat.mod_lt _ (by decide)), he, hlen, List.append_assoc all, List.take_append_drop, chunkBlocks,
        List.length_drop, List.append_assoc o]
      congr 2
      omega

theorem u16le_eq {n : Nat} (h : n ≤ 65535) : u16le n = le16 n := by
  rw [u16le, le16, Nat.mod_eq_of_lt (by omega : n / 256 < 256)]

theorem chunkBytes_bits (last : Bool) (c : List UInt8) (h : c.length ≤ 65535) (off : Nat)
    (ho : off % 8 = 0) :
    ∃ bs, BlockBits LengthSym (off + 1) (.uncompressed c) bs ∧
      bytesBits (chunkBytes last c) = last :: bs := by
  refine ⟨_, .stored c h, ?_⟩
  rw [chunkBytes, Nat.mod_eq_of_lt (by omega : c.length < 65536), Parse.xor_ffff h, u16le_eq h,
    u16le_eq (by omega), List.append_assoc, List.append_assoc, bytesBits_append]
  rw [show padLen (off + 1 + 2) = 5 by unfold padLen; omega]
  rw [List.append_assoc (le16 _)]
  cases last <;> rfl

theorem chunks_stream (cs : List (List UInt8)) (hne : cs ≠ []) (h : ∀ c ∈ cs, c.length ≤ 65535)
    (off : Nat) (ho : off % 8 = 0) :
    StreamBits LengthSym off (cs.map .uncompressed) (bytesBits (chunkBlocks cs)) := by
  induction cs generalizing off with
  | nil => exact absurd rfl hne
  | cons c cs ih =>
    rw [chunkBlocks, bytesBits_append]
    obtain ⟨bs, b1, b2⟩ := chunkBytes_bits cs.isEmpty c (h c (by simp)) off ho
    have hl := congrArg List.length b2
    rw [bytesBits_length, List.length_cons] at hl
    rw [b2]
    cases cs with
    | nil =>
      rw [chunkBlocks, bytesBits_nil, List.append_nil]
      exact .last off _ bs b1
    | cons c2 cs =>
      exact .cons off _ _ bs _ b1 (ih (by simp) (fun x hx => h x (by simp [hx])) _ (by omega))

theorem lzExpand_stored (W : Nat) (h : List UInt8) (cs : List (List UInt8)) :
    lzExpand W h ((cs.map Block.uncompressed).flatMap lzCodes) = some cs.flatten := by
  have key : ∀ (l h : List UInt8) (rest : List Code) (x : List UInt8),
      (∀ h', lzExpand W h' rest = some x) → lzExpand W h (l.map .literal ++ rest) = some (l ++ x) := by
    intro l
    induction l with
    | nil => intro h rest x hx; exact hx h
    | cons a l ih =>
      intro h rest x hx
      rw [List.map_cons, List.cons_append, lzExpand, lzCode]
      dsimp only
      rw [ih (h ++ [a]) rest x hx]
      rfl
  induction cs generalizing h with
  | nil => rfl
  | cons c cs ih =>
    rw [List.map_cons, List.flatMap_cons, List.flatten_cons]
    exact key c h _ _ (fun h' => ih h')

theorem runTo_chunks (crc : List UInt8 → Nat) (header d o : List UInt8) (cs : List (List UInt8))
    (hd : d ≠ []) (h : Chunks d cs) :
    runTo crc header (d.map .ok) ⟨o, none⟩ = .ok ()
      ⟨o ++ (header ++ chunkBlocks cs ++ u32le (crc d) ++ u32le (d.length % 2 ^ 32)), none⟩ := by
  have hne : (d.map (Except.ok (ε := Fail))).isEmpty = false := by
    cases d with
    | nil => exact absurd rfl hd
    | cons a d => rfl
  rw [runTo, assert_of (by rw [hne]; rfl), ES.liftE_bind_ok, ES.bind_ok (writeAll_none _ _), List.length_map,
    show List.map Except.ok d = source d from rfl,
    ES.bind_ok (loop_chunks h _ _ (by omega) (by decide) _ _)]
  dsimp only
  rw [ES.bind_ok (writeAll_none _ _), writeAll_none, Nat.zero_add]
  simp only [List.append_assoc, List.nil_append]

theorem run_chunks (crc : List UInt8 → Nat) (header d : List UInt8) (cs : List (List UInt8))
    (hd : d ≠ []) (h : Chunks d cs) :
    run crc header (d.map .ok) =
      .ok (header ++ chunkBlocks cs ++ u32le (crc d) ++ u32le (d.length % 2 ^ 32)) := by
  rw [run, Sink.vec, runTo_chunks crc header d [] cs hd h]
  rfl

end Zero

/-- C61, for data none of whose chunks has exactly 65536 bytes: the zero tool writes the same header, one
stored block per chunk, and the checksum and length of the data; cat prints the data. -/
theorem C61_rewrite_partial (crc : List UInt8 → Nat) (hd : GzHeader) (hv : hd.Valid)
    (data : List UInt8) (cs : List (List UInt8)) (hne : data ≠ []) (hc : Chunks data cs)
    (h64 : ∀ c ∈ cs, c.length ≠ 65536) :
    ∃ d, Zero.run crc hd.bytes (data.map .ok) =
        .ok (hd.bytes ++ d ++ Zero.u32le (crc data) ++ Zero.u32le (data.length % 2 ^ 32)) ∧
      DeflateBytes (cs.map .uncompressed) d ∧
      ∀ out, Cat.run (hd.bytes ++ d ++ Zero.u32le (crc data) ++ Zero.u32le (data.length % 2 ^ 32))
        ⟨out, none⟩ = (.ok (), ⟨out ++ data, none⟩) := by
  obtain ⟨f1, f2, f3⟩ := hc.facts
  have hcs : cs ≠ [] := by
    rintro rfl
    exact hne f1.symm
  have hb : DeflateBytes (cs.map .uncompressed) (Zero.chunkBlocks cs) := by
    refine ⟨_, Zero.chunks_stream cs hcs (fun c hc => ?_) 0 rfl, ?_⟩
    · have := (f2 c hc).2
      have := h64 c hc
      omega
    · rw [padded, bytesBits_length, show padLen (8 * (Zero.chunkBlocks cs).length) = 0 by
        unfold padLen; omega]
      simp
  refine ⟨Zero.chunkBlocks cs, Zero.run_chunks crc hd.bytes data cs hne hc, hb, fun out => ?_⟩
  rw [List.append_assoc (hd.bytes ++ _)]
  exact C62_cat hd hv _ _ out data _ hb (by rw [Zero.lzExpand_stored, f1])

/-- In particular for fewer than 65536 bytes. -/
theorem C61_short_partial (crc : List UInt8 → Nat) (hd : GzHeader) (hv : hd.Valid)
    (data : List UInt8) (hne : data ≠ []) (hl : data.length < 65536) :
    ∃ file, Zero.run crc hd.bytes (data.map .ok) = .ok file ∧
      Gzip.discardHeader file = .ok hd.bytes (file.drop hd.bytes.length) ∧
      ∀ out, Cat.run file ⟨out, none⟩ = (.ok (), ⟨out ++ data, none⟩) := by
  obtain ⟨cs, hc, _⟩ := taken_chunks data
  obtain ⟨d, h1, _, h2⟩ := C61_rewrite_partial crc hd hv data cs hne hc (by
    intro c hcm e
    have h := (List.sublist_flatten_of_mem hcm).length_le
    rw [hc.facts.1] at h
    omega)
  refine ⟨_, h1, ?_, h2⟩
  rw [List.append_assoc, List.append_assoc, List.drop_left]
  exact C57_accepted hd hv _

/-- A single chunk of 65536 bytes: the file that is written decompresses to nothing, without an error. -/
theorem C61_lost (crc : List UInt8 → Nat) (hd : GzHeader) (hv : hd.Valid) (data : List UInt8)
    (hl : data.length = 65536) (hf : FirstChunk data 65536) :
    ∃ file, Zero.run crc hd.bytes (data.map .ok) = .ok file ∧
      ∀ out, Cat.run file ⟨out, none⟩ = (.ok (), ⟨out, none⟩) := by
  have hne : data ≠ [] := by rintro rfl; cases hl
  have hc : Chunks data [data] := by
    have : Chunks data [data.take 65536] := .cons data 65536 [] hne hf (by
      rw [← hl, List.drop_length]; exact .nil)
    rwa [← hl, List.take_length] at this
  refine ⟨_, Zero.run_chunks crc hd.bytes data _ hne hc, fun out => ?_⟩
  have hb : DeflateBytes [.uncompressed []] [1, 0, 0, 255, 255] :=
    ⟨_, .last 0 _ _ (.stored [] (by decide)), by decide⟩
  have hx : Zero.chunkBlocks [data] = [1, 0, 0, 255, 255] ++ data := by
    rw [Zero.chunkBlocks, Zero.chunkBytes, hl]
    simp [Zero.chunkBlocks, Zero.u16le]
  have := C62_cat hd hv [1, 0, 0, 255, 255] (data ++ (Zero.u32le (crc data) ++
    Zero.u32le (data.length % 2 ^ 32))) out [] _ hb rfl
  rw [List.append_nil] at this
  rw [hx, ← this]
  simp only [List.append_assoc]

/-- 65536 bytes in which every 8192nd is a one and the others are zero. -/
def unlucky : List UInt8 := (List.range 65536).map (fun i => if i % 8192 = 0 then 1 else 0)

theorem unlucky_length : unlucky.length = 65536 := by simp [unlucky]

/-- Every window of 8192 of these bytes adds up to one. -/
theorem unlucky_window (pos : Nat) (h : 8192 + pos ≤ 65536) : windowSum unlucky (8192 + pos) = 1 := by
  have hl := unlucky_length
  induction pos with
  | zero =>
    have : unlucky.take 8192 = (List.range 8192).map (fun i => if i % 8192 = 0 then 1 else 0) := by
      rw [unlucky, ← List.map_take, List.take_range]
      rfl
    rw [windowSum, this]
    decide +kernel
  | succ pos ih =>
    have ih := ih (by omega)
    rw [windowSum, show 8192 + pos - 8192 = pos by omega] at ih
    rw [windowSum, show 8192 + (pos + 1) - 8192 = pos + 1 by omega]
    have h1 : (unlucky.take (8192 + pos)).drop pos =
        unlucky[pos] :: (unlucky.take (8192 + pos)).drop (pos + 1) := by
      rw [List.drop_eq_getElem_cons (by rw [List.length_take]; omega)]
      simp
    have h2 : (unlucky.take (8192 + (pos + 1))).drop (pos + 1) =
        (unlucky.take (8192 + pos)).drop (pos + 1) ++ [unlucky[8192 + pos]'(by omega)] := by
      rw [← Nat.add_assoc, List.take_add_one, List.getElem?_eq_getElem (by omega),
        List.drop_append_of_le_length (by rw [List.length_take]; omega)]
      rfl
    have h3 : unlucky[8192 + pos]'(by omega) = unlucky[pos]'(by omega) := by
      simp only [unlucky, List.getElem_map, List.getElem_range]
      rw [Nat.add_mod_left]
    rw [h1] at ih
    rw [h2, h3]
    simp only [List.map_cons, List.sum_cons, List.map_append, List.sum_append, List.map_nil,
      List.sum_nil] at ih ⊢
    omega

theorem unlucky_chunk : FirstChunk unlucky 65536 := by
  refine ⟨Nat.le_of_eq unlucky_length.symm, Nat.le_refl _, .inr (.inl rfl), ?_⟩
  rintro L hL ⟨h1, h2⟩
  have := unlucky_window (L - 8192) (by omega)
  rw [show 8192 + (L - 8192) = L by omega] at this
  rw [this] at h2
  cases h2

/-- C61 is false in general: 65536 bytes of data vanish without an error. -/
theorem C61_false : ¬ ∀ (crc : List UInt8 → Nat) (hd : GzHeader) (data file : List UInt8),
    hd.Valid → data ≠ [] → Zero.run crc hd.bytes (data.map .ok) = .ok file →
    Cat.run file ⟨[], none⟩ = (.ok (), ⟨data, none⟩) := by
  intro h
  let hd : GzHeader := ⟨false, (0, 0, 0, 0), 0, 3, none, none, none, none⟩
  have hv : hd.Valid := ⟨(by intro x hx; cases hx), (by intro x hx; cases hx), (by intro x hx; cases hx)⟩
  obtain ⟨file, h1, h2⟩ := C61_lost (fun _ => 0) hd hv unlucky unlucky_length unlucky_chunk
  have hne : unlucky ≠ [] := by
    intro e
    have := unlucky_length
    rw [e] at this
    cases this
  have := h (fun _ => 0) hd unlucky file hv hne h1
  rw [h2 []] at this
  simp only [Prod.mk.injEq, Sink.mk.injEq, true_and, and_true] at this
  exact hne this.symm

/-- Empty data: a panic. -/
theorem C61_empty (crc : List UInt8 → Nat) (header : List UInt8) :
    Zero.run crc header [] = .error (.panic .assertion) := rfl

/-- A short file. -/
example : Zero.run (fun _ => 0x01020304) [0x1f, 0x8b, 8, 0, 0, 0, 0, 0, 0, 3] ([7, 8].map .ok) =
    .ok [0x1f, 0x8b, 8, 0, 0, 0, 0, 0, 0, 3, 1, 2, 0, 253, 255, 7, 8, 4, 3, 2, 1, 2, 0, 0, 0] := by
  decide +kernel

/-- A chunk ends in the middle of the data: 8192 zeros and more. -/
example (more : List UInt8) : FirstChunk (List.replicate 8192 0 ++ more) 8192 := by
  have key : ∀ n, ((List.replicate n (0 : UInt8)).map UInt8.toNat).sum = 0 := by
    intro n
    simp
  refine ⟨?_, by decide, .inr (.inr ⟨Nat.le_refl _, ?_⟩), fun L' h hb => by have := hb.1; omega⟩
  · rw [List.length_append, List.length_replicate]
    omega
  · rw [windowSum, List.take_left' List.length_replicate, Nat.sub_self, List.drop_zero, key]

end Rezip
