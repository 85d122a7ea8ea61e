import Verif.Props.Cat
import Verif.Props.Dump

/-!
# C77, C78: how much can come out, and what a damaged or cut file gives
-/

namespace Rezip

open Rezip.Spec Parse Serialise DecState

/-! ### C77 -/

theorem CodeBits.emitted {lit : List Nat} {alpha : Option (List Nat)} {c : Code} {bs : List Bool}
    (h : CodeBits LengthSym lit alpha c bs) : c.emittedBytes ≤ 129 * bs.length := by
  cases h with
  | literal b c hc =>
    have := codeOf_ne_nil hc
    show 1 ≤ _
    omega
  | reference r i v j w dl lc dc ha hls hlc hds hdc =>
    have h1 := codeOf_ne_nil hlc
    have h2 := codeOf_ne_nil hdc
    have h3 := (Huffman.LengthSym.range hls).2
    show r.run ≤ _
    simp only [List.length_append]
    omega

theorem CodesBits.emitted {lit : List Nat} {alpha : Option (List Nat)} {cs : List Code} {bs : List Bool}
    (h : CodesBits LengthSym lit alpha cs bs) : (cs.map Code.emittedBytes).sum ≤ 129 * bs.length := by
  induction h with
  | nil c hc => simp
  | cons c cs a b h1 _ ih =>
    have := CodeBits.emitted h1
    simp only [List.map_cons, List.sum_cons, List.length_append]
    omega

theorem sum_literals (data : List UInt8) :
    ((data.map Code.literal).map Code.emittedBytes).sum = data.length := by
  induction data with
  | nil => rfl
  | cons b data ih =>
    rw [List.map_cons, List.map_cons, List.sum_cons, ih, List.length_cons]
    show 1 + _ = _
    omega

theorem BlockBits.emitted {off : Nat} {b : Block} {bs : List Bool} (h : BlockBits LengthSym off b bs) :
    ((lzCodes b).map Code.emittedBytes).sum ≤ 129 * bs.length := by
  cases h with
  | stored data hd =>
    rw [lzCodes, sum_literals]
    simp only [List.length_append, bytesBits_length]
    omega
  | fixed codes bs hc =>
    have := CodesBits.emitted hc
    simp only [lzCodes, List.length_append]
    omega
  | dynamic lit dist alpha codes trees hdr bs _ _ _ _ hc =>
    have := CodesBits.emitted hc
    simp only [lzCodes, List.length_append]
    omega

/-- Blocks the iterator yields one after another take disjoint bits of the input. -/
theorem items_emitted (blocks : List Block) (it : BlockIter) (hw : it.inner.WF)
    (h : ∀ n b, blocks[n]? = some b → item n it = some (.ok b)) :
    ((blocks.flatMap lzCodes).map Code.emittedBytes).sum ≤ 129 * it.inner.bits.length := by
  induction blocks generalizing it with
  | nil => simp
  | cons b blocks ih =>
    have h0 : it.next.1 = some (.ok b) := h 0 b rfl
    cases he : it.ended with
    | true =>
      rcases next_ended hw he with ⟨r, h', _⟩ | ⟨e, r, h', _⟩ <;> rw [h'] at h0 <;> simp at h0
    | false =>
      rcases next_open hw he (off := (8 - it.inner.bits.length % 8)) (by omega) with
        ⟨b', f, bs, r, h', w', hb, hbits⟩ | ⟨e, r, f, h', _⟩
      · rw [h'] at h0
        simp only [Option.some.injEq, Except.ok.injEq] at h0
        subst h0
        have h2 := ih it.next.2 (next_wf hw) (fun n b hn => h (n + 1) b (by simpa using hn))
        rw [h'] at h2
        dsimp only at h2
        have h3 := BlockBits.emitted hb
        rw [hbits]
        simp only [List.flatMap_cons, List.map_append, List.sum_append, List.length_cons,
          List.length_append]
        omega
      · rw [h'] at h0; simp at h0

theorem lzDecodable_length (W : Nat) (h : List UInt8) (cs : List Code) :
    (lzDecodable W h cs).length ≤ (cs.map Code.emittedBytes).sum := by
  induction cs generalizing h with
  | nil => simp [lzDecodable]
  | cons c cs ih =>
    rw [lzDecodable]
    cases hc : lzCode W h c with
    | none => simp
    | some x =>
      have := lzCode_length hc
      have := ih (h ++ x)
      simp only [List.length_append, List.map_cons, List.sum_cons]
      omega

/-- C77. Whatever the input, and whatever the output accepts, cat never prints more than 1032 bytes per
byte of input. -/
theorem C77_bound (input out : List UInt8) (room : Option Nat) :
    (Cat.run input ⟨out, room⟩).2.out.length ≤ out.length + 1032 * input.length := by
  by_cases hh : ∃ (hd : GzHeader) (rest : List UInt8), hd.Valid ∧ input = hd.bytes ++ rest
  · obtain ⟨hd, rest, hv, rfl⟩ := hh
    obtain ⟨blocks, h1, _, h2, _⟩ := C62_errors hd hv rest out room
    rw [h2]
    have h3 := items_emitted blocks (parseDeflate rest) (BitReader.wf_new rest) h1
    have e : (parseDeflate rest).inner = BitReader.new rest := rfl
    rw [e, BitReader.bits_new, bytesBits_length] at h3
    have h4 := lzDecodable_length 32768 [] (blocks.flatMap lzCodes)
    have h5 : (Cat.accepted room (lzDecodable 32768 [] (blocks.flatMap lzCodes))).length ≤
        (lzDecodable 32768 [] (blocks.flatMap lzCodes)).length := by
      cases room with
      | none => exact Nat.le_refl _
      | some r => simp only [Cat.accepted, List.length_take]; omega
    simp only [List.length_append]
    omega
  · obtain ⟨e, he⟩ := C62_no_header input ⟨out, room⟩ hh
    rw [he]
    simp only
    omega

namespace Bomb

/-- Code lengths that give `a` and the end of block two bits, and length 258 one bit. -/
def lit : List Nat :=
  List.replicate 97 0 ++ (2 :: (List.replicate 138 0 ++ (List.replicate 20 0 ++
    (2 :: (List.replicate 28 0 ++ [1])))))

def cl : List Nat := [0, 2, 2] ++ List.replicate 15 0 ++ [1]

theorem lens : ∃ body, LensBits cl none (lit ++ [1]) body ∧ body.length = 40 := by
  apply Exists.intro
  apply And.intro
  · have e : lit ++ [1] = List.replicate (11 + 86) 0 ++ (2 :: (List.replicate (11 + 127) 0 ++
        (List.replicate (11 + 9) 0 ++ (2 :: (List.replicate (11 + 17) 0 ++ (1 :: (1 :: []))))))) := by
      decide +kernel
    rw [e]
    have h8 : LensBits cl _ _ _ := .len (some 1) 1 [] [true, false] _ (by decide) (by decide +kernel) (.nil _)
    have h7 : LensBits cl _ _ _ := .len (some 0) 1 _ [true, false] _ (by decide) (by decide +kernel) h8
    have h6 : LensBits cl _ _ _ := .manyZeros (some 2) 17 _ [false] _ (by decide) (by decide +kernel) h7
    have h5 : LensBits cl _ _ _ := .len (some 0) 2 _ [true, true] _ (by decide) (by decide +kernel) h6
    have h4 : LensBits cl _ _ _ := .manyZeros (some 0) 9 _ [false] _ (by decide) (by decide +kernel) h5
    have h3 : LensBits cl _ _ _ := .manyZeros (some 2) 127 _ [false] _ (by decide) (by decide +kernel) h4
    have h2 : LensBits cl _ _ _ := .len (some 0) 2 _ [true, true] _ (by decide) (by decide +kernel) h3
    exact .manyZeros none 86 _ [false] _ (by decide) (by decide +kernel) h2
  · rfl

theorem header : ∃ hdr, HeaderBits lit [1] hdr ∧ hdr.length = 108 := by
  obtain ⟨body, h, hl⟩ := lens
  refine ⟨_, .mk cl 18 body (by decide +kernel) (by decide +kernel) (by decide) (by decide) (by decide)
    (by decide) (by decide +kernel) (by decide +kernel) (by unfold Complete; decide +kernel)
    (by decide +kernel) h, ?_⟩
  simp only [List.length_append, hl]
  decide +kernel

/-- The distance alphabet: distance 1 has a one bit code. -/
def dist : List Nat := List.replicate 0 0 ++ [1] ++ List.replicate 30 0 ++ [1]

/-- `a`, then `n` times the longest match at distance one. -/
def codes (n : Nat) : List Code := .literal 97 :: List.replicate n (.reference ⟨1, 255⟩)

theorem codes_bits (n : Nat) : ∃ bs, CodesBits LengthSym lit (some dist) (codes n) bs ∧
    bs.length = 2 * n + 4 := by
  have h : ∃ bs, CodesBits LengthSym lit (some dist) (List.replicate n (.reference ⟨1, 255⟩)) bs ∧
      bs.length = 2 * n + 2 := by
    induction n with
    | zero => exact ⟨_, .nil [true, true] (by decide +kernel), rfl⟩
    | succ n ih =>
      obtain ⟨bs, h, hl⟩ := ih
      rw [List.replicate_succ]
      refine ⟨_, .cons _ _ _ _ (.reference ⟨1, 255⟩ 28 0 0 0 dist [false] [false] rfl
        (by unfold LengthSym; decide +kernel) (by decide +kernel) (by unfold DistSym; decide +kernel)
        (by decide +kernel)) h, ?_⟩
      simp only [List.length_append, hl]
      have : ([false] ++ lsbBits (lengthExtra.getD 28 0) 0).length = 1 := by decide +kernel
      have : ([false] ++ lsbBits (distExtra.getD 0 0) 0).length = 1 := by decide +kernel
      simp only [List.length_append] at *
      omega
  obtain ⟨bs, h, hl⟩ := h
  refine ⟨_, .cons _ _ _ _ (.literal 97 [true, false] (by decide +kernel)) h, ?_⟩
  simp only [List.length_append, hl, List.length_cons, List.length_nil]
  omega

theorem lzCopy_ones (k n : Nat) : lzCopy (List.replicate (k + 1) 97) 1 n = List.replicate n 97 := by
  induction n generalizing k with
  | zero => rfl
  | succ n ih =>
    have e : (List.replicate (k + 1) (97 : UInt8)).getD ((List.replicate (k + 1) (97 : UInt8)).length - 1) 0
        = 97 := by simp
    show _ :: lzCopy (_ ++ [_]) 1 n = _
    rw [e, ← List.replicate_succ', ih (k + 1), ← List.replicate_succ]

theorem expand (k n : Nat) :
    lzExpand 32768 (List.replicate (k + 1) 97) (List.replicate n (.reference ⟨1, 255⟩)) =
      some (List.replicate (258 * n) 97) := by
  induction n generalizing k with
  | zero => rfl
  | succ n ih =>
    rw [List.replicate_succ (n := n), lzExpand.eq_2]
    have e : lzCode 32768 (List.replicate (k + 1) 97) (.reference ⟨1, 255⟩) =
        some (List.replicate 258 97) := by
      have h1 : (UInt16.toNat 1) = 1 := rfl
      have h2 : Ref.run ⟨1, 255⟩ = 258 := rfl
      simp only [lzCode, h1, h2, lzCopy_ones]
      rw [if_pos (by rw [List.length_replicate]; omega)]
    rw [e]
    dsimp only
    rw [List.replicate_append_replicate, show k + 1 + 258 = (k + 258) + 1 by omega, ih]
    dsimp only
    rw [List.replicate_append_replicate, show 258 + 258 * n = 258 * (n + 1) by omega]

end Bomb

theorem exists_bytes (n : Nat) (bits : List Bool) (h : bits.length = 8 * n) :
    ∃ d, bytesBits d = bits ∧ d.length = n := by
  induction n generalizing bits with
  | zero => exact ⟨[], by simp at h; simp [h, bytesBits], rfl⟩
  | succ n ih =>
    obtain ⟨d, h1, h2⟩ := ih (bits.drop 8) (by simp; omega)
    have h8 : (bits.take 8).length = 8 := by simp; omega
    refine ⟨(bitsVal (bits.take 8)).toUInt8 :: d, ?_, by simp [h2]⟩
    have hlt := bitsVal_lt (bits.take 8)
    rw [h8] at hlt
    rw [bytesBits, List.flatMap_cons, byteBits]
    have e : (bitsVal (bits.take 8)).toUInt8.toNat = bitsVal (bits.take 8) := by
      simp only [Nat.toUInt8_eq, UInt8.toNat_ofNat']; omega
    rw [e]
    have e2 : lsbBits 8 (bitsVal (bits.take 8)) = bits.take 8 := by
      have := lsbBits_bitsVal (bits.take 8)
      rwa [h8] at this
    rw [e2, show List.flatMap byteBits d = bytesBits d from rfl, h1, List.take_append_drop]

/-- C77, the bound is the best possible: for every `n` some stream of at most `(2 n + 122) / 8` bytes (after
any gzip header) makes cat print `258 n + 1` bytes. -/
theorem C77_tight (hd : GzHeader) (hv : hd.Valid) (n : Nat) : ∃ d : List UInt8,
    8 * d.length ≤ 2 * n + 122 ∧
      Cat.run (hd.bytes ++ d) ⟨[], none⟩ = (.ok (), ⟨List.replicate (258 * n + 1) 97, none⟩) := by
  obtain ⟨hdr, h1, h2⟩ := Bomb.header
  obtain ⟨bs, h3, h4⟩ := Bomb.codes_bits n
  have hs : StreamBits LengthSym 0 [.dynamicHuffman (BitVector.ofBits hdr) (Bomb.codes n)]
      (true :: (lsbBits 2 2 ++ hdr ++ bs)) := by
    refine .last 0 _ _ (.dynamic Bomb.lit [1] (some Bomb.dist) _ _ hdr bs h1
      (by unfold Complete; decide +kernel) (.single 0 0 (by decide) (by decide)) ?_ h3)
    exact Serialise.pushAll_new hdr
  generalize hbits : true :: (lsbBits 2 2 ++ hdr ++ bs) = bits at hs
  have hl : bits.length = 2 * n + 115 := by
    rw [← hbits]
    simp only [List.length_cons, List.length_append, lsbBits_length, h2, h4]
    omega
  have hp : (padded bits).length = 8 * ((2 * n + 122) / 8) := by
    rw [padded, List.length_append, List.length_replicate, padLen, hl]
    omega
  obtain ⟨d, h5, h6⟩ := exists_bytes _ _ hp
  refine ⟨d, by omega, ?_⟩
  have hx : lzExpand 32768 [] ([Block.dynamicHuffman (BitVector.ofBits hdr) (Bomb.codes n)].flatMap lzCodes) =
      some (List.replicate (258 * n + 1) 97) := by
    have := Bomb.expand 0 n
    simp only [List.flatMap_cons, List.flatMap_nil, List.append_nil, lzCodes, Bomb.codes, lzExpand, lzCode,
      List.nil_append]
    rw [show List.replicate (0 + 1) (97 : UInt8) = [97] from rfl] at this
    rw [this]
    dsimp only
    rw [show [(97 : UInt8)] ++ List.replicate (258 * n) 97 = List.replicate (258 * n + 1) 97 from rfl]
  have := C62_cat hd hv d [] [] _ _ ⟨bits, hs, h5⟩ hx
  simpa using this

/-! ### C78 -/

/-- As long as the iterator yields blocks, bytes after the end of the input make no difference. -/
theorem items_more (n : Nat) (it it' : BlockIter) (more : List UInt8) (hw : it.inner.WF) (hw' : it'.inner.WF)
    (he : it.ended = it'.ended) (hb : it'.inner.bits = it.inner.bits ++ bytesBits more) (b : Block)
    (hbefore : ∀ k, k < n → ∃ b, item k it = some (.ok b)) (h : item n it = some (.ok b)) :
    item n it' = some (.ok b) := by
  induction n generalizing it it' with
  | zero =>
    change it.next.1 = _ at h
    show it'.next.1 = _
    cases hend : it.ended with
    | true =>
      rcases next_ended hw hend with ⟨r, h', _⟩ | ⟨e, r, h', _⟩ <;> rw [h'] at h <;> simp at h
    | false =>
      rcases next_open hw hend (off := (8 - it.inner.bits.length % 8)) (by omega) with
        ⟨b', f, bs, r, h', w', hbb, hbits⟩ | ⟨e, r, f, h', _⟩
      · rw [h'] at h
        simp only [Option.some.injEq, Except.ok.injEq] at h
        subst h
        obtain ⟨r', h2, _⟩ := next_block hw' (he ▸ hend)
          (by rw [hb, List.length_append, bytesBits_length]; omega) (f := f) (bs := bs)
          (rest := r.bits ++ bytesBits more) (by rw [hb, hbits]; simp) hbb
        rw [h2]
      · rw [h'] at h; simp at h
  | succ n ih =>
    obtain ⟨b0, h0⟩ := hbefore 0 (by omega)
    change it.next.1 = _ at h0
    cases hend : it.ended with
    | true =>
      rcases next_ended hw hend with ⟨r, h', _⟩ | ⟨e, r, h', _⟩ <;> rw [h'] at h0 <;> simp at h0
    | false =>
      rcases next_open hw hend (off := (8 - it.inner.bits.length % 8)) (by omega) with
        ⟨b', f, bs, r, h', w', hbb, hbits⟩ | ⟨e, r, f, h', _⟩
      · obtain ⟨r', h2, w2, b2⟩ := next_block hw' (he ▸ hend)
          (by rw [hb, List.length_append, bytesBits_length]; omega) (f := f) (bs := bs)
          (rest := r.bits ++ bytesBits more) (by rw [hb, hbits]; simp) hbb
        refine ih it.next.2 it'.next.2 (next_wf hw) (next_wf hw') ?_ ?_
          (fun k hk => hbefore (k + 1) (by omega)) h
        · rw [h', h2]
        · rw [h', h2]; exact b2
      · rw [h'] at h0; simp at h0

/-- C78. The blocks read from a cut stream are the first blocks of the whole stream. -/
theorem C78_blocks (bytes more : List UInt8) (n : Nat) (b : Block)
    (hbefore : ∀ k, k < n → ∃ b, item k (parseDeflate bytes) = some (.ok b))
    (h : item n (parseDeflate bytes) = some (.ok b)) :
    item n (parseDeflate (bytes ++ more)) = some (.ok b) := by
  refine items_more n (parseDeflate bytes) (parseDeflate (bytes ++ more)) more (BitReader.wf_new bytes) (BitReader.wf_new _) rfl ?_ b
    hbefore h
  show (BitReader.new (bytes ++ more)).bits = (BitReader.new bytes).bits ++ _
  rw [BitReader.bits_new, BitReader.bits_new, bytesBits_append]

theorem blocks_prefix {bytes more : List UInt8} {bl bl' : List Block}
    (h : ∀ n b, bl[n]? = some b → item n (parseDeflate bytes) = some (.ok b))
    (h' : ∀ n b, bl'[n]? = some b → item n (parseDeflate (bytes ++ more)) = some (.ok b))
    (hmax : ∀ b, item bl'.length (parseDeflate (bytes ++ more)) ≠ some (.ok b)) : bl <+: bl' := by
  have key : ∀ n b, bl[n]? = some b → item n (parseDeflate (bytes ++ more)) = some (.ok b) := by
    intro n b hb
    refine C78_blocks bytes more n b ?_ (h n b hb)
    intro k hk
    have hn : n < bl.length := (List.getElem?_eq_some_iff.1 hb).1
    exact ⟨bl[k], h k _ (List.getElem?_eq_getElem (by omega))⟩
  have hlen : bl.length ≤ bl'.length := by
    apply Decidable.byContradiction
    intro hc
    have hc : bl'.length < bl.length := by omega
    exact hmax _ (key bl'.length bl[bl'.length] (List.getElem?_eq_getElem hc))
  rw [List.prefix_iff_eq_take]
  apply List.ext_getElem?
  intro i
  rw [List.getElem?_take]
  split
  · rename_i hi
    have h1 := key i bl[i] (List.getElem?_eq_getElem hi)
    have h2 := h' i bl'[i] (List.getElem?_eq_getElem (by omega))
    rw [h1] at h2
    rw [List.getElem?_eq_getElem hi, List.getElem?_eq_getElem (by omega : i < bl'.length)]
    simpa using h2
  · rename_i hi
    exact List.getElem?_eq_none (by omega)

theorem lzDecodable_prefix (W : Nat) (h : List UInt8) (a b : List Code) :
    lzDecodable W h a <+: lzDecodable W h (a ++ b) := by
  rw [lzDecodable_append]
  rcases lzExpand_eq W h a with h1 | h1 <;> rw [h1]
  · exact List.prefix_append _ _
  · exact List.prefix_refl _

/-- C78. Cutting the file anywhere, cat prints a beginning of what it prints for the whole file. -/
theorem C78_cat (input more out : List UInt8) (room : Option Nat) :
    (Cat.run input ⟨out, room⟩).2.out <+: (Cat.run (input ++ more) ⟨out, room⟩).2.out := by
  by_cases hh : ∃ (hd : GzHeader) (rest : List UInt8), hd.Valid ∧ input = hd.bytes ++ rest
  · obtain ⟨hd, rest, hv, rfl⟩ := hh
    obtain ⟨bl, h1, _, h2, _⟩ := C62_errors hd hv rest out room
    obtain ⟨bl', h3, h4, h5, _⟩ := C62_errors hd hv (rest ++ more) out room
    rw [List.append_assoc, h2, h5]
    obtain ⟨t, rfl⟩ := blocks_prefix h1 h3 h4
    rw [List.prefix_append_right_inj, List.flatMap_append]
    have := lzDecodable_prefix 32768 [] (bl.flatMap lzCodes) (t.flatMap lzCodes)
    cases room with
    | none => exact this
    | some r =>
      show List.take r _ <+: List.take r _
      obtain ⟨u, hu⟩ := this
      rw [← hu, List.take_append]
      exact List.prefix_append _ _
  · obtain ⟨e, he⟩ := C62_no_header input ⟨out, room⟩ hh
    rw [he]
    by_cases hh' : ∃ (hd : GzHeader) (rest : List UInt8), hd.Valid ∧ input ++ more = hd.bytes ++ rest
    · obtain ⟨hd, rest, hv, hr⟩ := hh'
      obtain ⟨bl', h3, h4, h5, _⟩ := C62_errors hd hv rest out room
      rw [hr, h5]
      exact List.prefix_append _ _
    · obtain ⟨e, he⟩ := C62_no_header (input ++ more) ⟨out, room⟩ hh'
      rw [he]
      exact List.prefix_refl _

theorem dumpText_append (dbg : UInt8 → String) (id : Nat) (a b : List Block) :
    dumpText dbg id (a ++ b) = dumpText dbg id a ++ dumpText dbg (id + a.length) b := by
  induction a generalizing id with
  | nil => rfl
  | cons x a ih =>
    rw [List.cons_append, dumpText, dumpText, ih, List.append_assoc, List.length_cons,
      show id + 1 + a.length = id + (a.length + 1) by omega]

/-- C78. The same for the dump. -/
theorem C78_dump (dbg : UInt8 → List Char) (input more : List UInt8) :
    (Dump.run dbg input).2 <+: (Dump.run dbg (input ++ more)).2 := by
  by_cases hh : ∃ (hd : GzHeader) (rest : List UInt8), hd.Valid ∧ input = hd.bytes ++ rest
  · obtain ⟨hd, rest, hv, rfl⟩ := hh
    obtain ⟨bl, h1, h2, _⟩ := C75_errors dbg hd hv rest
    obtain ⟨bl', h3, h4, h5⟩ := C75_errors dbg hd hv (rest ++ more)
    have hmax : ∀ b, item bl'.length (parseDeflate (rest ++ more)) ≠ some (.ok b) := by
      intro b hb
      rcases h5 with ⟨h5, _⟩ | ⟨e, h5, _⟩ <;> rw [h5] at hb <;> cases hb
    rw [List.append_assoc, h2, h4]
    obtain ⟨t, rfl⟩ := blocks_prefix h1 h3 hmax
    rw [dumpText_append, Dump.joined, Dump.joined, List.flatMap_append]
    exact List.prefix_append _ _
  · obtain ⟨e, he⟩ := C75_no_header dbg input hh
    rw [he]
    exact List.nil_prefix

/-- A file cut within its second block: the first block is printed. -/
example : (Cat.run ([0x1f, 0x8b, 8, 0, 0, 0, 0, 0, 0, 3] ++ exampleMixed.take 8) ⟨[], none⟩).2.out = [0x61] ∧
    (Cat.run ([0x1f, 0x8b, 8, 0, 0, 0, 0, 0, 0, 3] ++ exampleMixed) ⟨[], none⟩).2.out = [0x61, 1, 2] := by
  decide +kernel

example : ∃ b, item 0 (parseDeflate (exampleMixed.take 8)) = some (.ok b) :=
  ⟨.fixedHuffman [.literal 0x61], by decide +kernel⟩

/-- The header assumed in `C77_tight` exists. -/
example : ∃ hd : GzHeader, hd.Valid ∧ hd.bytes = [0x1f, 0x8b, 8, 0, 0, 0, 0, 0, 0, 3] := by
  have h : Gzip.discardHeader [0x1f, 0x8b, 8, 0, 0, 0, 0, 0, 0, 3] =
    .ok [0x1f, 0x8b, 8, 0, 0, 0, 0, 0, 0, 3] [] := by decide +kernel
  obtain ⟨_, hd, hv, he⟩ := C56_header _ _ _ h
  exact ⟨hd, hv, by simpa using he⟩

end Rezip
