import Verif.Lemmas.Header
import Verif.Lemmas.BitReader
import Verif.Props.Huffman
import Verif.Props.Bits

/-! Parsing blocks and streams against `BlockBits`, `StreamBits`. -/

namespace Rezip

open Spec

theorem Ref.new_eq (r : Ref) (h1 : 1 ≤ r.dist.toNat) (h2 : r.dist.toNat ≤ 32768) :
    Ref.new r.dist.toNat r.run = .ok r := by
  have hlt : r.runMinus3.toNat < 256 := r.runMinus3.toNat_lt
  unfold Ref.new Ref.run
  rw [assert_of (by simp), Ex.ok_bind, assert_of (by simp; omega), Ex.ok_bind,
    assert_of (by simpa using h1), Ex.ok_bind, assert_of (by simpa using h2), Ex.ok_bind,
    Nat.add_sub_cancel]
  simp [Nat.toUInt16, Nat.toUInt8]

theorem Ref.new_ok {dist run : Nat} {r : Ref} (h : Ref.new dist run = .ok r) :
    1 ≤ dist ∧ dist ≤ 32768 ∧ 3 ≤ run ∧ run ≤ 258 ∧ r.dist.toNat = dist ∧ r.run = run := by
  unfold Ref.new at h
  simp only [Ex.bind_eq_ok, assert_eq_ok, decide_eq_true_eq] at h
  obtain ⟨_, h1, _, h2, _, h3, _, h4, h5⟩ := h
  cases h5
  refine ⟨h3, h4, h1, h2, ?_, ?_⟩
  · simp [Nat.toUInt16]; omega
  · simp [Ref.run, Nat.toUInt8]; omega

theorem Ref.new_total {dist run : Nat} (h1 : 1 ≤ dist) (h2 : dist ≤ 32768) (h3 : 3 ≤ run)
    (h4 : run ≤ 258) : ∃ r, Ref.new dist run = .ok r := by
  unfold Ref.new
  rw [assert_of (by simpa using h3), Ex.ok_bind, assert_of (by simpa using h4), Ex.ok_bind,
    assert_of (by simpa using h1), Ex.ok_bind, assert_of (by simpa using h2), Ex.ok_bind]
  exact ⟨_, rfl⟩

namespace Parse

open Huffman

section codes

variable {lit : List Nat} {lt : CodeTree} {alpha : Option (List Nat)} {dt : Option CodeTree}

theorem exec_scanCode_end (hl : CodeTree.IsTree lit lt) {c : List Bool}
    (hc : codeOf lit 256 = some c) (rest : List Bool) :
    (scanCode lt dt).exec (c ++ rest) = .ok none rest := by
  unfold scanCode
  rw [BitProg.bind_eq, BitProg.exec_bind_ok (hl.decode hc rest)]
  rfl

theorem exec_scanCode (hl : CodeTree.IsTree lit lt) (hd : IsOptTree alpha dt) {c : Code}
    {bs : List Bool} (h : CodeBits LengthSym lit alpha c bs) (rest : List Bool) :
    (scanCode lt dt).exec (bs ++ rest) = .ok (some c) rest := by
  unfold scanCode
  cases h with
  | literal b c hc =>
    have hb : b.toNat < 256 := b.toNat_lt
    rw [BitProg.bind_eq, BitProg.exec_bind_ok (hl.decode hc rest)]
    have h1 : (b.toNat == 256) = false := by simp; omega
    simp [h1, hb, Nat.toUInt8]
  | reference r i v j w dl lc dc ha hls hlc hds hdc =>
    subst ha
    cases dt with
    | none => cases hd
    | some d =>
    have hd' : CodeTree.IsTree dl d := hd
    simp only [List.append_assoc]
    rw [BitProg.bind_eq, BitProg.exec_bind_ok (hl.decode hlc _)]
    have h1 : (257 + i == 256) = false := by
      rw [beq_eq_false_iff_ne]; omega
    have h2 : ¬ (257 + i < 256) := by omega
    obtain ⟨r1, r2⟩ := DistSym.range hds
    simp only [h1, Bool.false_eq_true, if_false, h2, BitProg.bind_eq]
    rw [BitProg.exec_bind_ok (exec_decodeRunLength hls _), BitProg.exec_bind_ok (hd'.decode hdc _),
      BitProg.exec_bind_ok (exec_decodeDistance hds _),
      ensure_of (by simp; omega), BitProg.exec_bind_ok (BitProg.exec_ofExcept_ok _ _),
      Ref.new_eq r r1 r2, BitProg.exec_bind_ok (BitProg.exec_ofExcept_ok _ _)]
    rfl

theorem exec_scanCode_sound (hl : CodeTree.IsTree lit lt) (hd : IsOptTree alpha dt)
    (bs : List Bool) :
    match (scanCode lt dt).exec bs with
    | .ok none rest => ∃ c, codeOf lit 256 = some c ∧ bs = c ++ rest
    | .ok (some c) rest => ∃ u, CodeBits LengthSym lit alpha c u ∧ bs = u ++ rest
    | .fail e => ∃ x, e = .err x
    | .starved => True := by
  unfold scanCode
  rw [BitProg.bind_eq, BitProg.exec_bind]
  cases hs : lt.decodeSymbol.exec bs with
  | fail e => exact absurd hs CodeTree.IsTree.decode_ne_fail
  | starved => trivial
  | ok s bs1 =>
  obtain ⟨c, hc, rfl⟩ := hl.decode_inv hs
  dsimp only
  by_cases h256 : s = 256
  · subst h256
    exact ⟨c, hc, rfl⟩
  have h1 : (s == 256) = false := by simpa using h256
  simp only [h1, Bool.false_eq_true, if_false]
  by_cases hlt : s < 256
  · simp only [hlt, if_true, BitProg.pure_eq, BitProg.exec_done]
    refine ⟨c, .literal _ c ?_, rfl⟩
    have : s.toUInt8.toNat = s := by simp [Nat.toUInt8]; omega
    rw [this]; exact hc
  simp only [hlt, if_false, BitProg.bind_eq]
  rw [BitProg.exec_bind]
  cases hr : (decodeRunLength s).exec bs1 with
  | fail e => exact exec_decodeRunLength_fail hr
  | starved => trivial
  | ok run bs2 =>
  obtain ⟨i, v, rfl, hls, rfl⟩ := exec_decodeRunLength_inv hr
  dsimp only
  cases dt with
  | none => exact ⟨_, rfl⟩
  | some d =>
  cases alpha with
  | none => cases hd
  | some dl =>
  have hd' : CodeTree.IsTree dl d := hd
  dsimp only
  rw [BitProg.exec_bind]
  cases hds : d.decodeSymbol.exec bs2 with
  | fail e => exact absurd hds CodeTree.IsTree.decode_ne_fail
  | starved => trivial
  | ok ds bs3 =>
  obtain ⟨dc, hdc, rfl⟩ := hd'.decode_inv hds
  dsimp only
  rw [BitProg.exec_bind]
  cases hdd : (decodeDistance ds).exec bs3 with
  | fail e => exact exec_decodeDistance_fail hdd
  | starved => trivial
  | ok dist bs4 =>
  obtain ⟨w, hds', rfl⟩ := exec_decodeDistance_inv hdd
  obtain ⟨r1, r2⟩ := DistSym.range hds'
  obtain ⟨q1, q2⟩ := LengthSym.range hls
  obtain ⟨r, hr⟩ := Ref.new_total r1 r2 q1 q2
  obtain ⟨_, _, _, _, e1, e2⟩ := Ref.new_ok hr
  dsimp only
  rw [ensure_of (by simp; omega), BitProg.exec_bind_ok (BitProg.exec_ofExcept_ok _ _), hr,
    BitProg.exec_bind_ok (BitProg.exec_ofExcept_ok _ _)]
  simp only [BitProg.pure_eq, BitProg.exec_done]
  exact ⟨_, .reference r i v ds w dl c dc rfl (by rw [e2]; exact hls) hc (by rw [e1]; exact hds') hdc,
    by simp⟩

theorem codeOf_ne_nil {lens : List Nat} {s : Nat} {c : List Bool} (h : codeOf lens s = some c) :
    0 < c.length := by
  obtain ⟨hs, h1, h2⟩ := CodeTree.codeOf_lt h
  omega

theorem CodeBits.pos {c : Code} {bs : List Bool} (h : CodeBits LengthSym lit alpha c bs) :
    0 < bs.length := by
  cases h with
  | literal b c hc => exact codeOf_ne_nil hc
  | reference r i v j w dl lc dc ha hls hlc hds hdc =>
    have := codeOf_ne_nil hlc
    simp only [List.length_append]; omega

theorem CodesBits.length_lt {cs : List Code} {bs : List Bool} (h : CodesBits LengthSym lit alpha cs bs) :
    cs.length < bs.length := by
  induction h with
  | nil c hc => exact codeOf_ne_nil hc
  | cons c cs a b h1 _ ih =>
    have := CodeBits.pos h1
    simp only [List.length_cons, List.length_append]; omega

theorem exec_scanLoop (hl : CodeTree.IsTree lit lt) (hd : IsOptTree alpha dt) {cs : List Code}
    {bs : List Bool} (h : CodesBits LengthSym lit alpha cs bs) {fuel : Nat} (hf : cs.length < fuel)
    (acc : List Code) (rest : List Bool) :
    (scanLoop lt dt fuel acc).exec (bs ++ rest) = .ok (acc ++ cs) rest := by
  induction h generalizing fuel acc with
  | nil c hc =>
    obtain ⟨fuel, rfl⟩ : ∃ f, fuel = f + 1 := ⟨fuel - 1, by omega⟩
    rw [scanLoop, BitProg.bind_eq, BitProg.exec_bind_ok (exec_scanCode_end hl hc rest)]
    simp
  | cons c cs a b h1 _ ih =>
    obtain ⟨fuel, rfl⟩ : ∃ f, fuel = f + 1 := ⟨fuel - 1, by omega⟩
    rw [scanLoop, BitProg.bind_eq, List.append_assoc,
      BitProg.exec_bind_ok (exec_scanCode hl hd h1 (b ++ rest))]
    simp only [List.length_cons] at hf
    rw [ih (by omega)]
    simp

theorem exec_scanLoop_sound (hl : CodeTree.IsTree lit lt) (hd : IsOptTree alpha dt)
    (fuel : Nat) (acc : List Code) (bs : List Bool) (hf : bs.length < fuel) :
    match (scanLoop lt dt fuel acc).exec bs with
    | .ok out rest => ∃ cs u, CodesBits LengthSym lit alpha cs u ∧ bs = u ++ rest ∧ out = acc ++ cs
    | .fail e => ∃ x, e = .err x
    | .starved => True := by
  induction fuel generalizing acc bs with
  | zero => omega
  | succ fuel ih =>
    rw [scanLoop, BitProg.bind_eq, BitProg.exec_bind]
    have hs := exec_scanCode_sound hl hd bs
    revert hs
    cases (scanCode lt dt).exec bs with
    | fail e => exact id
    | starved => exact fun _ => trivial
    | ok o bs1 =>
    cases o with
    | none =>
      rintro ⟨c, hc, rfl⟩
      exact ⟨[], c, .nil c hc, rfl, by simp⟩
    | some c =>
      rintro ⟨u, hu, rfl⟩
      have hp := CodeBits.pos hu
      simp only [List.length_append] at hf
      have := ih (acc ++ [c]) bs1 (by omega)
      revert this
      dsimp only
      cases (scanLoop lt dt fuel (acc ++ [c])).exec bs1 with
      | fail e => exact id
      | starved => exact id
      | ok out rest =>
        rintro ⟨cs, u', h1, rfl, rfl⟩
        exact ⟨c :: cs, u ++ u', .cons c cs u u' hu h1, by simp, by simp⟩

theorem bitsLeft_eq {r : BitReader} (h : r.WF) : bitsLeft r = r.bits.length := by
  rw [BitReader.bits_length h, bitsLeft]; omega

theorem scanHuffmanData_ok (hl : CodeTree.IsTree lit lt) (hd : IsOptTree alpha dt)
    {r : BitReader} (hw : r.WF) {cs : List Code} {bs rest : List Bool}
    (h : CodesBits LengthSym lit alpha cs bs) (hb : r.bits = bs ++ rest) :
    ∃ r', scanHuffmanData lt dt r = .ok cs r' ∧ r'.WF ∧ r'.bits = rest := by
  have hlen := CodesBits.length_lt h
  have := exec_scanLoop hl hd h (fuel := bitsLeft r + 1)
    (by rw [bitsLeft_eq hw, hb, List.length_append]; omega) [] rest
  rw [List.nil_append, ← hb] at this
  exact BitReader.run_ok hw this

theorem scanHuffmanData_sound (hl : CodeTree.IsTree lit lt) (hd : IsOptTree alpha dt)
    {r : BitReader} (hw : r.WF) :
    (∃ cs bs r', scanHuffmanData lt dt r = .ok cs r' ∧ CodesBits LengthSym lit alpha cs bs ∧
      r.bits = bs ++ r'.bits ∧ r'.WF) ∨
    (∃ e r', scanHuffmanData lt dt r = .error (.err e) r' ∧ r'.WF) := by
  have hs := exec_scanLoop_sound hl hd (bitsLeft r + 1) [] r.bits (by rw [bitsLeft_eq hw]; omega)
  unfold scanHuffmanData
  cases h : (scanLoop lt dt (bitsLeft r + 1) []).exec r.bits with
  | ok out rest =>
    rw [h] at hs
    obtain ⟨cs, u, h1, h2, h3⟩ := hs
    obtain ⟨r', g1, g2, g3⟩ := BitReader.run_ok hw h
    rw [h3, List.nil_append] at g1
    exact .inl ⟨cs, u, r', g1, h1, by rw [g3, h2], g2⟩
  | fail e =>
    rw [h] at hs
    obtain ⟨x, rfl⟩ := hs
    obtain ⟨r', g1, g2⟩ := BitReader.run_fail hw h
    exact .inr ⟨x, r', g1, g2⟩
  | starved =>
    obtain ⟨r', g1, g2⟩ := BitReader.run_starved hw h
    exact .inr ⟨_, r', g1, g2⟩

end codes

/-! ### Stored payloads -/

theorem bytesBits_split {inner a : List UInt8} {rest : List Bool}
    (h : bytesBits inner = bytesBits a ++ rest) :
    ∃ tail, inner = a ++ tail ∧ rest = bytesBits tail := by
  induction a generalizing inner with
  | nil => exact ⟨inner, rfl, by simpa using h.symm⟩
  | cons x a ih =>
    cases inner with
    | nil =>
      have := congrArg List.length h
      simp only [bytesBits_length, List.length_append, List.length_nil, List.length_cons] at this
      omega
    | cons y inner =>
      rw [bytesBits_cons, bytesBits_cons, List.append_assoc] at h
      obtain ⟨h1, h2⟩ := List.append_inj h (by simp [byteBits])
      obtain ⟨tail, rfl, h4⟩ := ih h2
      rw [byteBits_inj h1]
      exact ⟨tail, rfl, h4⟩

theorem le16_nat {n : Nat} (h : n ≤ 65535) :
    (n % 256).toUInt8.toNat + 256 * (n / 256).toUInt8.toNat = n := by
  simp [Nat.toUInt8]; omega

theorem le16_bytes {a b : UInt8} : le16 (a.toNat + 256 * b.toNat) = [a, b] := by
  have ha := a.toNat_lt
  have hb := b.toNat_lt
  have e1 : (a.toNat + 256 * b.toNat) % 256 = a.toNat := by omega
  have e2 : (a.toNat + 256 * b.toNat) / 256 = b.toNat := by omega
  unfold le16
  rw [e1, e2]
  simp [Nat.toUInt8]

theorem xor_ffff {n : Nat} (h : n ≤ 65535) : n ^^^ 0xFFFF = 65535 - n := by
  have : ∀ n : BitVec 16, n ^^^ 0xFFFF#16 = 0xFFFF#16 - n := by
    intro n
    have hnot : n ^^^ 0xFFFF#16 = ~~~n := by
      rw [show (0xFFFF#16) = BitVec.allOnes 16 from rfl, BitVec.xor_allOnes]
    rw [hnot]
    apply BitVec.eq_of_toNat_eq
    have := n.isLt
    rw [BitVec.toNat_not, BitVec.toNat_sub]
    simp only [BitVec.toNat_ofNat]
    omega
  have h1 := congrArg BitVec.toNat (this (BitVec.ofNat 16 n))
  rw [BitVec.toNat_xor, BitVec.toNat_sub] at h1
  simp only [BitVec.toNat_ofNat] at h1
  rw [Nat.mod_eq_of_lt (by omega : n < 2 ^ 16)] at h1
  simp only [Nat.reducePow, Nat.reduceMod] at h1
  rw [h1]
  omega

theorem readStored_ok {r : BitReader} (h0 : r.remainingBits = 0) {data : List UInt8}
    (hd : data.length ≤ 65535) {rest : List Bool}
    (hb : r.bits = bytesBits (le16 data.length ++ le16 (65535 - data.length) ++ data) ++ rest) :
    ∃ r', BitReader.readLengthPrefixed r = .ok data r' ∧ r'.WF ∧ r'.bits = rest := by
  rw [BitReader.bits_aligned h0] at hb
  obtain ⟨tail, h1, h2⟩ := bytesBits_split hb
  have := (BitReader.readLengthPrefixed_eq h0).1 (data.length % 256).toUInt8
    (data.length / 256).toUInt8 ((65535 - data.length) % 256).toUInt8
    ((65535 - data.length) / 256).toUInt8 (data ++ tail)
    (by rw [h1]; simp only [le16, List.cons_append, List.nil_append])
    (by rw [le16_nat hd, le16_nat (by omega), xor_ffff hd])
    (by rw [le16_nat hd]; simp)
  rw [le16_nat hd, List.take_left, List.drop_left] at this
  refine ⟨_, this, by simp [BitReader.WF, h0], ?_⟩
  rw [h2]
  exact BitReader.bits_aligned (r := { r with inner := tail }) h0

theorem readStored_sound {r : BitReader} (h0 : r.remainingBits = 0) :
    (∃ data r', BitReader.readLengthPrefixed r = .ok data r' ∧ data.length ≤ 65535 ∧
      r.bits = bytesBits (le16 data.length ++ le16 (65535 - data.length) ++ data) ++ r'.bits ∧
      r'.WF) ∨
    (∃ e r', BitReader.readLengthPrefixed r = .error (.err e) r' ∧ r'.WF) := by
  obtain ⟨a1, a2, a3, a4⟩ := BitReader.readLengthPrefixed_eq h0
  match hi : r.inner with
  | l0 :: l1 :: n0 :: n1 :: rest =>
    have hl0 := l0.toNat_lt
    have hl1 := l1.toNat_lt
    by_cases hx : (l0.toNat + 256 * l1.toNat) ^^^ 0xFFFF = n0.toNat + 256 * n1.toNat
    · by_cases hlen : l0.toNat + 256 * l1.toNat ≤ rest.length
      · left
        refine ⟨_, _, a1 _ _ _ _ _ hi hx hlen, ?_, ?_, by simp [BitReader.WF, h0]⟩
        · rw [List.length_take]; omega
        · have e := BitReader.bits_aligned
            (r := { r with inner := rest.drop (l0.toNat + 256 * l1.toNat) }) h0
          rw [BitReader.bits_aligned h0, e, hi, ← bytesBits_append]
          congr 1
          rw [List.length_take, Nat.min_eq_left hlen, le16_bytes, ← xor_ffff (by omega), hx,
            le16_bytes]
          simp
      · right
        exact ⟨_, _, a2 _ _ _ _ _ hi hx (by omega), by simp [BitReader.WF, h0]⟩
    · right
      exact ⟨_, _, a3 _ _ _ _ _ hi hx, by simp [BitReader.WF, h0]⟩
  | [] => exact .inr ⟨_, _, a4 (by simp [hi]), by simp [BitReader.WF, h0]⟩
  | [_] => exact .inr ⟨_, _, a4 (by simp [hi]), by simp [BitReader.WF, h0]⟩
  | [_, _] => exact .inr ⟨_, _, a4 (by simp [hi]), by simp [BitReader.WF, h0]⟩
  | [_, _, _] => exact .inr ⟨_, _, a4 (by simp [hi]), by simp [BitReader.WF, h0]⟩

/-! ### Blocks -/

theorem readPart2 {r : BitReader} (hw : r.WF) :
    (∃ v r', BitReader.readPart 2 r = .ok v r' ∧ v < 4 ∧ r.bits = lsbBits 2 v ++ r'.bits ∧ r'.WF) ∨
    (∃ r', BitReader.readPart 2 r = .error (.err .eof) r' ∧ r'.WF) := by
  unfold BitReader.readPart
  cases h : (BitProg.readPart 2).exec r.bits with
  | ok v rest =>
    obtain ⟨h1, h2⟩ := (BitProg.exec_readPart_eq_ok (by omega)).1 h
    obtain ⟨r', g1, g2, g3⟩ := BitReader.run_ok hw h
    exact .inl ⟨v, r', g1, h1, by rw [h2, g3], g2⟩
  | fail e => exact absurd h (BitProg.exec_readPart_ne_fail (by omega))
  | starved =>
    obtain ⟨r', g1, g2⟩ := BitReader.run_starved hw h
    exact .inr ⟨r', g1, g2⟩

theorem readBlock_0 {r r1 : BitReader} (h : BitReader.readPart 2 r = .ok 0 r1) :
    readBlock r = (do
      BitReader.align
      let data ← BitReader.readLengthPrefixed
      pure (Block.uncompressed data)) r1 := by
  unfold readBlock; rw [ES.bind_ok h]; rfl

theorem readBlock_1 {r r1 : BitReader} (h : BitReader.readPart 2 r = .ok 1 r1) :
    readBlock r = (do
      let length ← liftE fixedLengthTree
      let distance ← liftE fixedDistanceTree
      let codes ← scanHuffmanData length (some distance)
      pure (Block.fixedHuffman codes)) r1 := by
  unfold readBlock; rw [ES.bind_ok h]; rfl

theorem readBlock_2 {r r1 : BitReader} (h : BitReader.readPart 2 r = .ok 2 r1) :
    readBlock r = (do
      let p ← BitReader.run (readCodes.collect BitVector.new)
      let codes ← scanHuffmanData p.1.1 p.1.2
      pure (Block.dynamicHuffman p.2 codes)) r1 := by
  unfold readBlock; rw [ES.bind_ok h]; rfl

theorem readBlock_3 {r r1 : BitReader} (h : BitReader.readPart 2 r = .ok 3 r1) :
    readBlock r = .error (.err .reservedBlock) r1 := by
  unfold readBlock; rw [ES.bind_ok h]; rfl

theorem padLen_eq {off n : Nat} (h : (off + n) % 8 = 0) : padLen off = n % 8 := by
  unfold padLen; omega

theorem readBlock_ok {r : BitReader} (hw : r.WF) {off : Nat} (hoff : (off + r.bits.length) % 8 = 0)
    {b : Block} {bs rest : List Bool} (h : BlockBits LengthSym off b bs) (hb : r.bits = bs ++ rest) :
    ∃ r', readBlock r = .ok b r' ∧ r'.WF ∧ r'.bits = rest := by
  cases h with
  | stored data hd =>
    rw [List.append_assoc, List.append_assoc] at hb
    obtain ⟨r1, h1, w1, b1⟩ := BitReader.run_ok hw (p := BitProg.readPart 2) (by
      rw [hb]; exact BitProg.exec_readPart_lsb (by omega) (by simp) _)
    have hlen : r.bits.length = 2 + r1.bits.length := by rw [hb, b1]; simp
    have hp : padLen (off + 2) = r1.bits.length % 8 := padLen_eq (by omega)
    have htake : r1.bits.take (r1.bits.length % 8) =
        List.replicate (padLen (off + 2)) false := by
      rw [← hp, b1, List.take_left' (by simp)]
    obtain ⟨r2, h2, w2, b2⟩ := BitReader.align_ok w1 (by
      rw [htake]; intro b hb; exact List.eq_of_mem_replicate hb)
    rw [← hp, b1, List.drop_left' (by simp)] at b2
    obtain ⟨r3, h3, w3, b3⟩ := readStored_ok w2 hd b2
    refine ⟨r3, ?_, w3, b3⟩
    rw [readBlock_0 h1]
    rw [ES.bind_ok h2, ES.bind_ok h3]
    rfl
  | fixed codes bs hc =>
    rw [List.append_assoc] at hb
    obtain ⟨r1, h1, w1, b1⟩ := BitReader.run_ok hw (p := BitProg.readPart 2) (by
      rw [hb]; exact BitProg.exec_readPart_lsb (by omega) (by simp) _)
    obtain ⟨lt, hlt, hl⟩ := fixedLengthTree_ok
    obtain ⟨dt, hdt, hd⟩ := fixedDistanceTree_ok
    obtain ⟨r2, h2, w2, b2⟩ := scanHuffmanData_ok hl (dt := some dt) (alpha := some fixedDist) hd w1
      hc b1
    refine ⟨r2, ?_, w2, b2⟩
    rw [readBlock_1 h1]
    rw [hlt, hdt, ES.liftE_bind_ok, ES.liftE_bind_ok, ES.bind_ok h2]
    rfl
  | dynamic lit dist alpha codes trees hdr bs hh hc ha ht hcs =>
    rw [List.append_assoc, List.append_assoc] at hb
    obtain ⟨r1, h1, w1, b1⟩ := BitReader.run_ok hw (p := BitProg.readPart 2) (by
      rw [hb]; exact BitProg.exec_readPart_lsb (by omega) (by simp) _)
    obtain ⟨lt, dt, hr, hl, hd⟩ := readCodes_complete hh hc ha (bs ++ rest)
    have hcol := BitProg.exec_collect_ok (d := []) hr
    obtain ⟨r2, h2, w2, b2⟩ := BitReader.run_ok w1 (by rw [b1]; exact hcol)
    obtain ⟨r3, h3, w3, b3⟩ := scanHuffmanData_ok hl hd w2 hcs b2
    refine ⟨r3, ?_, w3, b3⟩
    have htr : trees = BitVector.ofBits ([] ++ hdr) := by
      have := pushAll_ofBits hdr []
      rw [BitVector.ofBits_nil, ht] at this
      exact Except.ok.inj this
    rw [readBlock_2 h1]
    rw [BitVector.ofBits_nil] at h2
    rw [ES.bind_ok h2]
    dsimp only
    rw [ES.bind_ok h3, htr]
    rfl

theorem readBlock_sound {r : BitReader} (hw : r.WF) {off : Nat}
    (hoff : (off + r.bits.length) % 8 = 0) :
    (∃ b bs r', readBlock r = .ok b r' ∧ BlockBits LengthSym off b bs ∧ r.bits = bs ++ r'.bits ∧ r'.WF) ∨
    (∃ e r', readBlock r = .error (.err e) r' ∧ r'.WF) := by
  rcases readPart2 hw with ⟨v, r1, h1, hv, b1, w1⟩ | ⟨r1, h1, w1⟩
  · have hv' : v = 0 ∨ v = 1 ∨ v = 2 ∨ v = 3 := by omega
    rcases hv' with rfl | rfl | rfl | rfl
    · rw [readBlock_0 h1]
      by_cases hz : ∀ b ∈ r1.bits.take (r1.bits.length % 8), b = false
      · obtain ⟨r2, h2, w2, b2⟩ := BitReader.align_ok w1 hz
        rw [ES.bind_ok h2]
        rcases readStored_sound w2 with ⟨data, r3, h3, hd, b3, w3⟩ | ⟨e, r3, h3, w3⟩
        · left
          have hlen : r.bits.length = 2 + r1.bits.length := by rw [b1]; simp
          have hp : padLen (off + 2) = r1.bits.length % 8 := padLen_eq (by omega)
          have htake : r1.bits.take (r1.bits.length % 8) =
              List.replicate (padLen (off + 2)) false := by
            rw [hp]
            apply List.eq_replicate_iff.2
            refine ⟨?_, hz⟩
            rw [List.length_take, Nat.min_eq_left (Nat.mod_le _ _)]
          refine ⟨_, _, r3, by rw [ES.bind_ok h3]; rfl, .stored data hd, ?_, w3⟩
          rw [b1, List.append_assoc, List.append_assoc, ← b3, ← htake, b2, List.take_append_drop]
        · right
          exact ⟨e, r3, by rw [ES.bind_err h3], w3⟩
      · obtain ⟨r2, h2, w2⟩ := BitReader.align_err w1 hz
        exact .inr ⟨_, r2, by rw [ES.bind_err h2], w2⟩
    · rw [readBlock_1 h1]
      obtain ⟨lt, hlt, hl⟩ := fixedLengthTree_ok
      obtain ⟨dt, hdt, hd⟩ := fixedDistanceTree_ok
      rw [hlt, hdt, ES.liftE_bind_ok, ES.liftE_bind_ok]
      rcases scanHuffmanData_sound hl (dt := some dt) (alpha := some fixedDist) hd w1 with
        ⟨cs, bs, r2, h2, hcs, b2, w2⟩ | ⟨e, r2, h2, w2⟩
      · exact .inl ⟨_, _, r2, by rw [ES.bind_ok h2]; rfl, .fixed cs bs hcs, by rw [b1, b2]; simp, w2⟩
      · exact .inr ⟨e, r2, by rw [ES.bind_err h2], w2⟩
    · rw [readBlock_2 h1]
      have hs := readCodes_sound r1.bits
      cases h : readCodes.exec r1.bits with
      | ok p rest =>
        obtain ⟨lt, dt⟩ := p
        rw [h] at hs
        obtain ⟨lit, dist, alpha, hdr, g1, g2, g3, g4, g5, g6⟩ := hs
        have hcol := BitProg.exec_collect_ok (d := []) (by rw [← g4]; exact h)
        obtain ⟨r2, h2, w2, b2⟩ := BitReader.run_ok w1 (by rw [g4]; exact hcol)
        rw [BitVector.ofBits_nil] at h2
        rw [ES.bind_ok h2]
        rcases scanHuffmanData_sound g5 g6 w2 with ⟨cs, bs, r3, h3, hcs, b3, w3⟩ | ⟨e, r3, h3, w3⟩
        · refine .inl ⟨_, _, r3, by dsimp only; rw [ES.bind_ok h3]; rfl,
            .dynamic lit dist alpha cs _ hdr bs g1 g2 g3 ?_ hcs, ?_, w3⟩
          · have := pushAll_ofBits hdr []
            rwa [BitVector.ofBits_nil] at this
          · rw [b1, g4, ← b2, b3]; simp
        · exact .inr ⟨e, r3, by dsimp only; rw [ES.bind_err h3], w3⟩
      | fail e =>
        rw [h] at hs
        obtain ⟨x, rfl⟩ := hs
        have hcol := BitProg.exec_collect_fail (d := []) h
        rw [BitVector.ofBits_nil] at hcol
        obtain ⟨r2, h2, w2⟩ := BitReader.run_fail w1 hcol
        exact .inr ⟨x, r2, by rw [ES.bind_err h2], w2⟩
      | starved =>
        have hcol := BitProg.exec_collect_starved (d := []) h
        rw [BitVector.ofBits_nil] at hcol
        obtain ⟨r2, h2, w2⟩ := BitReader.run_starved w1 hcol
        exact .inr ⟨_, r2, by rw [ES.bind_err h2], w2⟩
    · exact .inr ⟨_, r1, readBlock_3 h1, w1⟩
  · exact .inr ⟨_, r1, by unfold readBlock; rw [ES.bind_err h1], w1⟩

/-! ### The iterator -/

theorem next_ended {it : BlockIter} (hw : it.inner.WF) (he : it.ended = true) :
    (∃ r, it.next = (none, ⟨r, true⟩) ∧ r.remainingBits = 0 ∧
      (∀ b ∈ it.inner.bits.take (it.inner.bits.length % 8), b = false) ∧
      r.bits = it.inner.bits.drop (it.inner.bits.length % 8)) ∨
    (∃ e r, it.next = (some (.error (.err e)), ⟨r, true⟩) ∧ r.WF ∧
      r.remainingBits < it.inner.remainingBits ∧
      ¬ ∀ b ∈ it.inner.bits.take (it.inner.bits.length % 8), b = false) := by
  unfold BlockIter.next
  by_cases hz : ∀ b ∈ it.inner.bits.take (it.inner.bits.length % 8), b = false
  · obtain ⟨r, h1, h2, h3⟩ := BitReader.align_ok hw hz
    exact .inl ⟨r, by simp [he, h1], h2, hz, h3⟩
  · obtain ⟨r, h1, h2, h3⟩ := BitReader.align_err_lt hw hz
    exact .inr ⟨.padding, r, by simp [he, h1], h2, h3, hz⟩

theorem next_open {it : BlockIter} (hw : it.inner.WF) (he : it.ended = false) {off : Nat}
    (hoff : (off + it.inner.bits.length) % 8 = 0) :
    (∃ b f bs r, it.next = (some (.ok b), ⟨r, f⟩) ∧ r.WF ∧ BlockBits LengthSym (off + 1) b bs ∧
      it.inner.bits = f :: (bs ++ r.bits)) ∨
    (∃ e r f, it.next = (some (.error (.err e)), ⟨r, f⟩) ∧ r.WF) := by
  unfold BlockIter.next
  cases hb : it.inner.bits with
  | nil =>
    obtain ⟨r, h1, h2⟩ := BitReader.readBit_nil hw hb
    exact .inr ⟨_, r, _, by simp only [he, h1]; rfl, h2⟩
  | cons f rest =>
    obtain ⟨r1, h1, w1, b1⟩ := BitReader.readBit_cons hw hb
    rw [hb, List.length_cons] at hoff
    rcases readBlock_sound w1 (off := off + 1) (by rw [b1]; omega) with
      ⟨b, bs, r2, h2, hbb, b2, w2⟩ | ⟨e, r2, h2, w2⟩
    · exact .inl ⟨b, f, bs, r2, by simp [he, h1, h2], w2, hbb, by rw [← b2, b1]⟩
    · exact .inr ⟨e, r2, _, by simp only [he, h1, h2]; rfl, w2⟩

theorem next_block {it : BlockIter} (hw : it.inner.WF) (he : it.ended = false) {off : Nat}
    (hoff : (off + it.inner.bits.length) % 8 = 0) {f : Bool} {b : Block} {bs rest : List Bool}
    (hb : it.inner.bits = f :: (bs ++ rest)) (h : BlockBits LengthSym (off + 1) b bs) :
    ∃ r, it.next = (some (.ok b), ⟨r, f⟩) ∧ r.WF ∧ r.bits = rest := by
  obtain ⟨r1, h1, w1, b1⟩ := BitReader.readBit_cons hw hb
  rw [hb, List.length_cons] at hoff
  obtain ⟨r2, h2, w2, b2⟩ := readBlock_ok w1 (off := off + 1) (by rw [b1]; omega) h b1
  exact ⟨r2, by unfold BlockIter.next; simp [he, h1, h2], w2, b2⟩

theorem next_wf {it : BlockIter} (hw : it.inner.WF) : it.next.2.inner.WF := by
  cases he : it.ended with
  | true =>
    rcases next_ended hw he with ⟨r, h, h0, _⟩ | ⟨_, r, h, h0, _⟩ <;> rw [h]
    · simp [BitReader.WF, h0]
    · exact h0
  | false =>
    rcases next_open hw he (off := (8 - it.inner.bits.length % 8)) (by omega) with
      ⟨_, _, _, r, h, h0, _⟩ | ⟨_, r, _, h, h0⟩ <;> rw [h] <;> exact h0

theorem StreamBits.length_lt {off : Nat} {blocks : List Block} {bits : List Bool}
    (h : StreamBits LengthSym off blocks bits) : blocks.length ≤ bits.length := by
  induction h with
  | last => simp
  | cons off b rest bs rs _ _ ih =>
    simp only [List.length_cons, List.length_append]; omega

theorem collectLoop_ok {off : Nat} {blocks : List Block} {bits : List Bool}
    (h : StreamBits LengthSym off blocks bits) {it : BlockIter} (hw : it.inner.WF) (he : it.ended = false)
    (hoff : (off + it.inner.bits.length) % 8 = 0) {rest : List Bool}
    (hb : it.inner.bits = bits ++ rest) (hz : ∀ b ∈ rest.take (rest.length % 8), b = false)
    {fuel : Nat} (hf : blocks.length < fuel) (acc : List Block) :
    ∃ r, collectLoop fuel it acc = (.ok (), acc ++ blocks, ⟨r, true⟩) ∧ r.remainingBits = 0 ∧
      r.bits = rest.drop (rest.length % 8) := by
  induction h generalizing it fuel acc with
  | last off b bs hbb =>
    obtain ⟨fuel, rfl⟩ : ∃ f, fuel = f + 2 := ⟨fuel - 2, by simp at hf; omega⟩
    obtain ⟨r, h1, w1, b1⟩ := next_block hw he hoff (by simpa using hb) hbb
    rcases next_ended (it := ⟨r, true⟩) w1 rfl with ⟨r2, h2, h3, _, h4⟩ | ⟨_, _, _, _, _, hn⟩
    · refine ⟨r2, ?_, h3, by rw [← b1]; exact h4⟩
      rw [collectLoop, h1]
      dsimp only
      rw [collectLoop, h2]
    · exact absurd (by simpa only [b1] using hz) hn
  | cons off b blocks bs rs hbb _ ih =>
    obtain ⟨fuel, rfl⟩ : ∃ f, fuel = f + 1 := ⟨fuel - 1, by simp at hf; omega⟩
    obtain ⟨r, h1, w1, b1⟩ := next_block hw he hoff (by simpa using hb) hbb
    have hl : it.inner.bits.length = 1 + bs.length + r.bits.length := by
      rw [hb, b1]; simp; omega
    obtain ⟨r', h2, h3, h4⟩ := ih (it := ⟨r, false⟩) w1 rfl (by dsimp only; omega) b1
      (fuel := fuel) (by simp at hf; omega) (acc ++ [b])
    refine ⟨r', ?_, h3, h4⟩
    rw [collectLoop, h1]
    dsimp only
    rw [h2]
    simp

theorem collectLoop_sound (fuel : Nat) {off : Nat} {it : BlockIter} (hw : it.inner.WF)
    (he : it.ended = false) (hoff : (off + it.inner.bits.length) % 8 = 0)
    (hf : it.inner.bits.length < fuel) (acc : List Block) :
    (∃ blocks bits rest r, collectLoop fuel it acc = (.ok (), acc ++ blocks, ⟨r, true⟩) ∧
      StreamBits LengthSym off blocks bits ∧ it.inner.bits = bits ++ rest ∧ r.remainingBits = 0 ∧
      (∀ b ∈ rest.take (rest.length % 8), b = false) ∧ r.bits = rest.drop (rest.length % 8)) ∨
    (∃ e p, collectLoop fuel it acc = (.error (.err e), p) ∧ p.2.inner.WF) := by
  induction fuel generalizing it off acc with
  | zero => omega
  | succ fuel ih =>
    rcases next_open hw he hoff with ⟨b, f, bs, r, h1, w1, hbb, hb⟩ | ⟨e, r, f, h1, w1⟩
    · cases f with
      | true =>
        obtain ⟨fuel, rfl⟩ : ∃ f, fuel = f + 1 := ⟨fuel - 1, by rw [hb] at hf; simp at hf; omega⟩
        rcases next_ended (it := ⟨r, true⟩) w1 rfl with ⟨r2, h2, h3, hz, h4⟩ | ⟨e, r2, h2, h3, _, hn⟩
        · refine .inl ⟨[b], true :: bs, r.bits, r2, ?_, .last off b bs hbb, by rw [hb]; rfl, h3, hz,
            h4⟩
          rw [collectLoop, h1]
          dsimp only
          rw [collectLoop, h2]
        · refine .inr ⟨e, (acc ++ [b], ⟨r2, true⟩), ?_, h3⟩
          rw [collectLoop, h1]
          dsimp only
          rw [collectLoop, h2]
      | false =>
        have hl : it.inner.bits.length = 1 + bs.length + r.bits.length := by
          rw [hb]; simp; omega
        rcases ih (it := ⟨r, false⟩) (off := off + 1 + bs.length) w1 rfl (by dsimp only; omega)
          (by dsimp only; omega) (acc ++ [b]) with
          ⟨blocks, bits, rest, r', h2, hs, hr, h3, hz, h4⟩ | ⟨e, p, h2, h3⟩
        · refine .inl ⟨b :: blocks, false :: bs ++ bits, rest, r', ?_, .cons off b blocks bs bits hbb hs,
            ?_, h3, hz, h4⟩
          · rw [collectLoop, h1]
            dsimp only
            rw [h2]
            simp
          · dsimp only at hr
            rw [hb, hr]; simp
        · refine .inr ⟨e, p, ?_, h3⟩
          rw [collectLoop, h1]
          exact h2
    · refine .inr ⟨e, (acc, ⟨r, f⟩), ?_, w1⟩
      rw [collectLoop, h1]

theorem parseAll_iff (bytes : List UInt8) (blocks : List Block) (rest : List UInt8) :
    parseAll bytes = .ok (blocks, rest) ↔ ∃ d, bytes = d ++ rest ∧ DeflateBytes blocks d := by
  constructor
  · intro h
    unfold parseAll collect at h
    rcases collectLoop_sound (8 * bytes.length + 2) (it := parseDeflate bytes) (off := 0)
      (BitReader.wf_new bytes) rfl
      (by show (0 + (BitReader.new bytes).bits.length) % 8 = 0
          rw [BitReader.bits_new, bytesBits_length]; omega)
      (by show (BitReader.new bytes).bits.length < _
          rw [BitReader.bits_new, bytesBits_length]; omega) [] with
      ⟨bl, bits, tl, r, h1, hs, hb, h3, hz, h4⟩ | ⟨e, p, h1, _⟩
    · rw [h1] at h
      simp only [List.nil_append, Except.ok.injEq, Prod.mk.injEq] at h
      obtain ⟨rfl, rfl⟩ := h
      rw [show (parseDeflate bytes).inner = BitReader.new bytes from rfl, BitReader.bits_new] at hb
      rw [BitReader.bits_aligned h3] at h4
      have hl : padLen bits.length = tl.length % 8 := padLen_eq (by
        have := congrArg List.length hb
        rw [bytesBits_length, List.length_append] at this; omega)
      have hp : bytesBits bytes = padded bits ++ bytesBits r.inner := by
        rw [hb, h4, padded, hl, List.append_assoc]
        congr 1
        have : List.replicate (tl.length % 8) false = tl.take (tl.length % 8) := by
          symm
          apply List.eq_replicate_iff.2
          exact ⟨by rw [List.length_take, Nat.min_eq_left (Nat.mod_le _ _)], hz⟩
        rw [this, List.take_append_drop]
      have hlen : (padded bits).length = 8 * (bytes.length - r.inner.length) ∧
          r.inner.length ≤ bytes.length := by
        have := congrArg List.length hp
        rw [bytesBits_length, List.length_append, bytesBits_length] at this
        have h8 : (padded bits).length % 8 = 0 := by simp [padded, padLen]; omega
        omega
      have hd : bytesBits (bytes.take (bytes.length - r.inner.length)) = padded bits := by
        have e : bytesBits bytes = bytesBits (bytes.take (bytes.length - r.inner.length)) ++
            bytesBits (bytes.drop (bytes.length - r.inner.length)) := by
          rw [← bytesBits_append, List.take_append_drop]
        rw [hp] at e
        refine (List.append_inj e ?_).1.symm
        rw [hlen.1, bytesBits_length, List.length_take]; omega
      refine ⟨bytes.take (bytes.length - r.inner.length), ?_, bits, hs, hd⟩
      rw [← hd, ← bytesBits_append] at hp
      exact bytesBits_inj hp
    · rw [h1] at h
      simp at h
  · rintro ⟨d, rfl, bits, hs, hd⟩
    have hl := StreamBits.length_lt hs
    have hbl : bits.length ≤ 8 * d.length := by
      have := congrArg List.length hd
      rw [bytesBits_length, padded, List.length_append] at this; omega
    have hr8 : padLen bits.length < 8 := by unfold padLen; omega
    have hmod : (List.replicate (padLen bits.length) false ++ bytesBits rest).length % 8 =
        padLen bits.length := by
      simp only [List.length_append, List.length_replicate, bytesBits_length]; omega
    obtain ⟨r, h1, h2, h3⟩ := collectLoop_ok hs (it := parseDeflate (d ++ rest))
      (BitReader.wf_new _) rfl
      (by show (0 + (BitReader.new _).bits.length) % 8 = 0
          rw [BitReader.bits_new, bytesBits_length]; omega)
      (rest := List.replicate (padLen bits.length) false ++ bytesBits rest)
      (by show (BitReader.new _).bits = _
          rw [BitReader.bits_new, bytesBits_append, hd, padded, List.append_assoc])
      (by rw [hmod, List.take_left' (by simp)]
          intro b hb; exact List.eq_of_mem_replicate hb)
      (fuel := 8 * (d ++ rest).length + 2) (by rw [List.length_append]; omega) []
    rw [hmod, List.drop_left' (by simp), BitReader.bits_aligned h2] at h3
    unfold parseAll collect
    rw [h1]
    simp only [List.nil_append]
    rw [bytesBits_inj h3]

theorem parseAll_error {bytes : List UInt8} {e : Fail} (h : parseAll bytes = .error e) :
    ∃ x, e = .err x := by
  unfold parseAll collect at h
  rcases collectLoop_sound (8 * bytes.length + 2) (it := parseDeflate bytes) (off := 0)
    (BitReader.wf_new bytes) rfl
    (by show (0 + (BitReader.new bytes).bits.length) % 8 = 0
        rw [BitReader.bits_new, bytesBits_length]; omega)
    (by show (BitReader.new bytes).bits.length < _
        rw [BitReader.bits_new, bytesBits_length]; omega) [] with
    ⟨bl, bits, tl, r, h1, hs, hb, h3, hz, h4⟩ | ⟨x, p, h1, _⟩
  · rw [h1] at h; simp at h
  · rw [h1] at h
    exact ⟨x, (Except.error.inj h).symm⟩

end Parse

end Rezip
