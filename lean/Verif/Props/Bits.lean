import Verif.Lemmas.BitWriter
import Verif.Spec.Drive

/-!
# C01–C06: bits, bit vectors and stored payloads
-/

namespace Rezip

open Spec

/-! ## Helper lemmas about the drivers -/

theorem readBits_bits {r : BitReader} (h : r.WF) {bs rest : List Bool} (hb : r.bits = bs ++ rest) :
    ∃ r', readBits bs.length r = .ok bs r' ∧ r'.WF ∧ r'.bits = rest := by
  induction bs generalizing r with
  | nil => exact ⟨r, rfl, h, hb⟩
  | cons b bs ih =>
    obtain ⟨r', h1, h2, h3⟩ := BitReader.readBit_cons h hb
    obtain ⟨r'', h4, h5, h6⟩ := ih h2 h3
    refine ⟨r'', ?_, h5, h6⟩
    rw [List.length_cons, readBits, ES.bind_ok h1, ES.bind_ok h4]
    rfl

theorem pushAll_ofBits (bs done : List Bool) :
    pushAll bs (BitVector.ofBits done) = .ok (BitVector.ofBits (done ++ bs)) := by
  induction bs generalizing done with
  | nil => simp [pushAll]
  | cons b bs ih => simp [pushAll, BitVector.push_ofBits, ih]

/-! ## C01 -/

/-- C01. Bits written to a vector, then aligned, are read back unchanged, followed by fewer than
eight zero bits and the end of the input; `⌈n/8⌉` bytes are produced. -/
theorem C01_bits_roundtrip (bits : List Bool) :
    ∃ w bytes, (do BitWriter.writeBits bits; BitWriter.align) (BitWriter.new Sink.vec) = .ok () w ∧
      w.intoInner = .ok { out := bytes, room := none } ∧
      bytes.length = (bits.length + 7) / 8 ∧
      ∃ r₁ r₂ r₃ k, readBits bits.length (BitReader.new bytes) = .ok bits r₁ ∧
        k < 8 ∧ readBits k r₁ = .ok (List.replicate k false) r₂ ∧
        BitReader.readBit r₂ = .error (.err .eof) r₃ := by
  refine ⟨BitWriter.writerOf [] (padded bits), packBits bits, ?_, ?_, packBits_length bits, ?_⟩
  · rw [show BitWriter.new Sink.vec = _ from BitWriter.new_eq [],
      ES.bind_ok (BitWriter.writeBits_writerOf [] [] bits), List.nil_append,
      BitWriter.align_writerOf]
  · rw [BitWriter.intoInner_writerOf [] (padded_length bits), packBits_padded]
    simp
  · have hb : (BitReader.new (packBits bits)).bits =
        bits ++ List.replicate (padLen bits.length) false := by
      rw [BitReader.bits_new, bytesBits_packBits, padded]
    obtain ⟨r₁, h1, h2, h3⟩ := readBits_bits (BitReader.wf_new _) hb
    have h3' : r₁.bits = List.replicate (padLen bits.length) false ++ [] := by simpa using h3
    obtain ⟨r₂, h4, h5, h6⟩ := readBits_bits h2 h3'
    obtain ⟨r₃, h7, _⟩ := BitReader.readBit_nil h5 h6
    refine ⟨r₁, r₂, r₃, padLen bits.length, h1, padLen_lt _, ?_, h7⟩
    simpa using h4

example :
    (do
      BitWriter.writeBits [true, false, true, true, false, true, true, true, true]
      BitWriter.align) (BitWriter.new Sink.vec) =
    .ok () { inner := { out := [0xED, 0x01], room := none }, current := BitVector.new } := by
  decide +kernel

/-! ## C02 -/

/-- C02. A value written with width `n ≤ 16` between arbitrary other bits is read back as the value
modulo `2^n`, and the bits before and after it are untouched. -/
theorem C02_fixed_width_roundtrip (before after : List Bool) (n v : Nat) (hn : n ≤ 16)
    (_hv : v < 65536) :
    ∃ w bytes,
      (do
        BitWriter.writeBits before
        BitWriter.writeBitsVal n v
        BitWriter.writeBits after
        BitWriter.align) (BitWriter.new Sink.vec) = .ok () w ∧
      w.intoInner = .ok { out := bytes, room := none } ∧
      ∃ r₁ r₂ r₃, readBits before.length (BitReader.new bytes) = .ok before r₁ ∧
        BitReader.readPart n r₁ = .ok (v % 2 ^ n) r₂ ∧
        readBits after.length r₂ = .ok after r₃ := by
  let bits := before ++ (lsbBits n v ++ after)
  refine ⟨BitWriter.writerOf [] (padded bits), packBits bits, ?_, ?_, ?_⟩
  · rw [show BitWriter.new Sink.vec = _ from BitWriter.new_eq [],
      ES.bind_ok (BitWriter.writeBits_writerOf [] [] before),
      ES.bind_ok (BitWriter.writeBitsVal_writerOf [] _ hn),
      ES.bind_ok (BitWriter.writeBits_writerOf [] _ after), BitWriter.align_writerOf]
    simp [bits]
  · rw [BitWriter.intoInner_writerOf [] (padded_length bits), packBits_padded]
    simp
  · have hb : (BitReader.new (packBits bits)).bits =
        before ++ (lsbBits n v ++ (after ++ List.replicate (padLen bits.length) false)) := by
      rw [BitReader.bits_new, bytesBits_packBits, padded]; simp [bits]
    obtain ⟨r₁, h1, h2, h3⟩ := readBits_bits (BitReader.wf_new _) hb
    have he := BitProg.exec_readPart hn (lsbBits n v)
      (after ++ List.replicate (padLen bits.length) false) (by simp)
    rw [bitsVal_lsbBits, ← h3] at he
    obtain ⟨r₂, h4, h5, h6⟩ := BitReader.run_ok h2 he
    obtain ⟨r₃, h7, _, _⟩ := readBits_bits h5 h6
    exact ⟨r₁, r₂, r₃, h1, h4, h7⟩

example :
    (do
      BitWriter.writeBits [true]
      BitWriter.writeBitsVal 5 0b10110
      BitWriter.align) (BitWriter.new Sink.vec) =
    .ok () { inner := { out := [0b00101101], room := none }, current := BitVector.new } := by
  decide +kernel

/-! ## C03 -/

/-- C03. A bit vector built by pushes is exactly the pushed sequence: iterating gives it back, the
length and every `get` agree. -/
theorem C03_bitvec_sequence (bits : List Bool) :
    ∃ v, pushAll bits BitVector.new = .ok v ∧ v.toBits = .ok bits ∧ v.len = bits.length ∧
      ∀ i (h : i < bits.length), v.get i = .ok bits[i] := by
  refine ⟨BitVector.ofBits bits, ?_, BitVector.toBits_ofBits bits, rfl, BitVector.get_ofBits bits⟩
  rw [← BitVector.ofBits_nil, pushAll_ofBits, List.nil_append]

/-- C03. Two bit vectors built by pushes compare equal (derived, componentwise equality) exactly
when the pushed sequences are equal. -/
theorem C03_bitvec_eq (a b : List Bool) (v w : BitVector)
    (hv : pushAll a BitVector.new = .ok v) (hw : pushAll b BitVector.new = .ok w) :
    v = w ↔ a = b := by
  rw [← BitVector.ofBits_nil, pushAll_ofBits, List.nil_append] at hv hw
  rw [← Except.ok.inj hv, ← Except.ok.inj hw]
  exact BitVector.ofBits_inj

/-- C03. `from_slice` is the vector of the bits of the bytes, lowest first: it compares equal to the one into
which they were pushed. -/
theorem C03_from_slice (bytes : List UInt8) :
    pushAll (bytesBits bytes) BitVector.new = .ok (BitVector.fromSlice bytes) := by
  rw [← BitVector.ofBits_nil, pushAll_ofBits, List.nil_append, BitVector.ofBits, packBits_bytesBits, bytesBits_length,
    BitVector.fromSlice, Nat.mul_comm]

example : pushAll [false, true, false, false, false, false, false, false, true, true, true, true, true, true, true, false]
    BitVector.new = .ok (BitVector.fromSlice [0x02, 0x7f]) := by
  decide +kernel

example : pushAll [true, true, false, true, true, true, false, true, true, false]
    BitVector.new = .ok { bytes := [0b10111011, 0b01], len := 10 } := by
  decide +kernel

/-! ## C04 -/

/-- The invariant of a bit vector under pushes and pops: popped bits linger in the last byte. -/
structure VecInv (v : BitVector) (st junk : List Bool) : Prop where
  bytes : v.bytes = packBits (st ++ junk)
  len : v.len = st.length
  junk_len : junk.length ≤ padLen st.length

theorem packBits_pad_false {st : List Bool} {k : Nat} (h : k ≤ padLen st.length) :
    packBits (st ++ List.replicate k false) = packBits st := by
  rw [← packBits_padded (st ++ _), ← packBits_padded st]
  congr 1
  have : padLen (st ++ List.replicate k false).length = padLen st.length - k := by
    simp only [padLen, List.length_append, List.length_replicate] at h ⊢; omega
  simp only [padded, this, List.append_assoc, List.append_cancel_left_eq]
  rw [List.replicate_append_replicate]
  congr 1; omega

theorem VecInv.get {v : BitVector} {st junk : List Bool} (h : VecInv v st junk) {i : Nat}
    (hi : i < st.length) : v.get i = .ok st[i] := by
  have h1 := BitVector.get_ofBits (st ++ junk) i (by simp; omega)
  rw [List.getElem_append_left hi] at h1
  rw [← h1]
  unfold BitVector.get
  have h2 : (BitVector.ofBits (st ++ junk)).bytes = v.bytes := h.bytes.symm
  have h3 : i < (BitVector.ofBits (st ++ junk)).len := by simp [BitVector.ofBits]; omega
  have h4 : i < v.len := by rw [h.len]; exact hi
  rw [h2, assert_of (decide_eq_true h3), assert_of (decide_eq_true h4)]

theorem VecInv.pop {v : BitVector} {st junk : List Bool} {b : Bool}
    (h : VecInv v (st ++ [b]) junk) :
    ∃ v', v.pop = .ok (some b, v') ∧
      VecInv v' st (if st.length % 8 = 0 then [] else b :: junk) := by
  have hlen : v.len = st.length + 1 := by simp [h.len]
  have hg := h.get (i := st.length) (by simp)
  simp only [List.getElem_append_right (Nat.le_refl _), Nat.sub_self, List.getElem_cons_zero] at hg
  have hj := h.junk_len
  simp only [padLen, List.length_append, List.length_cons, List.length_nil] at hj
  unfold BitVector.pop
  simp only [hlen, Nat.add_sub_cancel, hg, Ex.ok_bind, Ex.pure_eq]
  refine ⟨_, rfl, ?_⟩
  have hb := h.bytes
  rw [List.append_assoc, List.singleton_append] at hb
  by_cases hm : st.length % 8 = 0
  · refine ⟨?_, rfl, ?_⟩
    · simp only [if_true, hm, List.append_nil]
      rw [hb, packBits_append hm, packBits_short (a := b :: junk) (by simp; omega) (by simp)]
      simp
    · simp [hm]
  · refine ⟨?_, rfl, ?_⟩
    · have hm' : (st.length % 8 == 0) = false := by simp [hm]
      simp only [hm', if_false, hm, Bool.false_eq_true]
      exact hb
    · simp only [hm, if_false, List.length_cons, padLen]; omega

theorem VecInv.drain {v : BitVector} {st junk : List Bool} (h : VecInv v st junk)
    (fuel i : Nat) (hi : i ≤ st.length) (hf : st.length - i < fuel) :
    StackIterator.drain fuel { inner := v, pos := i } = .ok (st.drop i) := by
  induction fuel generalizing i with
  | zero => omega
  | succ fuel ih =>
    by_cases hlt : i < st.length
    · have h1 : ¬ (i ≥ v.len) := by rw [h.len]; omega
      simp only [StackIterator.drain, StackIterator.next, h1, ↓reduceIte, h.get hlt]
      rw [ih (i + 1) (by omega) (by omega)]
      simp
    · have h1 : i ≥ v.len := by rw [h.len]; omega
      have h2 : (i == v.len) = true := by rw [h.len]; simp; omega
      simp only [StackIterator.drain, StackIterator.next, h1, ↓reduceIte, h2]
      rw [List.drop_of_length_le (by omega)]

theorem VecInv.toBits {v : BitVector} {st junk : List Bool} (h : VecInv v st junk) :
    v.toBits = .ok st := by
  have := h.drain (v.len + 1) 0 (by omega) (by rw [h.len]; omega)
  simpa [BitVector.toBits, BitVector.iter] using this

theorem VecInv.push_clean {v : BitVector} {st junk : List Bool} (h : VecInv v st junk)
    (hj : ∀ x ∈ junk, x = false) (b : Bool) : v.push b = .ok (BitVector.ofBits (st ++ [b])) := by
  have : junk = List.replicate junk.length false := List.eq_replicate_iff.2 ⟨rfl, hj⟩
  have hv : v = BitVector.ofBits st := by
    have h1 := h.bytes
    rw [this, packBits_pad_false h.junk_len] at h1
    cases v
    simp only [BitVector.ofBits, BitVector.mk.injEq]
    exact ⟨h1, h.len⟩
  rw [hv, BitVector.push_ofBits]

theorem runVec_clean (ops : List VecOp) (v : BitVector) (st junk : List Bool) (dirty : Bool)
    (h : VecInv v st junk) (hd : dirty = false → ∀ x ∈ junk, x = false) (hc : Clean ops st dirty) :
    ∃ v', runVec ops v = .ok ((runStack ops st).1, v') ∧ v'.toBits = .ok (runStack ops st).2 ∧
      v'.len = (runStack ops st).2.length := by
  induction ops generalizing v st junk dirty with
  | nil => exact ⟨v, rfl, h.toBits, h.len⟩
  | cons op ops ih =>
    cases op with
    | push b =>
      obtain ⟨hd', hc'⟩ := hc
      have hp := h.push_clean (hd hd') b
      have hinv : VecInv (BitVector.ofBits (st ++ [b])) (st ++ [b]) [] :=
        ⟨by simp [BitVector.ofBits], rfl, by simp⟩
      obtain ⟨v', h1, h2, h3⟩ := ih _ _ [] false hinv (by simp) hc'
      refine ⟨v', ?_, h2, h3⟩
      simp only [runVec, hp, Ex.ok_bind, runStack]
      exact h1
    | pop =>
      rcases List.eq_nil_or_concat st with rfl | ⟨st', b, rfl⟩
      · have h0 : v.len = 0 := h.len
        have hp : v.pop = .ok (none, v) := by simp [BitVector.pop, h0]
        simp only [Clean, List.dropLast_nil, List.getLast?_nil, List.length_nil] at hc
        have hj : junk = [] := by
          have := h.junk_len; simp [padLen] at this; exact this
        obtain ⟨v', h1, h2, h3⟩ := ih v [] junk _ h (by intro _; simp [hj]) hc
        refine ⟨v', ?_, h2, h3⟩
        simp only [runVec, hp, Ex.ok_bind, h1, runStack, List.getLast?_nil, List.dropLast_nil,
          Ex.pure_eq]
      · rw [List.concat_eq_append] at *
        obtain ⟨v₁, hp, hinv⟩ := h.pop
        simp only [Clean, List.dropLast_concat, List.getLast?_concat] at hc
        have hj : ((dirty || some b == some true) && st'.length % 8 != 0) = false →
            ∀ x ∈ (if st'.length % 8 = 0 then [] else b :: junk), x = false := by
          intro hf x hx
          by_cases hm : st'.length % 8 = 0
          · simp [hm] at hx
          · simp only [hm, if_false, List.mem_cons] at hx
            have hm' : (st'.length % 8 != 0) = true := by simp [hm]
            simp only [hm', Bool.and_true, Bool.or_eq_false_iff] at hf
            rcases hx with rfl | hx
            · cases x <;> simp at hf ⊢
            · exact hd hf.1 x hx
        obtain ⟨v', h1, h2, h3⟩ := ih v₁ st' _ _ hinv hj hc
        have hs : runStack (VecOp.pop :: ops) (st' ++ [b]) =
            (some b :: (runStack ops st').1, (runStack ops st').2) := by
          simp [runStack]
        rw [hs]
        refine ⟨v', ?_, h2, h3⟩
        simp only [runVec, hp, Ex.ok_bind, h1, Ex.pure_eq]

/-- C04 (`_partial`). The full claim is "after every history of pushes and pops the vector holds
what a stack would hold". It holds for every history that never pushes onto a byte out of which a
one bit was popped (`Clean`; in particular for pop-free histories, for pops only, and for the whole
byte pops of `BitWriter`). Missing: histories that do so, where the claim is false (see
`C04_bitvec_stack_false`). -/
theorem C04_bitvec_stack_partial (ops : List VecOp) (h : Clean ops [] false) :
    ∃ v, runVec ops BitVector.new = .ok ((runStack ops []).1, v) ∧
      v.toBits = .ok (runStack ops []).2 ∧ v.len = (runStack ops []).2.length :=
  runVec_clean ops BitVector.new [] [] false ⟨by simp [BitVector.new, packBits_nil], rfl, by simp⟩
    (by simp) h

/-- C04 is false in general: popping does not clear the bit, so a later push of `false` reads back
as `true`. -/
theorem C04_bitvec_stack_false :
    ¬ ∀ ops : List VecOp, ∃ v, runVec ops BitVector.new = .ok ((runStack ops []).1, v) ∧
      v.toBits = .ok (runStack ops []).2 := by
  intro h
  obtain ⟨v, h1, h2⟩ := h [.push true, .push true, .pop, .push false]
  have h3 : runVec [.push true, .push true, .pop, .push false] BitVector.new =
      .ok ([some true], { bytes := [3], len := 2 }) := by decide +kernel
  rw [h3] at h1
  obtain rfl : ({ bytes := [3], len := 2 } : BitVector) = v := by
    injection h1 with h1; exact (Prod.mk.inj h1).2
  revert h2
  decide +kernel

/-- The hypothesis of `C04_bitvec_stack_partial` on a non-trivial history. -/
example : Clean [.push true, .push false, .pop, .push true, .pop, .pop, .push false, .pop, .pop]
    [] false := by
  simp [Clean]

/-! ## C05 -/

/-- Write a payload to an empty vector holding `before`, read it back with the bytes `tail` behind
it: what `read_length_prefixed` returns. -/
def storedRoundTrip (before : List Bool) (data tail : List UInt8) :
    Except Fail (List UInt8 × List UInt8) :=
  match (do BitWriter.writeBits before; BitWriter.writeLengthPrefixed data)
      (BitWriter.new Sink.vec) with
  | .error e _ => .error e
  | .ok _ w =>
    match (do let _ ← readBits before.length; BitReader.align; BitReader.readLengthPrefixed)
        (BitReader.new (w.inner.out ++ tail)) with
    | .error e _ => .error e
    | .ok d r => .ok (d, r.inner)

/-- The two bytes of a 16 bit number exchanged. -/
def swap16 (n : Nat) : Nat := n / 256 + 256 * (n % 256)

theorem storedHeader_read (n : Nat) (h : n < 65536) :
    ∃ l0 l1 n0 n1, BitWriter.storedHeader n = [l0, l1, n0, n1] ∧
      l0.toNat + 256 * l1.toNat = swap16 n ∧
      (l0.toNat + 256 * l1.toNat) ^^^ 0xFFFF = n0.toNat + 256 * n1.toNat := by
  refine ⟨_, _, _, _, rfl, ?_, ?_⟩
  · simp only [Nat.toUInt8, UInt8.toNat_ofNat', Nat.shiftRight_eq_div_pow, swap16,
      show (0xFF : Nat) = 2 ^ 8 - 1 from rfl, Nat.and_two_pow_sub_one_eq_mod]
    omega
  · apply Nat.eq_of_testBit_eq
    intro i
    have hs : ∀ a b : UInt8, a.toNat + 256 * b.toNat = (b.toNat <<< 8) ||| a.toNat := by
      intro a b; rw [BitReader.u16_or]
    rw [hs, hs]
    have hF : (0xFFFF : Nat) = 2 ^ 16 - 1 := rfl
    have h8 : (0xFF : Nat) = 2 ^ 8 - 1 := rfl
    have hn : ∀ j, 16 ≤ j → n.testBit j = false := fun j hj =>
      Nat.testBit_lt_two_pow (Nat.lt_of_lt_of_le (m := 2 ^ 16) h
        (Nat.pow_le_pow_right (by omega) hj))
    simp only [Nat.testBit_xor, Nat.testBit_or, Nat.testBit_shiftLeft, Nat.toUInt8,
      UInt8.toNat_ofNat', Nat.testBit_mod_two_pow, Nat.testBit_shiftRight, Nat.testBit_and, hF, h8,
      Nat.testBit_two_pow_sub_one]
    by_cases h1 : i < 8
    · have : ¬ i ≥ 8 := by omega
      have h2 : i < 16 := by omega
      have h3 : 8 + i < 16 := by omega
      simp [h1, h2, h3, this]
    · by_cases h2 : i < 16
      · have h3 : i ≥ 8 := by omega
        have h4 : i - 8 < 8 := by omega
        have h5 : i - 8 < 16 := by omega
        simp [h1, h2, h3, h4, h5]
      · have h4 : ¬ i - 8 < 8 := by omega
        simp [h1, h2, h4]

theorem storedRoundTrip_eq (before : List Bool) (data tail : List UInt8)
    (h : data.length ≤ 65535) :
    storedRoundTrip before data tail =
      if swap16 data.length ≤ (data ++ tail).length then
        .ok ((data ++ tail).take (swap16 data.length), (data ++ tail).drop (swap16 data.length))
      else .error (.err .eof) := by
  have hout : (padded before ++ bytesBits (BitWriter.storedHeader data.length ++ data)).length % 8 = 0 := by
    have := padded_length before
    rw [List.length_append, bytesBits_length]; omega
  have hw : (do BitWriter.writeBits before; BitWriter.writeLengthPrefixed data)
      (BitWriter.new Sink.vec) = .ok () (BitWriter.writerOf []
        (padded before ++ bytesBits (BitWriter.storedHeader data.length ++ data))) := by
    rw [show BitWriter.new Sink.vec = _ from BitWriter.new_eq [],
      ES.bind_ok (BitWriter.writeBits_writerOf [] [] before), List.nil_append,
      BitWriter.writeLengthPrefixed_writerOf [] before h]
  unfold storedRoundTrip
  rw [hw]
  simp only [BitWriter.writerOf_aligned [] hout, List.nil_append]
  rw [packBits_append (padded_length before), packBits_padded, packBits_bytesBits]
  have hb : (BitReader.new (packBits before ++ (BitWriter.storedHeader data.length ++ data) ++ tail)).bits
      = before ++ (List.replicate (padLen before.length) false ++
        bytesBits (BitWriter.storedHeader data.length ++ data ++ tail)) := by
    rw [BitReader.bits_new, List.append_assoc, bytesBits_append, bytesBits_packBits, padded,
      List.append_assoc]
  obtain ⟨r₁, h1, h2, h3⟩ := readBits_bits (BitReader.wf_new _) hb
  have hlen : r₁.bits.length % 8 = padLen before.length := by
    rw [h3, List.length_append, List.length_replicate, bytesBits_length]
    have := padLen_lt before.length
    omega
  obtain ⟨r₂, h4, h5, h6⟩ := BitReader.align_ok h2 (by
    rw [hlen, h3, List.take_left' (by simp)]
    intro b hb
    exact (List.mem_replicate.1 hb).2)
  rw [hlen, h3, List.drop_left' (by simp)] at h6
  rw [BitReader.bits_aligned h5] at h6
  have h7 := bytesBits_inj h6
  obtain ⟨l0, l1, n0, n1, hh, hsw, hx⟩ := storedHeader_read data.length (by omega)
  rw [hh] at h7
  rw [ES.bind_ok h1, ES.bind_ok h4]
  have hin : r₂.inner = l0 :: l1 :: n0 :: n1 :: (data ++ tail) := by rw [h7]; simp
  obtain ⟨k1, k2, _, _⟩ := BitReader.readLengthPrefixed_eq h5
  by_cases hle : swap16 data.length ≤ (data ++ tail).length
  · rw [k1 _ _ _ _ _ hin hx (by rw [hsw]; exact hle), if_pos hle, hsw]
  · rw [k2 _ _ _ _ _ hin hx (by rw [hsw]; omega), if_neg hle]

/-- C05 (`_partial`). The full claim is "any payload of at most 65535 bytes written and read back is
unchanged". Proved: whatever was written before and whatever follows, it holds for payloads whose
length has equal high and low bytes. Missing: all other lengths, where the claim is false
(`C05_stored_false`): the writer emits the length high byte first. -/
theorem C05_stored_roundtrip_partial (before : List Bool) (data tail : List UInt8)
    (h : data.length ≤ 65535) (heq : data.length / 256 = data.length % 256) :
    storedRoundTrip before data tail = .ok (data, tail) := by
  have hs : swap16 data.length = data.length := by simp only [swap16]; omega
  rw [storedRoundTrip_eq before data tail h, hs, if_pos (by simp)]
  simp

/-- C05, what happens for every payload: the reader takes the length with its bytes exchanged. -/
theorem C05_stored_swapped (before : List Bool) (data tail : List UInt8)
    (h : data.length ≤ 65535) :
    storedRoundTrip before data tail =
      if swap16 data.length ≤ (data ++ tail).length then
        .ok ((data ++ tail).take (swap16 data.length), (data ++ tail).drop (swap16 data.length))
      else .error (.err .eof) :=
  storedRoundTrip_eq before data tail h

/-- C05 fails for every payload whose length has different high and low bytes. -/
theorem C05_stored_false (before : List Bool) (data tail : List UInt8)
    (h : data.length ≤ 65535) (hne : data.length / 256 ≠ data.length % 256) :
    storedRoundTrip before data tail ≠ .ok (data, tail) := by
  rw [storedRoundTrip_eq before data tail h]
  split
  · rename_i hle
    intro heq
    have h1 := congrArg (fun p => match p with
      | Except.ok (d, _) => d.length | _ => 0) heq
    simp only [List.length_take] at h1
    rw [Nat.min_eq_left hle] at h1
    simp only [swap16] at h1
    omega
  · simp

example : storedRoundTrip [true, false] (List.replicate 257 7) [1, 2] =
    .ok (List.replicate 257 7, [1, 2]) :=
  C05_stored_roundtrip_partial _ _ _ (by rw [List.length_replicate]; omega)
    (by rw [List.length_replicate])

example : storedRoundTrip [] [5] [] ≠ .ok ([5], []) := C05_stored_false _ _ _ (by simp) (by simp)

/-! ## C06 -/

/-- C06. On an aligned reader, reading a stored payload succeeds exactly when the next bytes are
LEN and its one's complement, little endian, with at least LEN bytes behind them; it returns those
bytes and leaves the reader right behind them. -/
theorem C06_stored_read (r : BitReader) (h0 : r.remainingBits = 0) (data : List UInt8)
    (r' : BitReader) :
    BitReader.readLengthPrefixed r = .ok data r' ↔
      ∃ l0 l1 n0 n1 : UInt8,
        r.inner = l0 :: l1 :: n0 :: n1 :: (data ++ r'.inner) ∧
        data.length = l0.toNat + 256 * l1.toNat ∧
        n0.toNat + 256 * n1.toNat = 65535 - data.length ∧
        r' = { r with inner := r'.inner } := by
  have hx : ∀ l0 l1 : UInt8, (l0.toNat + 256 * l1.toNat) ^^^ 0xFFFF =
      65535 - (l0.toNat + 256 * l1.toNat) := by
    intro l0 l1
    have h1 := l0.toNat_lt
    have h2 := l1.toNat_lt
    apply Nat.eq_of_testBit_eq
    intro i
    have h3 := Nat.testBit_two_pow_sub_succ (n := 16) (x := l0.toNat + 256 * l1.toNat) (by omega) i
    rw [show (65535 : Nat) = 2 ^ 16 - 1 from rfl, Nat.testBit_xor, Nat.testBit_two_pow_sub_one]
    rw [show 2 ^ 16 - 1 - (l0.toNat + 256 * l1.toNat) =
      2 ^ 16 - (l0.toNat + 256 * l1.toNat + 1) by omega, h3]
    by_cases hi : i < 16
    · simp [hi]
    · have : (l0.toNat + 256 * l1.toNat).testBit i = false :=
        Nat.testBit_lt_two_pow (Nat.lt_of_lt_of_le (m := 2 ^ 16) (by omega)
          (Nat.pow_le_pow_right (by omega) (by omega)))
      simp [hi, this]
  obtain ⟨k1, k2, k3, k4⟩ := BitReader.readLengthPrefixed_eq h0
  constructor
  · intro h
    match hi : r.inner with
    | [] => rw [k4 (by simp [hi])] at h; cases h
    | [_] => rw [k4 (by simp [hi])] at h; cases h
    | [_, _] => rw [k4 (by simp [hi])] at h; cases h
    | [_, _, _] => rw [k4 (by simp [hi])] at h; cases h
    | l0 :: l1 :: n0 :: n1 :: rest =>
      by_cases hc : (l0.toNat + 256 * l1.toNat) ^^^ 0xFFFF = n0.toNat + 256 * n1.toNat
      · by_cases hl : l0.toNat + 256 * l1.toNat ≤ rest.length
        · rw [k1 _ _ _ _ _ hi hc hl] at h
          simp only [EStateM.Result.ok.injEq] at h
          obtain ⟨rfl, rfl⟩ := h
          refine ⟨l0, l1, n0, n1, by simp, by simp [hl], ?_, rfl⟩
          rw [← hc, hx]; simp [hl]
        · rw [k2 _ _ _ _ _ hi hc (by omega)] at h; cases h
      · rw [k3 _ _ _ _ _ hi hc] at h; cases h
  · rintro ⟨l0, l1, n0, n1, hi, hl, hn, hr⟩
    rw [k1 _ _ _ _ _ hi (by rw [hx, hn, hl]) (by simp [hl]), hr]
    simp [← hl]

example : BitReader.readLengthPrefixed (BitReader.new [2, 0, 253, 255, 9, 8, 7]) =
    .ok [9, 8] (BitReader.new [7]) := by decide +kernel

end Rezip
