import Verif.Lemmas.BitReader

/-! A `BitWriter` on a vector is the list of bits written so far. -/

namespace Rezip

open Spec

/-- The writer on a `Vec<u8>` that held `pre`, after writing the bits `bs`. -/
def BitWriter.writerOf (pre : List UInt8) (bs : List Bool) : BitWriter :=
  { inner := { out := pre ++ packBits (bs.take (8 * (bs.length / 8))), room := none }
    current := BitVector.ofBits (bs.drop (8 * (bs.length / 8))) }

namespace BitWriter

theorem writerOf_append (pre : List UInt8) {a c : List Bool} (ha : a.length % 8 = 0)
    (hc : c.length < 8) :
    writerOf pre (a ++ c) =
      { inner := { out := pre ++ packBits a, room := none }, current := BitVector.ofBits c } := by
  have h : 8 * ((a ++ c).length / 8) = a.length := by rw [List.length_append]; omega
  simp only [writerOf, h, List.take_left', List.drop_left']

theorem writerOf_aligned (pre : List UInt8) {a : List Bool} (ha : a.length % 8 = 0) :
    writerOf pre a =
      { inner := { out := pre ++ packBits a, room := none }, current := BitVector.new } := by
  have := writerOf_append pre (c := []) ha (by simp)
  rwa [List.append_nil, BitVector.ofBits_nil] at this

theorem new_eq (pre : List UInt8) :
    BitWriter.new { out := pre, room := none } = writerOf pre [] := by
  simp [BitWriter.new, writerOf, BitVector.ofBits_nil, packBits_nil]

/-- Split the bits written so far into whole bytes and the pending rest. -/
theorem split8 (bs : List Bool) : ∃ a c : List Bool, bs = a ++ c ∧ a.length % 8 = 0 ∧ c.length < 8 :=
  ⟨bs.take (8 * (bs.length / 8)), bs.drop (8 * (bs.length / 8)),
    (List.take_append_drop _ _).symm, by simp; omega, by simp; omega⟩

theorem writeInner_vec (out buf : List UInt8) (cur : BitVector) :
    writeInner buf { inner := { out := out, room := none }, current := cur } =
      .ok () { inner := { out := out ++ buf, room := none }, current := cur } := rfl

theorem writeBit_writerOf (pre : List UInt8) (bs : List Bool) (b : Bool) :
    writeBit b (writerOf pre bs) = .ok () (writerOf pre (bs ++ [b])) := by
  obtain ⟨a, c, rfl, ha, hc⟩ := split8 bs
  rw [writerOf_append pre ha hc]
  simp only [writeBit, ES.get_bind, BitVector.push_ofBits, ES.liftE_bind_ok, ES.set_bind]
  have hlen : (BitVector.ofBits (c ++ [b])).len = c.length + 1 := by simp [BitVector.ofBits]
  by_cases h7 : c.length = 7
  · have h8 : (c ++ [b]).length = 8 := by simp [h7]
    rw [hlen, if_pos (by omega), h7, assert_of (by rfl), ES.liftE_bind_ok,
      BitVector.popByte_ofBits h8, ES.liftE_bind_ok]
    simp only [ES.set_bind, writeInner_vec]
    rw [List.append_assoc, List.append_assoc,
      writerOf_aligned pre (a := a ++ (c ++ [b])) (by rw [List.length_append]; omega),
      packBits_append ha, packBits_short (a := c ++ [b]) (by omega) (by simp)]
  · rw [hlen, if_neg (by omega), List.append_assoc, writerOf_append pre ha (by simp; omega)]
    rfl

theorem writeBits_writerOf (pre : List UInt8) (bs new : List Bool) :
    writeBits new (writerOf pre bs) = .ok () (writerOf pre (bs ++ new)) := by
  induction new generalizing bs with
  | nil => simp [writeBits]
  | cons b new ih =>
    rw [writeBits, ES.bind_ok (writeBit_writerOf pre bs b), ih]
    simp

theorem writeVec_writerOf (pre : List UInt8) (bs new : List Bool) :
    writeVec (BitVector.ofBits new) (writerOf pre bs) = .ok () (writerOf pre (bs ++ new)) := by
  rw [writeVec, BitVector.toBits_ofBits, ES.liftE_bind_ok, writeBits_writerOf]

theorem and_shift_ne_zero (v i : Nat) : ((v &&& (1 <<< i)) != 0) = v.testBit i := by
  rw [Nat.shiftLeft_eq, Nat.one_mul]
  cases h : v.testBit i with
  | true =>
    simp only [bne_iff_ne, ne_eq]
    intro h0
    have := congrArg (Nat.testBit · i) h0
    simp [h] at this
  | false =>
    have : v &&& 2 ^ i = 0 := by
      apply Nat.eq_of_testBit_eq
      intro j
      rw [Nat.testBit_and, Nat.testBit_two_pow]
      by_cases hj : i = j
      · subst hj; simp [h]
      · simp [hj]
    simp [this]

theorem writeBitsValLoop_writerOf (pre : List UInt8) (bs : List Bool) (v i n : Nat)
    (h : i + n ≤ 16) :
    writeBitsValLoop v i n (writerOf pre bs) =
      .ok () (writerOf pre (bs ++ lsbBits n (v / 2 ^ i))) := by
  induction n generalizing i bs with
  | zero => simp [writeBitsValLoop, lsbBits]
  | succ n ih =>
    rw [writeBitsValLoop, if_neg (by omega), and_shift_ne_zero,
      ES.bind_ok (writeBit_writerOf pre bs _), ih _ _ (by omega)]
    have h1 : v.testBit i = (v / 2 ^ i % 2 == 1) := by
      rw [Nat.testBit_eq_decide_div_mod_eq]; rfl
    have h2 : v / 2 ^ (i + 1) = v / 2 ^ i / 2 := by
      rw [Nat.pow_succ, Nat.div_div_eq_div_mul]
    simp [lsbBits, h1, h2]

theorem writeBitsVal_writerOf (pre : List UInt8) (bs : List Bool) {n v : Nat} (h : n ≤ 16) :
    writeBitsVal n v (writerOf pre bs) = .ok () (writerOf pre (bs ++ lsbBits n v)) := by
  have := writeBitsValLoop_writerOf pre bs v 0 n (by omega)
  simpa [writeBitsVal] using this

theorem alignLoop_writerOf (pre : List UInt8) (fuel : Nat) (bs : List Bool)
    (h : padLen bs.length < fuel) :
    alignLoop fuel (writerOf pre bs) = .ok () (writerOf pre (padded bs)) := by
  induction fuel generalizing bs with
  | zero => omega
  | succ fuel ih =>
    obtain ⟨a, c, hac, ha, hc⟩ := split8 bs
    have hcur : (writerOf pre bs).current = BitVector.ofBits c := by
      rw [hac, writerOf_append pre ha hc]
    rw [alignLoop, ES.get_bind, hcur, BitVector.isEmpty_ofBits, ES.liftE_bind_ok]
    by_cases h0 : c = []
    · subst h0
      have hp : padLen bs.length = 0 := by rw [hac]; simp [padLen]; omega
      simp [padded, hp]
    · have hc0 : c.length ≠ 0 := by simpa using h0
      have hce : (!c.isEmpty) = true := by cases c <;> simp at h0 ⊢
      have hlen : bs.length % 8 = c.length := by rw [hac, List.length_append]; omega
      have hp : padLen bs.length = padLen (bs ++ [false]).length + 1 := by
        simp only [padLen, List.length_append, List.length_cons, List.length_nil]; omega
      rw [hce, if_pos rfl, ES.bind_ok (writeBit_writerOf pre bs false), ih _ (by omega)]
      have : padded (bs ++ [false]) = padded bs := by
        simp [padded, hp, List.replicate_succ]
      rw [this]

theorem align_writerOf (pre : List UInt8) (bs : List Bool) :
    align (writerOf pre bs) = .ok () (writerOf pre (padded bs)) :=
  alignLoop_writerOf pre 9 bs (by have := padLen_lt bs.length; omega)

theorem writeInner_writerOf (pre : List UInt8) (bs : List Bool) (data : List UInt8)
    (h : bs.length % 8 = 0) :
    writeInner data (writerOf pre bs) = .ok () (writerOf pre (bs ++ bytesBits data)) := by
  have h' : (bs ++ bytesBits data).length % 8 = 0 := by
    rw [List.length_append, bytesBits_length]; omega
  rw [writerOf_aligned pre h, writerOf_aligned pre h', writeInner_vec, packBits_append h,
    packBits_bytesBits, List.append_assoc]

/-- The four length bytes `write_length_prefixed` writes for `n`. -/
def storedHeader (n : Nat) : List UInt8 :=
  [(n >>> 8).toUInt8, (n &&& 0xFF).toUInt8,
    ((n ^^^ 0xFFFF) >>> 8).toUInt8, ((n ^^^ 0xFFFF) &&& 0xFF).toUInt8]

theorem writeLengthPrefixed_writerOf (pre : List UInt8) (bs : List Bool) {data : List UInt8}
    (h : data.length ≤ 65535) :
    writeLengthPrefixed data (writerOf pre bs) =
      .ok () (writerOf pre (padded bs ++ bytesBits (storedHeader data.length ++ data))) := by
  have hp := padded_length bs
  have hu : ∀ v, writeAlignedU16 v = writeInner [(v >>> 8).toUInt8, (v &&& 0xFF).toUInt8] :=
    fun _ => rfl
  simp only [writeLengthPrefixed, hu]
  rw [ES.bind_ok (align_writerOf pre bs), ensure_of (by simpa using h),
    ES.liftE_bind_ok, ES.bind_ok (writeInner_writerOf pre _ _ hp),
    ES.bind_ok (writeInner_writerOf pre _ _
      (by rw [List.length_append, bytesBits_length]; simp; omega)),
    writeInner_writerOf pre _ _
      (by rw [List.length_append, List.length_append, bytesBits_length, bytesBits_length]; simp; omega)]
  simp only [storedHeader, ← List.append_assoc, bytesBits_append]
  simp

theorem intoInner_writerOf (pre : List UInt8) {bs : List Bool} (h : bs.length % 8 = 0) :
    (writerOf pre bs).intoInner = .ok { out := pre ++ packBits bs, room := none } := by
  rw [writerOf_aligned pre h]; rfl

end BitWriter

end Rezip
