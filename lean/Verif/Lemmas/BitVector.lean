import Verif.Model.Bit
import Verif.Lemmas.Bits
import Verif.Lemmas.Monad

/-! Bit vectors built by `push` are packed lists of bits. -/

namespace Rezip

open Spec

/-- The bit vector holding the given bits, in the representation `push` produces. -/
def BitVector.ofBits (bs : List Bool) : BitVector := { bytes := packBits bs, len := bs.length }

namespace BitVector

theorem ofBits_nil : ofBits [] = BitVector.new := by simp [ofBits, packBits_nil, BitVector.new]

theorem mask_toNat {k : Nat} (h : k < 8) : ((1 : UInt8) <<< k.toUInt8).toNat = 2 ^ k := by
  have : ∀ k : Fin 8, ((1 : UInt8) <<< k.val.toUInt8).toNat = 2 ^ k.val := by decide +kernel
  exact this ⟨k, h⟩

theorem mask_test (w : UInt8) {k : Nat} (h : k < 8) :
    ((w &&& ((1 : UInt8) <<< k.toUInt8)) == ((1 : UInt8) <<< k.toUInt8)) = w.toNat.testBit k := by
  have : ∀ w : Fin 256, ∀ k : Fin 8,
      ((UInt8.ofNat w.val &&& ((1 : UInt8) <<< k.val.toUInt8)) == ((1 : UInt8) <<< k.val.toUInt8))
        = w.val.testBit k.val := by decide +kernel
  have h1 := this ⟨w.toNat, w.toNat_lt⟩ ⟨k, h⟩
  simpa using h1

theorem byteOf_snoc_true {a : List Bool} (h : a.length < 8) :
    byteOf (a ++ [true]) = byteOf a ||| ((1 : UInt8) <<< a.length.toUInt8) := by
  apply UInt8.toNat_inj.1
  rw [UInt8.toNat_or, mask_toNat h, byteOf_toNat (by simp; omega), byteOf_toNat (by omega),
    bitsVal_append]
  have h1 := bitsVal_lt a
  have h2 := Nat.two_pow_add_eq_or_of_lt h1 1
  simp only [bitsVal, Bool.toNat_true, Nat.mul_one, Nat.mul_zero, Nat.add_zero] at h2 ⊢
  rw [Nat.add_comm, h2, Nat.or_comm]

theorem byteOf_snoc_false (a : List Bool) : byteOf (a ++ [false]) = byteOf a := by
  simp [byteOf, bitsVal_append, bitsVal]

theorem packBits_snoc_aligned {bs : List Bool} (b : Bool) (h : bs.length % 8 = 0) :
    packBits (bs ++ [b]) = packBits bs ++ [byteOf [b]] := by
  rw [packBits_append h, packBits_short (a := [b]) (by simp) (by simp)]

theorem packBits_snoc_unaligned {bs : List Bool} (b : Bool) (h : bs.length % 8 ≠ 0) :
    ∃ hlt : bs.length / 8 < (packBits bs).length,
      packBits (bs ++ [b]) =
        if b then (packBits bs).set (bs.length / 8)
            ((packBits bs)[bs.length / 8] ||| ((1 : UInt8) <<< (bs.length % 8).toUInt8))
        else packBits bs := by
  induction bs using bits_induction with
  | short bs h8 =>
    have h0 : bs ≠ [] := by rintro rfl; simp at h
    have hd : bs.length / 8 = 0 := by omega
    have hm : bs.length % 8 = bs.length := by omega
    have hp : packBits bs = [byteOf bs] := packBits_short (by omega) h0
    have hq : packBits (bs ++ [b]) = [byteOf (bs ++ [b])] :=
      packBits_short (by simp; omega) (by simp)
    refine ⟨by rw [hp, hd]; simp, ?_⟩
    cases b
    · simp [hq, hp, byteOf_snoc_false]
    · simp [hq, hp, hd, hm, byteOf_snoc_true h8]
  | step a bs ha ih =>
    obtain ⟨hlt, heq⟩ := ih (by simp at h; omega)
    have hd : (a ++ bs).length / 8 = bs.length / 8 + 1 := by rw [List.length_append, ha]; omega
    have hm : (a ++ bs).length % 8 = bs.length % 8 := by simp [ha]
    refine ⟨by rw [packBits_append8 ha, hd]; simpa using hlt, ?_⟩
    rw [List.append_assoc, packBits_append8 ha, heq]
    simp only [packBits_append8 ha, hd, hm]
    cases b <;> simp

theorem push_ofBits (bs : List Bool) (b : Bool) :
    (ofBits bs).push b = .ok (ofBits (bs ++ [b])) := by
  have hlen := packBits_length bs
  by_cases h : bs.length % 8 = 0
  · have hw : bs.length / 8 = (packBits bs).length := by omega
    have hge : bs.length / 8 ≥ (packBits bs).length := by omega
    have hbyte : ∀ c : Bool, byteOf [c] = if c then 1 else 0 := by decide +kernel
    simp only [push, ofBits, hge, ↓reduceIte, Ex.pure_eq]
    rw [assert_of (by simpa using hw)]
    simp only [Ex.ok_bind, packBits_snoc_aligned b h]
    cases b
    · simp [hbyte]
    · simp only [↓reduceIte]
      rw [index_ok (by simp; omega), Ex.ok_bind, indexSet_ok (by simp; omega), Ex.ok_bind]
      simp [hbyte, h, hw]
  · obtain ⟨hlt, heq⟩ := packBits_snoc_unaligned b h
    have hge : ¬ bs.length / 8 ≥ (packBits bs).length := by omega
    simp only [push, ofBits, hge, ↓reduceIte, Ex.pure_eq, Ex.ok_bind]
    cases b
    · simp [heq]
    · simp only [↓reduceIte] at heq ⊢
      rw [index_ok hlt, Ex.ok_bind, indexSet_ok hlt, Ex.ok_bind, heq]
      simp

theorem packBits_testBit (bs : List Bool) (i : Nat) (h : i < bs.length) :
    ∃ hlt : i / 8 < (packBits bs).length,
      (packBits bs)[i / 8].toNat.testBit (i % 8) = bs[i] := by
  induction bs using bits_induction generalizing i with
  | short bs h8 =>
    have h0 : bs ≠ [] := by rintro rfl; simp at h
    have hd : i / 8 = 0 := by omega
    have hm : i % 8 = i := by omega
    have hp : packBits bs = [byteOf bs] := packBits_short (by omega) h0
    refine ⟨by rw [hp, hd]; simp, ?_⟩
    simp only [hp, hd, hm, List.getElem_cons_zero]
    rw [byteOf_toNat (by omega)]
    have := lsbBits_getElem bs.length (bitsVal bs) i (by simpa using h)
    simp only [lsbBits_bitsVal] at this
    exact this.symm
  | step a bs ha ih =>
    by_cases hi : i < 8
    · have hd : i / 8 = 0 := by omega
      have hm : i % 8 = i := by omega
      refine ⟨by rw [packBits_append8 ha, hd]; simp, ?_⟩
      simp only [packBits_append8 ha, hd, hm, List.getElem_cons_zero]
      rw [byteOf_toNat (by omega), List.getElem_append_left (by omega)]
      have := lsbBits_getElem a.length (bitsVal a) i (by simp; omega)
      simp only [lsbBits_bitsVal] at this
      exact this.symm
    · have hlt' : i - 8 < bs.length := by simp [ha] at h; omega
      obtain ⟨hlt, heq⟩ := ih (i - 8) hlt'
      have hd : i / 8 = (i - 8) / 8 + 1 := by omega
      have hm : i % 8 = (i - 8) % 8 := by omega
      refine ⟨by rw [packBits_append8 ha, hd]; simpa using hlt, ?_⟩
      simp only [packBits_append8 ha, hd, hm, List.getElem_cons_succ, heq]
      rw [List.getElem_append_right (by omega)]
      simp [ha]

theorem get_ofBits (bs : List Bool) (i : Nat) (h : i < bs.length) :
    (ofBits bs).get i = .ok bs[i] := by
  obtain ⟨hlt, heq⟩ := packBits_testBit bs i h
  unfold BitVector.get
  rw [assert_of (decide_eq_true (show i < (ofBits bs).len from h)), Ex.ok_bind,
    show (ofBits bs).bytes = packBits bs from rfl]
  dsimp only
  rw [index_ok hlt, Ex.ok_bind,
    mask_test _ (Nat.mod_lt _ (by omega)), heq]
  rfl

theorem next_ofBits_lt (bs : List Bool) (i : Nat) (h : i < bs.length) :
    StackIterator.next { inner := ofBits bs, pos := i } =
      .ok (some bs[i]) { inner := ofBits bs, pos := i + 1 } := by
  have h' : ¬ (i ≥ (ofBits bs).len) := by simp [ofBits]; omega
  simp only [StackIterator.next, h', ↓reduceIte, get_ofBits bs i h]

theorem next_ofBits_end (bs : List Bool) :
    StackIterator.next { inner := ofBits bs, pos := bs.length } =
      .ok none { inner := ofBits bs, pos := bs.length } := by
  simp [StackIterator.next, ofBits]

theorem drain_ofBits (bs : List Bool) (fuel i : Nat) (h : i ≤ bs.length)
    (hf : bs.length - i < fuel) :
    StackIterator.drain fuel { inner := ofBits bs, pos := i } = .ok (bs.drop i) := by
  induction fuel generalizing i with
  | zero => omega
  | succ fuel ih =>
    by_cases hi : i < bs.length
    · simp only [StackIterator.drain, next_ofBits_lt bs i hi]
      rw [ih (i + 1) (by omega) (by omega)]
      simp
    · have : i = bs.length := by omega
      subst this
      simp only [StackIterator.drain, next_ofBits_end]
      simp

theorem toBits_ofBits (bs : List Bool) : (ofBits bs).toBits = .ok bs := by
  have := drain_ofBits bs ((ofBits bs).len + 1) 0 (by omega) (by simp [ofBits])
  simpa [BitVector.toBits, BitVector.iter] using this

theorem ofBits_inj {a b : List Bool} : ofBits a = ofBits b ↔ a = b := by
  constructor
  · intro h
    have h1 := toBits_ofBits a
    rw [h, toBits_ofBits b] at h1
    exact (Except.ok.inj h1).symm
  · rintro rfl; rfl

theorem popByte_single (x : UInt8) :
    popByte { bytes := [x], len := 8 } = .ok (some x, BitVector.new) := by
  have : ∀ x : Fin 256, (match popByte { bytes := [UInt8.ofNat x.val], len := 8 } with
      | .ok (some y, v) => y == UInt8.ofNat x.val && v == BitVector.new
      | _ => false) = true := by decide +kernel
  have h := this ⟨x.toNat, x.toNat_lt⟩
  simp only [UInt8.ofNat_toNat] at h
  split at h
  · rename_i heq
    simp at h
    rw [heq, h.1, h.2]
  · simp at h

theorem popByte_ofBits {bs : List Bool} (h : bs.length = 8) :
    (ofBits bs).popByte = .ok (some (byteOf bs), BitVector.new) := by
  have h0 : bs ≠ [] := by rintro rfl; simp at h
  have : ofBits bs = { bytes := [byteOf bs], len := 8 } := by
    simp [ofBits, packBits_short (by omega) h0, h]
  rw [this, popByte_single]

theorem isEmpty_ofBits (bs : List Bool) : (ofBits bs).isEmpty = .ok bs.isEmpty := by
  cases bs with
  | nil => simp [ofBits, packBits_nil, isEmpty]
  | cons b bs =>
    simp only [isEmpty, ofBits]
    rw [packBits_eq (by simp)]
    simp

end BitVector

end Rezip
