import Verif.Spec.Bits

/-! Lemmas on bits and bytes. -/

namespace Rezip.Spec

@[simp] theorem lsbBits_length (n v : Nat) : (lsbBits n v).length = n := by
  induction n generalizing v with
  | zero => rfl
  | succ n ih => simp [lsbBits, ih]

@[simp] theorem msbBits_length (n v : Nat) : (msbBits n v).length = n := by simp [msbBits]

@[simp] theorem byteBits_length (b : UInt8) : (byteBits b).length = 8 := by simp [byteBits]

@[simp] theorem bytesBits_length (bs : List UInt8) : (bytesBits bs).length = 8 * bs.length := by
  induction bs with
  | nil => rfl
  | cons b bs ih =>
    simp only [bytesBits, List.flatMap_cons, List.length_append, byteBits_length,
      List.length_cons] at *
    omega

@[simp] theorem bytesBits_nil : bytesBits [] = [] := rfl

@[simp] theorem bytesBits_cons (b : UInt8) (bs : List UInt8) :
    bytesBits (b :: bs) = byteBits b ++ bytesBits bs := rfl

@[simp] theorem bytesBits_append (a b : List UInt8) :
    bytesBits (a ++ b) = bytesBits a ++ bytesBits b := by simp [bytesBits]

theorem bitsVal_lt (bs : List Bool) : bitsVal bs < 2 ^ bs.length := by
  induction bs with
  | nil => simp [bitsVal]
  | cons b bs ih =>
    simp only [bitsVal, List.length_cons, Nat.pow_succ]
    cases b <;> simp <;> omega

theorem bitsVal_lsbBits (n v : Nat) : bitsVal (lsbBits n v) = v % 2 ^ n := by
  induction n generalizing v with
  | zero => simp [lsbBits, bitsVal, Nat.mod_one]
  | succ n ih =>
    simp only [lsbBits, bitsVal, ih]
    rw [Nat.pow_succ, Nat.mul_comm (2 ^ n) 2, Nat.mod_mul]
    rcases Nat.mod_two_eq_zero_or_one v with h | h <;> simp [h]

theorem lsbBits_bitsVal (bs : List Bool) : lsbBits bs.length (bitsVal bs) = bs := by
  induction bs with
  | nil => rfl
  | cons b bs ih =>
    have h1 : (b.toNat + 2 * bitsVal bs) % 2 = b.toNat := by cases b <;> simp <;> omega
    have h2 : (b.toNat + 2 * bitsVal bs) / 2 = bitsVal bs := by cases b <;> simp <;> omega
    simp only [List.length_cons, bitsVal, lsbBits, h1, h2, ih]
    cases b <;> simp

theorem lsbBits_mod (n v : Nat) : lsbBits n (v % 2 ^ n) = lsbBits n v := by
  have h := lsbBits_bitsVal (lsbBits n v)
  rwa [lsbBits_length, bitsVal_lsbBits] at h

theorem bitsVal_append (a b : List Bool) :
    bitsVal (a ++ b) = bitsVal a + 2 ^ a.length * bitsVal b := by
  induction a with
  | nil => simp [bitsVal]
  | cons x a ih =>
    simp only [List.cons_append, bitsVal, ih, List.length_cons, Nat.pow_succ]
    rw [Nat.mul_comm (2 ^ a.length) 2, Nat.mul_add, Nat.mul_assoc]; omega

theorem bitsVal_inj {a b : List Bool} (hl : a.length = b.length) (h : bitsVal a = bitsVal b) :
    a = b := by
  rw [← lsbBits_bitsVal a, ← lsbBits_bitsVal b, hl, h]

theorem lsbBits_getElem (n v i : Nat) (h : i < (lsbBits n v).length) :
    (lsbBits n v)[i] = v.testBit i := by
  induction n generalizing v i with
  | zero => simp at h
  | succ n ih =>
    cases i with
    | zero => simp only [lsbBits, List.getElem_cons_zero, Nat.testBit_zero]; rfl
    | succ i =>
      simp only [lsbBits, List.getElem_cons_succ, Nat.testBit_succ]
      exact ih _ _ _

theorem msbBits_succ (n v : Nat) : msbBits (n + 1) v = msbBits n (v / 2) ++ [v % 2 == 1] := by
  simp [msbBits, lsbBits]

theorem msbBits_inj {n v w : Nat} (hv : v < 2 ^ n) (hw : w < 2 ^ n)
    (h : msbBits n v = msbBits n w) : v = w := by
  have h := congrArg bitsVal (List.reverse_inj.1 h)
  rwa [bitsVal_lsbBits, bitsVal_lsbBits, Nat.mod_eq_of_lt hv, Nat.mod_eq_of_lt hw] at h

/-- The byte with the given bits (at most eight are used). -/
def byteOf (bs : List Bool) : UInt8 := (bitsVal bs).toUInt8

theorem byteOf_toNat {bs : List Bool} (h : bs.length ≤ 8) : (byteOf bs).toNat = bitsVal bs := by
  have h1 := bitsVal_lt bs
  have h2 : 2 ^ bs.length ≤ 2 ^ 8 := Nat.pow_le_pow_right (by omega) h
  simp only [byteOf, Nat.toUInt8, UInt8.toNat_ofNat']
  omega

theorem byteBits_byteOf {bs : List Bool} (h : bs.length = 8) : byteBits (byteOf bs) = bs := by
  rw [byteBits, byteOf_toNat (by omega), ← h, lsbBits_bitsVal]

theorem byteOf_byteBits (b : UInt8) : byteOf (byteBits b) = b := by
  apply UInt8.toNat_inj.1
  rw [byteOf_toNat (by simp), byteBits, bitsVal_lsbBits]
  exact Nat.mod_eq_of_lt b.toNat_lt

theorem byteBits_inj {a b : UInt8} (h : byteBits a = byteBits b) : a = b := by
  rw [← byteOf_byteBits a, h, byteOf_byteBits]

theorem bytesBits_inj {a b : List UInt8} (h : bytesBits a = bytesBits b) : a = b := by
  induction a generalizing b with
  | nil =>
    have := congrArg List.length h
    simp at this
    exact (List.length_eq_zero_iff.1 (by omega)).symm
  | cons x a ih =>
    cases b with
    | nil => have := congrArg List.length h; simp at this
    | cons y b =>
      simp only [bytesBits_cons] at h
      obtain ⟨h1, h2⟩ := List.append_inj h (by simp)
      rw [byteBits_inj h1, ih h2]

/-- Pack bits into bytes, the last byte zero padded. -/
def packBits (bs : List Bool) : List UInt8 :=
  match bs with
  | [] => []
  | b :: bs => byteOf ((b :: bs).take 8) :: packBits (bs.drop 7)
termination_by bs.length
decreasing_by simp; omega

theorem packBits_nil : packBits [] = [] := by simp [packBits]

theorem packBits_eq {bs : List Bool} (h : bs ≠ []) :
    packBits bs = byteOf (bs.take 8) :: packBits (bs.drop 8) := by
  cases bs with
  | nil => exact absurd rfl h
  | cons b bs => rw [packBits]; rfl

theorem packBits_append8 {a b : List Bool} (h : a.length = 8) :
    packBits (a ++ b) = byteOf a :: packBits b := by
  rw [packBits_eq (by intro h'; simp [List.append_eq_nil_iff] at h'; simp [h'] at h)]
  rw [List.take_left' h, List.drop_left' h]

theorem packBits_short {a : List Bool} (h : a.length ≤ 8) (h0 : a ≠ []) :
    packBits a = [byteOf a] := by
  rw [packBits_eq h0, List.take_of_length_le h, List.drop_of_length_le h, packBits_nil]

/-- Induction on bit strings, eight bits at a time. -/
theorem bits_induction {P : List Bool → Prop} (short : ∀ bs, bs.length < 8 → P bs)
    (step : ∀ a bs, a.length = 8 → P bs → P (a ++ bs)) (bs : List Bool) : P bs := by
  by_cases h : bs.length < 8
  · exact short bs h
  · have := step (bs.take 8) (bs.drop 8) (by simp; omega)
      (bits_induction short step (bs.drop 8))
    rwa [List.take_append_drop] at this
termination_by bs.length
decreasing_by simp; omega

theorem packBits_bytesBits (bs : List UInt8) : packBits (bytesBits bs) = bs := by
  induction bs with
  | nil => exact packBits_nil
  | cons b bs ih => rw [bytesBits_cons, packBits_append8 (by simp), ih, byteOf_byteBits]

theorem packBits_length (bs : List Bool) : (packBits bs).length = (bs.length + 7) / 8 := by
  induction bs using bits_induction with
  | short bs h =>
    by_cases h0 : bs = []
    · subst h0; simp [packBits_nil]
    · have : bs.length ≠ 0 := by simpa using h0
      rw [packBits_short (by omega) h0]; simp; omega
  | step a bs ha ih => rw [packBits_append8 ha]; simp [ih, ha]; omega

theorem bitsVal_replicate_false (n : Nat) : bitsVal (List.replicate n false) = 0 := by
  induction n with
  | zero => rfl
  | succ n ih => simp [List.replicate_succ, bitsVal, ih]

theorem bytesBits_packBits (bs : List Bool) : bytesBits (packBits bs) = padded bs := by
  induction bs using bits_induction with
  | short bs h =>
    by_cases h0 : bs = []
    · subst h0; rw [packBits_nil]; rfl
    · have hl : bs.length ≠ 0 := by simpa using h0
      rw [packBits_short (by omega) h0]
      simp only [bytesBits_cons, bytesBits_nil, List.append_nil]
      have hp : padLen bs.length = 8 - bs.length := by simp only [padLen]; omega
      have : byteOf bs = byteOf (padded bs) := by
        simp [byteOf, padded, bitsVal_append, bitsVal_replicate_false]
      rw [this, byteBits_byteOf]
      simp [padded, hp]; omega
  | step a bs ha ih =>
    rw [packBits_append8 ha, bytesBits_cons, ih, byteBits_byteOf ha]
    have : padLen (a ++ bs).length = padLen bs.length := by
      simp only [padLen, List.length_append, ha]; omega
    simp only [padded, this, List.append_assoc]

theorem packBits_append {a b : List Bool} (h : a.length % 8 = 0) :
    packBits (a ++ b) = packBits a ++ packBits b := by
  induction a using bits_induction with
  | short a ha =>
    have : a = [] := List.length_eq_zero_iff.1 (by omega)
    subst this; simp [packBits_nil]
  | step c a hc ih =>
    rw [List.append_assoc, packBits_append8 hc, packBits_append8 hc, ih (by simp at h; omega)]
    rfl

theorem padLen_lt (n : Nat) : padLen n < 8 := Nat.mod_lt _ (by omega)

theorem padded_length (bs : List Bool) : (padded bs).length % 8 = 0 := by
  simp only [padded, List.length_append, List.length_replicate, padLen]; omega

theorem packBits_padded (bs : List Bool) : packBits (padded bs) = packBits bs := by
  rw [← bytesBits_packBits, packBits_bytesBits]

end Rezip.Spec
