import Verif.Props.Bits

/-!
# Taking readers and writers apart; comparing bit vectors

C71, C72.
-/

namespace Rezip

open Spec

/-! ### C71 -/

/-- C71. A writer can be taken apart only on a byte boundary: the bytes then hold exactly the bits written;
otherwise it panics, so pending bits are never lost. -/
theorem C71_writer (bits : List Bool) :
    ∃ w, BitWriter.writeBits bits (BitWriter.new Sink.vec) = .ok () w ∧
      (bits.length % 8 = 0 →
        ∃ bytes, w.intoInner = .ok { out := bytes, room := none } ∧ bytesBits bytes = bits) ∧
      (bits.length % 8 ≠ 0 → w.intoInner = .error (.panic .assertion)) := by
  refine ⟨BitWriter.writerOf [] bits, ?_, fun h => ?_, fun h => ?_⟩
  · rw [show BitWriter.new Sink.vec = _ from BitWriter.new_eq [],
      BitWriter.writeBits_writerOf [] [] bits, List.nil_append]
  · refine ⟨packBits bits, by rw [BitWriter.intoInner_writerOf [] h, List.nil_append], ?_⟩
    rw [bytesBits_packBits, padded, padLen, h]
    simp
  · obtain ⟨a, c, rfl, ha, hc⟩ := BitWriter.split8 bits
    rw [BitWriter.writerOf_append [] ha hc, BitWriter.intoInner]
    dsimp only
    have : (BitVector.ofBits c).len = c.length := by simp [BitVector.ofBits]
    rw [this]
    rw [List.length_append] at h
    rw [show assert (0 == c.length) = .error (.panic .assertion) from by
      unfold assert
      rw [if_neg (by simp; omega)]]
    rfl

/-- C71. A reader can be taken apart only on a byte boundary, and then gives the bytes not read; otherwise it
panics, so a partly read byte is never skipped. -/
theorem C71_reader (bytes : List UInt8) (n : Nat) (h : n ≤ 8 * bytes.length) :
    ∃ r, readBits n (BitReader.new bytes) = .ok ((bytesBits bytes).take n) r ∧
      (n % 8 = 0 → r.intoInner = .ok (bytes.drop (n / 8))) ∧
      (n % 8 ≠ 0 → r.intoInner = .error (.panic .assertion)) := by
  have hlen := bytesBits_length bytes
  have hb : (BitReader.new bytes).bits = (bytesBits bytes).take n ++ (bytesBits bytes).drop n := by
    rw [List.take_append_drop, BitReader.bits_new]
  obtain ⟨r, h1, h2, h3⟩ := readBits_bits (BitReader.wf_new bytes) hb
  have hn : ((bytesBits bytes).take n).length = n := by rw [List.length_take]; omega
  rw [hn] at h1
  have hrem : r.remainingBits = (8 * bytes.length - n) % 8 := by
    rw [BitReader.remaining_eq h2, h3, List.length_drop, hlen]
  have hw : r.remainingBits ≤ 7 := h2
  refine ⟨r, h1, fun h0 => ?_, fun h0 => ?_⟩
  · have hz : r.remainingBits = 0 := by omega
    rw [BitReader.intoInner, BitReader.position_eq h2, Ex.ok_bind, hz]
    show (assert true >>= _) = _
    rw [assert_of rfl, Ex.ok_bind]
    show Except.ok _ = _
    congr 1
    apply bytesBits_inj
    rw [← BitReader.bits_aligned hz, h3]
    have hsplit : bytes.take (n / 8) ++ bytes.drop (n / 8) = bytes := List.take_append_drop _ _
    have e : bytesBits bytes = bytesBits (bytes.take (n / 8)) ++ bytesBits (bytes.drop (n / 8)) := by
      rw [← bytesBits_append, hsplit]
    rw [e, List.drop_left']
    rw [bytesBits_length, List.length_take]
    omega
  · rw [BitReader.intoInner, BitReader.position_eq h2, Ex.ok_bind]
    rw [show assert ((8 - r.remainingBits) % 8 == 0) = .error (.panic .assertion) from by
      unfold assert
      rw [if_neg (by simp; omega)]]
    rfl

example : (readBits 8 (BitReader.new [1, 2]) matches .ok _ _) = true ∧
    (match readBits 3 (BitReader.new [1, 2]) with
      | .ok _ r => r.intoInner
      | .error e _ => .error e) = .error (.panic .assertion) := by decide +kernel

/-! ### C72 -/

/-- C72 as stated: vectors compare equal exactly when they hold the same bits, whatever their histories. -/
def EqClaim : Prop :=
  ∀ (ops ops' : List VecOp) (out out' : List (Option Bool)) (v v' : BitVector) (bs bs' : List Bool),
    runVec ops BitVector.new = .ok (out, v) → runVec ops' BitVector.new = .ok (out', v') →
    v.toBits = .ok bs → v'.toBits = .ok bs' → (v = v' ↔ bs = bs')

/-- C72 is false: after pushing 0 and 1 and popping, a vector iterates as the single bit 0 but differs from a
vector with only 0 pushed. -/
theorem C72_eq_false : ¬ EqClaim := by
  intro h
  have := (h [.push false, .push true, .pop] [.push false] [some true] [] ⟨[2], 1⟩ ⟨[0], 1⟩ [false] [false]
    (by decide +kernel) (by decide +kernel) (by decide +kernel) (by decide +kernel)).2 rfl
  revert this
  decide

/-- C72 (`_partial`): for vectors built by pushing only. Missing: histories with `pop`, where it is false
(`C72_eq_false`). -/
theorem C72_eq_partial (a b : List Bool) :
    ∃ va vb, pushAll a BitVector.new = .ok va ∧ pushAll b BitVector.new = .ok vb ∧
      (va = vb ↔ a = b) := by
  have key : ∀ (c l : List Bool), pushAll l (BitVector.ofBits c) = .ok (BitVector.ofBits (c ++ l)) := by
    intro c l
    induction l generalizing c with
    | nil => rw [pushAll, List.append_nil]
    | cons x l ih => rw [pushAll, BitVector.push_ofBits, Ex.ok_bind, ih]; simp
  have h0 : BitVector.new = BitVector.ofBits [] := BitVector.ofBits_nil.symm
  exact ⟨BitVector.ofBits a, BitVector.ofBits b, by rw [h0]; exact key [] a, by rw [h0]; exact key [] b,
    BitVector.ofBits_inj⟩

example : pushAll [true, false] BitVector.new ≠ pushAll [true] BitVector.new ∧
    pushAll [true, false] BitVector.new ≠ pushAll [true, true] BitVector.new := by decide +kernel

end Rezip
