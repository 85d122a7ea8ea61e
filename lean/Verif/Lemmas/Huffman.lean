import Verif.Model.Huffman
import Verif.Spec.Deflate
import Verif.Lemmas.CodeTree

/-! Lemmas on run lengths, distances and dynamic headers. -/

namespace Rezip

open Spec

namespace Huffman

/-! ### Match lengths -/

theorem length_table : ∀ i : Fin 29,
    lengthExtra.getD i 0 ≤ 5 ∧
    (i.val ≤ 7 → lengthExtra.getD i 0 = 0 ∧ 257 + i.val - 254 = lengthBase.getD i 0) ∧
    (8 ≤ i.val → i.val ≤ 27 →
      (257 + i.val - 261) / 4 % 256 = lengthExtra.getD i 0 ∧ lengthExtra.getD i 0 < 6 ∧
      ((((257 + i.val - 265) % 256) % 4 + 4) <<< lengthExtra.getD i 0) % 256 + 3 =
        lengthBase.getD i 0) ∧
    (i.val = 28 → lengthExtra.getD i 0 = 0 ∧ lengthBase.getD i 0 = 258) := by decide +kernel

theorem exec_decodeRunLength {len i v : Nat} (h : LengthSym len i v) (rest : List Bool) :
    (decodeRunLength (257 + i)).exec (lsbBits (lengthExtra.getD i 0) v ++ rest) = .ok len rest := by
  obtain ⟨hi, hv, rfl⟩ := h
  obtain ⟨h5, h1, h2, h3⟩ := length_table ⟨i, hi⟩
  simp only at h5 h1 h2 h3
  unfold decodeRunLength
  rw [BitProg.bind_eq, ensure_of (by simp; omega), BitProg.exec_bind_ok (BitProg.exec_ofExcept_ok _ _)]
  by_cases hA : i ≤ 7
  · obtain ⟨e0, e1⟩ := h1 hA
    rw [if_pos (by omega), e1]
    rw [e0] at hv ⊢
    have : v = 0 := by simpa using hv
    simp [this, lsbBits]
  · rw [if_neg (by omega)]
    by_cases hB : i ≤ 27
    · obtain ⟨e0, e1, e2⟩ := h2 (by omega) hB
      have hv32 : v < 32 := Nat.lt_of_lt_of_le hv
        (by have := Nat.pow_le_pow_right (n := 2) (by omega) h5; simpa using this)
      rw [if_pos (by omega)]
      simp only [BitProg.bind_eq, e0]
      rw [assert_of (by simpa using e1), BitProg.exec_bind_ok (BitProg.exec_ofExcept_ok _ _),
        BitProg.exec_bind_ok (BitProg.exec_readPart_lsb (by omega) hv rest)]
      simp only [BitProg.pure_eq, BitProg.exec_done, ExecRes.ok.injEq, and_true]
      omega
    · obtain ⟨e0, e1⟩ := h3 (by omega)
      rw [if_neg (by omega), if_pos (by simp; omega), e1]
      rw [e0] at hv ⊢
      have : v = 0 := by simpa using hv
      simp [this, lsbBits]

theorem exec_decodeRunLength_inv {sym len : Nat} {bs rest : List Bool}
    (h : (decodeRunLength sym).exec bs = .ok len rest) :
    ∃ i v, sym = 257 + i ∧ LengthSym len i v ∧ bs = lsbBits (lengthExtra.getD i 0) v ++ rest := by
  unfold decodeRunLength at h
  rw [BitProg.bind_eq, BitProg.exec_bind_eq_ok] at h
  obtain ⟨_, bs', h0, h⟩ := h
  rw [BitProg.exec_ofExcept_eq_ok, ensure_eq_ok] at h0
  obtain ⟨h0, rfl⟩ := h0
  simp only [Bool.and_eq_true, decide_eq_true_eq] at h0
  obtain ⟨i, rfl⟩ : ∃ i, sym = 257 + i := ⟨sym - 257, by omega⟩
  split at h
  · rename_i hA
    have hi : i < 29 := by omega
    obtain ⟨h5, h1, h2, h3⟩ := length_table ⟨i, hi⟩
    obtain ⟨e0, e1⟩ := h1 (by simp only; omega)
    simp only [BitProg.pure_eq, BitProg.exec_done, ExecRes.ok.injEq] at h e0 e1
    refine ⟨i, 0, rfl, ⟨hi, by rw [e0]; simp, by omega⟩, by rw [e0]; simp [lsbBits, h.2]⟩
  · rename_i hA
    split at h
    · rename_i hB
      have hi : i < 29 := by omega
      obtain ⟨h5, h1, h2, h3⟩ := length_table ⟨i, hi⟩
      obtain ⟨e0, e1, e2⟩ := h2 (by simp only; omega) (by simp only; omega)
      simp only at h5 e0 e1 e2
      simp only [BitProg.bind_eq, e0] at h
      rw [assert_of (by simpa using e1), BitProg.exec_bind_ok (BitProg.exec_ofExcept_ok _ _),
        BitProg.exec_bind_eq_ok] at h
      obtain ⟨v, rest', h6, h7⟩ := h
      obtain ⟨hv, hbs⟩ := (BitProg.exec_readPart_eq_ok (by omega)).1 h6
      simp only [BitProg.pure_eq, BitProg.exec_done, ExecRes.ok.injEq] at h7
      obtain ⟨h7, rfl⟩ := h7
      have hv32 : v < 32 := Nat.lt_of_lt_of_le hv
        (by have := Nat.pow_le_pow_right (n := 2) (by omega) h5; simpa using this)
      refine ⟨i, v, rfl, ⟨hi, hv, ?_⟩, hbs⟩
      omega
    · split at h
      · rename_i hC
        simp only [beq_iff_eq] at hC
        have hi : i < 29 := by omega
        obtain ⟨h5, h1, h2, h3⟩ := length_table ⟨i, hi⟩
        obtain ⟨e0, e1⟩ := h3 (by simp only; omega)
        simp only [BitProg.pure_eq, BitProg.exec_done, ExecRes.ok.injEq] at h e0 e1
        refine ⟨i, 0, rfl, ⟨hi, by rw [e0]; simp, by omega⟩, by rw [e0]; simp [lsbBits, h.2]⟩
      · simp at h

theorem exec_decodeRunLength_fail {sym : Nat} {bs : List Bool} {e : Fail}
    (h : (decodeRunLength sym).exec bs = .fail e) : ∃ x, e = .err x := by
  unfold decodeRunLength at h
  rw [BitProg.bind_eq, BitProg.exec_bind_eq_fail] at h
  rcases h with h | ⟨_, bs', h0, h⟩
  · rw [BitProg.exec_ofExcept_eq_fail] at h
    exact CodeTree.ensure_error h
  rw [BitProg.exec_ofExcept_eq_ok, ensure_eq_ok] at h0
  obtain ⟨h0, rfl⟩ := h0
  simp only [Bool.and_eq_true, decide_eq_true_eq] at h0
  split at h
  · simp at h
  · split at h
    · have h6 : (sym - 261) / 4 % 256 < 6 := by omega
      simp only [BitProg.bind_eq] at h
      rw [assert_of (by simpa using h6), BitProg.exec_bind_ok (BitProg.exec_ofExcept_ok _ _),
        BitProg.exec_bind_eq_fail] at h
      rcases h with h | ⟨_, _, _, h⟩
      · exact absurd h (BitProg.exec_readPart_ne_fail (by omega))
      · simp at h
    · split at h
      · simp at h
      · simp only [BitProg.exec_fail, ExecRes.fail.injEq] at h; exact ⟨_, h.symm⟩

theorem encodeRun_table : ∀ n : Fin 256, ∃ i : Fin 29,
    encodeRunLength (n.val + 3) = .ok (257 + i.val) ∧
    lengthBase.getD i 0 ≤ n.val + 3 ∧ n.val + 3 - lengthBase.getD i 0 < 2 ^ lengthExtra.getD i 0 ∧
    extraRunLength (n.val + 3) = .ok (if lengthExtra.getD i 0 = 0 then none else
      some (lengthExtra.getD i 0, n.val + 3 - lengthBase.getD i 0)) ∧
    (n.val = 255 → i.val = 28) := by decide +kernel

/-- The symbol and extra value the encoder chooses for a run length. -/
theorem encodeRunLength_spec {len : Nat} (h3 : 3 ≤ len) (h258 : len ≤ 258) :
    ∃ i v, LengthSym len i v ∧ encodeRunLength len = .ok (257 + i) ∧
      extraRunLength len = .ok (if lengthExtra.getD i 0 = 0 then none else
        some (lengthExtra.getD i 0, v)) ∧ (len = 258 → i = 28) := by
  obtain ⟨i, h1, h2, h3', h4, h5⟩ := encodeRun_table ⟨len - 3, by omega⟩
  simp only [show len - 3 + 3 = len by omega] at h1 h2 h3' h4 h5
  exact ⟨i.val, len - lengthBase.getD i 0, ⟨i.isLt, h3', by omega⟩, h1, h4, fun h => h5 (by omega)⟩

/-- Representations of a length are unique, except for 258. -/
theorem LengthSym.unique {len i v j w : Nat} (h1 : LengthSym len i v) (h2 : LengthSym len j w)
    (h258 : len = 258 → (i = 28 ↔ j = 28)) : i = j ∧ v = w := by
  have htab : ∀ i j : Fin 29, i.val < j.val → (j.val < 28 ∨ i.val < 27 → 
      lengthBase.getD i 0 + 2 ^ lengthExtra.getD i 0 ≤ lengthBase.getD j 0) ∧
      (i.val = 27 → j.val = 28 → lengthBase.getD i 0 + 2 ^ lengthExtra.getD i 0 = 259 ∧
        lengthBase.getD j 0 = 258) := by decide +kernel
  obtain ⟨hi, hv, hl⟩ := h1
  obtain ⟨hj, hw, hl'⟩ := h2
  have hij : i = j := by
    rcases Nat.lt_trichotomy i j with hlt | heq | hlt
    · obtain ⟨ha, hb⟩ := htab ⟨i, hi⟩ ⟨j, hj⟩ hlt
      simp only at ha hb
      by_cases hc : j < 28 ∨ i < 27
      · have := ha hc; omega
      · obtain ⟨hb1, hb2⟩ := hb (by omega) (by omega)
        have : len = 258 := by omega
        have := h258 this
        omega
    · exact heq
    · obtain ⟨ha, hb⟩ := htab ⟨j, hj⟩ ⟨i, hi⟩ hlt
      simp only at ha hb
      by_cases hc : i < 28 ∨ j < 27
      · have := ha hc; omega
      · obtain ⟨hb1, hb2⟩ := hb (by omega) (by omega)
        have : len = 258 := by omega
        have := h258 this
        omega
  subst hij
  exact ⟨rfl, by omega⟩

theorem LengthSym.range {len i v : Nat} (h : LengthSym len i v) : 3 ≤ len ∧ len ≤ 258 := by
  have htab : ∀ i : Fin 29, 3 ≤ lengthBase.getD i 0 ∧
      lengthBase.getD i 0 + 2 ^ lengthExtra.getD i 0 ≤ 259 := by decide +kernel
  obtain ⟨hi, hv, hl⟩ := h
  obtain ⟨h1, h2⟩ := htab ⟨i, hi⟩
  simp only at h1 h2
  omega

/-! ### Distances -/

theorem dist_table : ∀ i : Fin 30,
    distExtra.getD i 0 ≤ 13 ∧
    (i.val ≤ 3 → distExtra.getD i 0 = 0 ∧ i.val + 1 = distBase.getD i 0) ∧
    (4 ≤ i.val → (i.val / 2 - 1) % 256 = distExtra.getD i 0 ∧
      ((i.val % 2 + 2) <<< distExtra.getD i 0) % 65536 + 1 = distBase.getD i 0) := by
  decide +kernel

theorem exec_decodeDistance {dist i v : Nat} (h : DistSym dist i v) (rest : List Bool) :
    (decodeDistance i).exec (lsbBits (distExtra.getD i 0) v ++ rest) = .ok dist rest := by
  obtain ⟨hi, hv, rfl⟩ := h
  obtain ⟨h13, h1, h2⟩ := dist_table ⟨i, hi⟩
  simp only at h13 h1 h2
  unfold decodeDistance
  by_cases hA : i ≤ 3
  · obtain ⟨e0, e1⟩ := h1 hA
    rw [if_pos hA, e1]
    rw [e0] at hv ⊢
    have : v = 0 := by simpa using hv
    simp [this, lsbBits]
  · obtain ⟨e0, e1⟩ := h2 (by omega)
    rw [if_neg hA, if_pos (by omega)]
    simp only [BitProg.bind_eq, e0]
    rw [BitProg.exec_bind_ok (BitProg.exec_readPart_lsb (by omega) hv rest)]
    simp only [BitProg.pure_eq, BitProg.exec_done, ExecRes.ok.injEq, and_true]
    omega

theorem exec_decodeDistance_inv {i dist : Nat} {bs rest : List Bool}
    (h : (decodeDistance i).exec bs = .ok dist rest) :
    ∃ v, DistSym dist i v ∧ bs = lsbBits (distExtra.getD i 0) v ++ rest := by
  unfold decodeDistance at h
  split at h
  · rename_i hA
    have hi : i < 30 := by omega
    obtain ⟨h13, h1, h2⟩ := dist_table ⟨i, hi⟩
    obtain ⟨e0, e1⟩ := h1 hA
    simp only [BitProg.pure_eq, BitProg.exec_done, ExecRes.ok.injEq] at h e0 e1
    exact ⟨0, ⟨hi, by rw [e0]; simp, by omega⟩, by rw [e0]; simp [lsbBits, h.2]⟩
  · rename_i hA
    split at h
    · have hi : i < 30 := by omega
      obtain ⟨h13, h1, h2⟩ := dist_table ⟨i, hi⟩
      obtain ⟨e0, e1⟩ := h2 (by simp only; omega)
      simp only at h13 e0 e1
      simp only [BitProg.bind_eq, e0] at h
      rw [BitProg.exec_bind_eq_ok] at h
      obtain ⟨v, rest', h6, h7⟩ := h
      obtain ⟨hv, hbs⟩ := (BitProg.exec_readPart_eq_ok (by omega)).1 h6
      simp only [BitProg.pure_eq, BitProg.exec_done, ExecRes.ok.injEq] at h7
      obtain ⟨h7, rfl⟩ := h7
      exact ⟨v, ⟨hi, hv, by omega⟩, hbs⟩
    · split at h <;> simp at h

theorem exec_decodeDistance_fail {i : Nat} {bs : List Bool} {e : Fail}
    (h : (decodeDistance i).exec bs = .fail e) : ∃ x, e = .err x := by
  unfold decodeDistance at h
  split at h
  · simp at h
  · split at h
    · simp only [BitProg.bind_eq] at h
      rw [BitProg.exec_bind_eq_fail] at h
      rcases h with h | ⟨_, _, _, h⟩
      · exact absurd h (BitProg.exec_readPart_ne_fail (by omega))
      · simp at h
    · split at h <;> simp only [BitProg.exec_fail, ExecRes.fail.injEq] at h <;> exact ⟨_, h.symm⟩

theorem encodeDistanceLoop_eq (d : Nat) (j fuel e c b : Nat) (hf : j < fuel)
    (h1 : j = 0 ∨ b * 2 ^ j < d) (h2 : d ≤ b * 2 ^ (j + 1)) (h3 : b * 2 ^ (j + 1) ≤ 65535) :
    encodeDistanceLoop d fuel e c b = .ok (e + j, c + 2 * j, b * 2 ^ j) := by
  induction j generalizing fuel e c b with
  | zero =>
    obtain ⟨fuel, rfl⟩ : ∃ f, fuel = f + 1 := ⟨fuel - 1, by omega⟩
    simp only [Nat.zero_add, Nat.pow_one] at h2 h3
    rw [encodeDistanceLoop, if_neg (by omega), if_neg (by omega)]
    simp
  | succ j ih =>
    obtain ⟨fuel, rfl⟩ : ∃ f, fuel = f + 1 := ⟨fuel - 1, by omega⟩
    have hmul : ∀ k, b * 2 ^ (k + 1) = b * 2 * 2 ^ k := fun k => by
      rw [Nat.pow_succ, Nat.mul_assoc, Nat.mul_comm 2]
    have h1' : b * 2 ^ (j + 1) < d := by
      rcases h1 with h | h
      · omega
      · exact h
    rw [hmul] at h1' h2 h3
    have hp : 1 ≤ 2 ^ j := Nat.one_le_two_pow
    have hp2 : 1 ≤ 2 ^ (j + 1) := Nat.one_le_two_pow
    have hle : b * 2 ≤ b * 2 * 2 ^ j := Nat.le_mul_of_pos_right _ hp
    have hle2 : b * 2 ≤ b * 2 * 2 ^ (j + 1) := Nat.le_mul_of_pos_right _ hp2
    rw [encodeDistanceLoop, if_neg (by omega), if_pos (by omega), ih fuel _ _ _ (by omega)
      (.inr h1') h2 h3, hmul]
    congr 2
    · omega
    · congr 1; omega

theorem exists_log (d : Nat) (h : 4 < d) (h' : d ≤ 32768) :
    ∃ j : Fin 13, 4 * 2 ^ j.val < d ∧ d ≤ 4 * 2 ^ (j.val + 1) := by
  have key : ∀ n, n ≤ 13 → d ≤ 4 * 2 ^ n → ∃ j, j < n ∧ 4 * 2 ^ j < d ∧ d ≤ 4 * 2 ^ (j + 1) := by
    intro n
    induction n with
    | zero => intro _ h; simp at h; omega
    | succ n ih =>
      intro hn hd
      by_cases hc : d ≤ 4 * 2 ^ n
      · obtain ⟨j, h1, h2⟩ := ih (by omega) hc
        exact ⟨j, by omega, h2⟩
      · exact ⟨n, by omega, by omega, hd⟩
  obtain ⟨j, h1, h2⟩ := key 13 (by omega) (by simpa using h')
  exact ⟨⟨j, h1⟩, h2⟩

theorem dist_table2 : ∀ j : Fin 13,
    distBase.getD (4 + 2 * j.val) 0 = 4 * 2 ^ j.val + 1 ∧
    distBase.getD (4 + 2 * j.val + 1) 0 = 4 * 2 ^ j.val + 2 * 2 ^ j.val + 1 ∧
    distExtra.getD (4 + 2 * j.val) 0 = 1 + j.val ∧
    distExtra.getD (4 + 2 * j.val + 1) 0 = 1 + j.val ∧
    4 * 2 ^ (j.val + 1) ≤ 65535 := by decide +kernel

/-- The symbol and extra value the encoder chooses for a distance. -/
theorem encodeDistance_spec {d : Nat} (h1 : 1 ≤ d) (h2 : d ≤ 32768) :
    ∃ i v, DistSym d i v ∧ encodeDistance d = .ok (i, distExtra.getD i 0, v) := by
  by_cases h4 : d ≤ 4
  · refine ⟨d - 1, 0, ?_, ?_⟩
    · obtain ⟨_, h, _⟩ := dist_table ⟨d - 1, by omega⟩
      obtain ⟨e0, e1⟩ := h (by simp only; omega)
      simp only at e0 e1
      exact ⟨by omega, by rw [e0]; simp, by omega⟩
    · obtain ⟨_, h, _⟩ := dist_table ⟨d - 1, by omega⟩
      obtain ⟨e0, e1⟩ := h (by simp only; omega)
      simp only at e0
      rw [encodeDistance, if_pos h4, if_neg (by omega), e0]
  · obtain ⟨j, hj1, hj2⟩ := exists_log d (by omega) h2
    obtain ⟨t1, t2, t3, t4, t5⟩ := dist_table2 j
    have hloop := encodeDistanceLoop_eq d j.val 16 1 4 4 (by omega) (.inr hj1) hj2 t5
    have hhalf : 4 * 2 ^ j.val / 2 = 2 * 2 ^ j.val := by omega
    rw [Nat.pow_succ] at hj2
    have hpow : (2 : Nat) ^ (1 + j.val) = 2 * 2 ^ j.val := by rw [Nat.pow_add, Nat.pow_one]
    have hpos : 0 < 2 ^ j.val := Nat.pow_pos (by omega)
    have hjl := j.isLt
    by_cases hc : d ≤ 4 * 2 ^ j.val + 2 * 2 ^ j.val
    · refine ⟨4 + 2 * j.val, d - 4 * 2 ^ j.val - 1, ⟨by omega, by rw [t3, hpow]; omega, by omega⟩, ?_⟩
      rw [encodeDistance, if_neg h4, hloop, Ex.ok_bind]
      simp only [hhalf, hc, if_true, t3]
      rw [Nat.mod_eq_of_lt (by omega)]
    · refine ⟨4 + 2 * j.val + 1, d - 4 * 2 ^ j.val - 1 - 2 * 2 ^ j.val,
        ⟨by omega, by rw [t4, hpow]; omega, by omega⟩, ?_⟩
      rw [encodeDistance, if_neg h4, hloop, Ex.ok_bind]
      simp only [hhalf, hc, if_false, t4]
      rw [Nat.mod_eq_sub_mod (by omega), Nat.mod_eq_of_lt (by omega)]

theorem DistSym.unique {d i v j w : Nat} (h1 : DistSym d i v) (h2 : DistSym d j w) :
    i = j ∧ v = w := by
  have htab : ∀ i j : Fin 30, i.val < j.val →
      distBase.getD i 0 + 2 ^ distExtra.getD i 0 ≤ distBase.getD j 0 := by decide +kernel
  obtain ⟨hi, hv, hl⟩ := h1
  obtain ⟨hj, hw, hl'⟩ := h2
  have hij : i = j := by
    rcases Nat.lt_trichotomy i j with hlt | heq | hlt
    · have := htab ⟨i, hi⟩ ⟨j, hj⟩ hlt; simp only at this; omega
    · exact heq
    · have := htab ⟨j, hj⟩ ⟨i, hi⟩ hlt; simp only at this; omega
  subst hij
  exact ⟨rfl, by omega⟩

theorem DistSym.range {d i v : Nat} (h : DistSym d i v) : 1 ≤ d ∧ d ≤ 32768 := by
  have htab : ∀ i : Fin 30, 1 ≤ distBase.getD i 0 ∧
      distBase.getD i 0 + 2 ^ distExtra.getD i 0 ≤ 32769 := by decide +kernel
  obtain ⟨hi, hv, hl⟩ := h
  obtain ⟨h1, h2⟩ := htab ⟨i, hi⟩
  simp only at h1 h2
  omega

end Huffman

end Rezip
