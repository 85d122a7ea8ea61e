import Verif.Model.Tools
import Verif.Lemmas.Monad

/-!
# zero.rs
-/

namespace Rezip

namespace Zero

/-- The sum of bytes. -/
def byteSum (l : List UInt8) : Nat := (l.map UInt8.toNat).sum

theorem byteSum_append (a b : List UInt8) : byteSum (a ++ b) = byteSum a + byteSum b := by
  simp [byteSum]

theorem byteSum_cons (a : UInt8) (b : List UInt8) : byteSum (a :: b) = a.toNat + byteSum b := by
  simp [byteSum]

theorem byteSum_le (l : List UInt8) : byteSum l ≤ 255 * l.length := by
  induction l with
  | nil => simp [byteSum]
  | cons a l ih =>
    have := UInt8.toNat_lt a
    rw [byteSum_cons, List.length_cons]
    omega

/-- Bytes as an error-free source. -/
def source (d : List UInt8) : Source := d.map .ok

/-- The first loop. -/
theorem fill_eq (n : Nat) (buf d : List UInt8) (sum : Nat) (hs : sum = byteSum buf)
    (hb : 255 * (buf.length + n) < 2 ^ 64) :
    fill n buf sum (source d) =
      if d.length < n then .ok (true, buf ++ d, byteSum (buf ++ d)) []
      else .ok (false, buf ++ d.take n, byteSum (buf ++ d.take n)) (source (d.drop n)) := by
  induction n generalizing buf d sum with
  | zero => simp [fill, hs, source]
  | succ n ih =>
    cases d with
    | nil => simp [fill, source, hs]
    | cons a d =>
      have h1 := byteSum_le buf
      have h2 := UInt8.toNat_lt a
      have : wadd sum a.toNat = byteSum (buf ++ [a]) := by
        rw [byteSum_append, byteSum_cons, wadd, hs, Nat.mod_eq_of_lt (by omega)]
        simp [byteSum]
      show fill n (buf ++ [a]) (wadd sum a.toNat) (source d) = _
      rw [ih (buf ++ [a]) d _ this (by rw [List.length_append, List.length_singleton]; omega)]
      by_cases hd : d.length < n
      · rw [if_pos hd, if_pos (by rw [List.length_cons]; omega)]; simp
      · rw [if_neg hd, if_neg (by rw [List.length_cons]; omega)]; simp

/-- A chunk of length `L` of `d` ends here: the sum of its last `m` bytes is divisible. -/
def boundary (m mod : Nat) (d : List UInt8) (L : Nat) : Prop :=
  byteSum ((d.take L).drop (L - m)) % mod = 0

/-- The second loop, `buf` being the first `m + pos` bytes of `d`. -/
theorem roll_eq (m mod : Nat) (hm : 0 < m) (hm64 : 255 * (m + 1) < 2 ^ 64) (d : List UInt8)
    (n pos : Nat) (sum : Nat) (hlen : m + pos ≤ d.length)
    (hs : sum = byteSum ((d.take (m + pos)).drop pos)) :
    ∃ k, k ≤ n ∧ m + pos + k ≤ d.length ∧
      roll mod pos n (d.take (m + pos)) sum (source (d.drop (m + pos))) =
        .ok (d.take (m + pos + k)) (source (d.drop (m + pos + k))) ∧
      (k = n ∨ m + pos + k = d.length ∨ boundary m mod d (m + pos + k)) ∧
      ∀ j, j < k → ¬ boundary m mod d (m + pos + j) := by
  induction n generalizing pos sum with
  | zero => exact ⟨0, Nat.le_refl 0, hlen, rfl, .inl rfl, by intro j hj; omega⟩
  | succ n ih =>
    rw [roll]
    dsimp only
    have hbd : boundary m mod d (m + pos) ↔ sum % mod = 0 := by
      rw [boundary, show m + pos - m = pos by omega, ← hs]
    by_cases h0 : 0 = sum % mod
    · rw [if_pos h0]
      exact ⟨0, by omega, hlen, rfl, .inr (.inr (hbd.2 h0.symm)), by intro j hj; omega⟩
    · rw [if_neg h0]
      by_cases hd : m + pos = d.length
      · rw [List.drop_eq_nil_of_le (by omega)]
        refine ⟨0, by omega, by omega, ?_, .inr (.inl hd), by intro j hj; omega⟩
        rw [List.drop_eq_nil_of_le (by omega)]
        rfl
      · have hlt : m + pos < d.length := by omega
        have hsrc : source (d.drop (m + pos)) = .ok d[m + pos] :: source (d.drop (m + pos + 1)) := by
          rw [List.drop_eq_getElem_cons hlt]; rfl
        rw [hsrc]
        dsimp only
        have hidx : index (d.take (m + pos)) pos = .ok d[pos] := by
          rw [index_ok (by rw [List.length_take]; omega)]
          simp
        rw [hidx]
        dsimp only
        have htake : d.take (m + pos) ++ [d[m + pos]] = d.take (m + (pos + 1)) := by
          rw [← Nat.add_assoc, List.take_add_one, List.getElem?_eq_getElem hlt]
          rfl
        have hsum : wsub (wadd sum d[m + pos].toNat) d[pos].toNat =
            byteSum ((d.take (m + (pos + 1))).drop (pos + 1)) := by
          have h1 : (d.take (m + pos)).drop pos = d[pos] :: (d.take (m + pos)).drop (pos + 1) := by
            rw [List.drop_eq_getElem_cons (by rw [List.length_take]; omega)]
            simp
          have h2 : (d.take (m + (pos + 1))).drop (pos + 1) =
              (d.take (m + pos)).drop (pos + 1) ++ [d[m + pos]] := by
            rw [← htake, List.drop_append_of_le_length (by rw [List.length_take]; omega)]
          have h3 := byteSum_le ((d.take (m + pos)).drop (pos + 1))
          rw [List.length_drop, List.length_take, Nat.min_eq_left hlen] at h3
          have h4 := UInt8.toNat_lt d[pos]
          have h5 := UInt8.toNat_lt d[m + pos]
          rw [hs, h1, byteSum_cons, h2, byteSum_append, byteSum_cons]
          have h6 : byteSum [] = 0 := rfl
          rw [h6, wadd, wsub]
          generalize byteSum ((d.take (m + pos)).drop (pos + 1)) = x at h3 ⊢
          have h7 : x < 255 * m := by omega
          omega
        rw [htake, show d.drop (m + pos + 1) = d.drop (m + (pos + 1)) from rfl]
        obtain ⟨k, k1, k2, k3, k4, k5⟩ := ih (pos + 1) _ (by omega) hsum
        refine ⟨k + 1, by omega, by omega, ?_, ?_, ?_⟩
        · rw [k3, show m + (pos + 1) + k = m + pos + (k + 1) by omega]
        · rw [show m + (pos + 1) + k = m + pos + (k + 1) by omega] at k4
          rcases k4 with k4 | k4
          · exact .inl (by omega)
          · exact .inr k4
        · intro j hj
          cases j with
          | zero => rw [Nat.add_zero, hbd]; omega
          | succ j =>
            have := k5 j (by omega)
            rw [show m + (pos + 1) + j = m + pos + (j + 1) by omega] at this
            exact this

/-- One chunk. -/
theorem takeRsyncWith_eq (m mod M : Nat) (hm : 0 < m) (hM : m ≤ M) (hm64 : 255 * (m + 1) < 2 ^ 64)
    (d : List UInt8) :
    (d.length < m ∧ takeRsyncWith m mod M (source d) = .ok d []) ∨
    ∃ L, m ≤ L ∧ L ≤ M ∧ L ≤ d.length ∧
      takeRsyncWith m mod M (source d) = .ok (d.take L) (source (d.drop L)) ∧
      (L = M ∨ L = d.length ∨ boundary m mod d L) ∧
      ∀ L', m ≤ L' → L' < L → ¬ boundary m mod d L' := by
  rw [takeRsyncWith]
  have hf := fill_eq m [] d 0 rfl (by simp; omega)
  by_cases hd : d.length < m
  · rw [if_pos hd] at hf
    rw [ES.bind_ok hf]
    exact .inl ⟨hd, rfl⟩
  · rw [if_neg hd] at hf
    rw [ES.bind_ok hf]
    right
    obtain ⟨k, k1, k2, k3, k4, k5⟩ := roll_eq m mod hm hm64 d (M - m) 0 _ (by omega) rfl
    rw [Nat.add_zero] at *
    refine ⟨m + k, by omega, by omega, k2, ?_, ?_, ?_⟩
    · rw [List.nil_append]
      exact k3
    · rcases k4 with k4 | k4
      · exact .inl (by omega)
      · exact .inr k4
    · intro L' h1 h2
      have := k5 (L' - m) (by omega)
      rw [show m + (L' - m) = L' by omega] at this
      exact this

end Zero

end Rezip
