import Verif.Props.SerialiseTrace

/-!
# The serialised trace is as short as its format allows

C73.
-/

namespace Rezip

open SerialiseTrace

/-- Adding a run of correct guesses that one entry can hold adds at most one entry. -/
theorem bytesOf_add_run (n : Nat) (hn : n ≤ 32767) (t : List Trace) :
    (bytesOf (List.replicate n .correct ++ t)).length ≤ 2 + (bytesOf t).length := by
  obtain ⟨m, rest, rfl, hr⟩ := run_split t
  rw [← List.append_assoc, List.replicate_append_replicate]
  have key : ∀ k, (bytesOf (List.replicate k .correct ++ rest)).length =
      2 * ((k + 32766) / 32767) + (bytesOf rest).length := by
    intro k
    cases k with
    | zero => simp
    | succ k => rw [bytesOf_run k hr, List.length_append, runBytes_length (by omega)]
  rw [key, key]
  omega

/-- C73. Whatever bytes are read as a trace, writing that trace takes no more bytes: the serialisation is a
shortest one in its format. -/
theorem C73_shortest (data : List UInt8) (t : List Trace) (h : read data = .ok t) :
    ∃ bytes, write t = .ok bytes ∧ bytes.length ≤ data.length := by
  refine ⟨_, write_eq t, ?_⟩
  induction hn : data.length using Nat.strongRecOn generalizing data t with
  | ind n ih =>
    subst hn
    match data, h with
    | [], h => rw [read_nil] at h; cases h; simp [bytesOf_nil]
    | [b], h => rw [read_one] at h; cases h; simp [bytesOf_nil]
    | b0 :: b1 :: rest, h =>
      rw [read_two] at h
      have step : ∀ (rest' : List UInt8) (f : List Trace → List Trace),
          rest'.length < (b0 :: b1 :: rest).length → (read rest').map f = .ok t →
          ∃ t', t = f t' ∧ (bytesOf t').length ≤ rest'.length := by
        intro rest' f hl he
        cases hr : read rest' with
        | error e => rw [hr] at he; cases he
        | ok t' =>
          rw [hr] at he
          cases he
          exact ⟨t', rfl, ih _ hl rest' t' hr rfl⟩
      split at h
      · obtain ⟨t', rfl, hle⟩ := step rest _ (by simp; omega) h
        rw [bytesOf_lit, List.length_append, u16le_length]
        simp only [List.length_cons]
        omega
      · split at h
        · match rest, h with
          | [], h => cases h
          | r :: rest, h =>
            obtain ⟨t', rfl, hle⟩ := step rest _ (by simp; omega) h
            rw [bytesOf_ref, List.length_append, List.length_append, u16le_length]
            simp only [List.length_cons, List.length_nil]
            omega
        · have h0 := b0.toNat_lt
          have h1 := b1.toNat_lt
          have hk : b0.toNat + 256 * b1.toNat - 32768 ≤ 32767 := by omega
          generalize b0.toNat + 256 * b1.toNat - 32768 = k at h hk
          obtain ⟨t', rfl, hle⟩ := step rest _ (by simp; omega) h
          have := bytesOf_add_run k hk t'
          simp only [List.length_cons]
          omega

/-- Two entries for one correct guess each, and a stray byte: five bytes read, two written. -/
example : read [1, 128, 1, 128, 7] = .ok [.correct, .correct] ∧
    write [.correct, .correct] = .ok [2, 128] := by decide +kernel

end Rezip
