import Verif.Spec.TraceFormat
import Verif.Props.SerialiseTrace

/-!
# C116: the format of a serialised trace
-/

namespace Rezip

open Rezip.Spec SerialiseTrace

theorem TraceRecord.correct_le {n : Nat} {lo hi : UInt8} (h : lo.toNat + 256 * hi.toNat = 32768 + n) : n ≤ 32767 := by
  have := UInt8.toNat_lt lo
  have := UInt8.toNat_lt hi
  omega

theorem u16le_eq {lo hi : UInt8} {v : Nat} (h : lo.toNat + 256 * hi.toNat = v) : u16le v = [lo, hi] := by
  have := UInt8.toNat_lt lo
  have := UInt8.toNat_lt hi
  unfold u16le
  rw [show v % 256 = lo.toNat by omega, show v / 256 = hi.toNat by omega]
  simp

theorem Ref.len_eq {r : Ref} {len : UInt8} (h : r.run = 3 + len.toNat) : r.runMinus3 = len := by
  apply UInt8.toNat_inj.1
  unfold Ref.run at h
  omega

/-- Reading a record. -/
theorem read_record {x : List Trace} {b : List UInt8} (h : TraceRecord x b) (rest : List UInt8) :
    read (b ++ rest) = (read rest).map (x ++ ·) := by
  cases h with
  | literal => exact read_lit rest
  | reference r lo hi len h1 h2 h3 h4 =>
    have := read_ref h2 h3 rest
    rw [u16le_eq h1.symm, Ref.len_eq h4] at this
    exact this
  | correct n lo hi h1 h2 =>
    have := read_run h1 (TraceRecord.correct_le h2) rest
    rw [u16le_eq h2] at this
    exact this

theorem read_file {t : List Trace} {b : List UInt8} (h : TraceFile t b) (rest : List UInt8) :
    read (b ++ rest) = (read rest).map (t ++ ·) := by
  induction h with
  | nil => rw [List.nil_append]; cases read rest <;> rfl
  | cons hx _ ih =>
    rw [List.append_assoc, read_record hx, ih]
    cases read rest with
    | error e => rfl
    | ok t => exact congrArg Except.ok (List.append_assoc _ _ _).symm

/-- What any bytes are: a file followed by at most one byte, or by the first two bytes of a reference. -/
theorem file_cases (data : List UInt8) : ∃ t body rest, TraceFile t body ∧ data = body ++ rest ∧
    (rest.length ≤ 1 ∨ ∃ lo hi, rest = [lo, hi] ∧ 1 ≤ lo.toNat + 256 * hi.toNat ∧ lo.toNat + 256 * hi.toNat ≤ 32768) := by
  induction hn : data.length using Nat.strongRecOn generalizing data with
  | ind n ih =>
    subst hn
    have step : ∀ x b rest, data = b ++ rest → b ≠ [] → TraceRecord x b → ∃ t body rest, TraceFile t body ∧
        data = body ++ rest ∧ (rest.length ≤ 1 ∨ ∃ lo hi, rest = [lo, hi] ∧ 1 ≤ lo.toNat + 256 * hi.toNat ∧
          lo.toNat + 256 * hi.toNat ≤ 32768) := by
      intro x b rest hd hb hx
      have hl : rest.length < data.length := by
        have := List.length_pos_iff.2 hb
        rw [hd, List.length_append]
        omega
      obtain ⟨t, body, rest', h1, h2, h3⟩ := ih rest.length hl rest rfl
      exact ⟨_, _, rest', .cons hx h1, by rw [hd, h2, List.append_assoc], h3⟩
    match data, step with
    | [], _ => exact ⟨[], [], [], .nil, rfl, .inl (by simp)⟩
    | [x], _ => exact ⟨[], [], [x], .nil, rfl, .inl (by simp)⟩
    | lo :: hi :: rest, step =>
      have hlo := UInt8.toNat_lt lo
      have hhi := UInt8.toNat_lt hi
      by_cases h0 : lo.toNat + 256 * hi.toNat = 0
      · have e1 : lo = 0 := UInt8.toNat_inj.1 (by simp; omega)
        have e2 : hi = 0 := UInt8.toNat_inj.1 (by simp; omega)
        subst e1 e2
        exact step _ [0, 0] rest rfl (by simp) .literal
      · by_cases hle : lo.toNat + 256 * hi.toNat ≤ 32768
        · match rest, step with
          | [], _ => exact ⟨[], [], [lo, hi], .nil, rfl, .inr ⟨lo, hi, rfl, by omega, hle⟩⟩
          | len :: rest, step =>
            have hd : (lo.toNat + 256 * hi.toNat).toUInt16.toNat = lo.toNat + 256 * hi.toNat := by
              rw [Nat.toUInt16_eq, UInt16.toNat_ofNat']; omega
            exact step _ [lo, hi, len] rest rfl (by simp)
              (.reference ⟨(lo.toNat + 256 * hi.toNat).toUInt16, len⟩ lo hi len hd (by rw [hd]; omega)
                (by rw [hd]; exact hle) (Nat.add_comm _ _))
        · exact step _ [lo, hi] rest rfl (by simp)
            (.correct (lo.toNat + 256 * hi.toNat - 32768) lo hi (by omega) (by omega))

theorem read_short {rest : List UInt8} (h : rest.length ≤ 1) : read rest = .ok [] := by
  match rest, h with
  | [], _ => rfl
  | [_], _ => rfl

theorem read_half {lo hi : UInt8} (h1 : 1 ≤ lo.toNat + 256 * hi.toNat) (h2 : lo.toNat + 256 * hi.toNat ≤ 32768) :
    read [lo, hi] = .error (.err .eof) := by
  rw [read_two, if_neg (by omega), if_pos h2]

/-- C116. What is read is what a file of the format stands for; one more byte at the end is ignored. -/
theorem C116_read (data : List UInt8) (t : List Trace) :
    read data = .ok t ↔ ∃ body rest, data = body ++ rest ∧ rest.length ≤ 1 ∧ TraceFile t body := by
  constructor
  · intro h
    obtain ⟨t', body, rest, h1, h2, h3⟩ := file_cases data
    rw [h2, read_file h1] at h
    rcases h3 with h3 | ⟨lo, hi, h3, h4, h5⟩
    · rw [read_short h3] at h
      have h : t' ++ [] = t := Except.ok.inj h
      rw [List.append_nil] at h
      exact ⟨body, rest, h2, h3, h ▸ h1⟩
    · rw [h3, read_half h4 h5] at h
      cases h
  · rintro ⟨body, rest, rfl, h2, h3⟩
    rw [read_file h3, read_short h2]
    exact congrArg Except.ok (List.append_nil t)

/-- C116. Reading fails only for a file whose last record is a reference without its third byte. -/
theorem C116_error (data : List UInt8) (e : Fail) :
    read data = .error e ↔ e = .err .eof ∧ ∃ t body lo hi, data = body ++ [lo, hi] ∧ TraceFile t body ∧
      1 ≤ lo.toNat + 256 * hi.toNat ∧ lo.toNat + 256 * hi.toNat ≤ 32768 := by
  constructor
  · intro h
    obtain ⟨t', body, rest, h1, h2, h3⟩ := file_cases data
    rw [h2, read_file h1] at h
    rcases h3 with h3 | ⟨lo, hi, h3, h4, h5⟩
    · rw [read_short h3] at h
      cases h
    · rw [h3, read_half h4 h5] at h
      cases h
      exact ⟨rfl, t', body, lo, hi, by rw [h2, h3], h1, h4, h5⟩
  · rintro ⟨rfl, t, body, lo, hi, rfl, h1, h2, h3⟩
    rw [read_file h1, read_half h2 h3]
    rfl

theorem record_run {n : Nat} (h1 : 1 ≤ n) (h2 : n ≤ 32767) :
    TraceRecord (List.replicate n .correct) (u16le (32768 + n)) := by
  obtain ⟨b0, b1, e, ev⟩ := u16le_val (v := 32768 + n) (by omega)
  rw [e]
  exact .correct n b0 b1 h1 ev

theorem written_run {n : Nat} (h : 1 ≤ n) {t : List Trace} {b : List UInt8} (ht : NoRun t) (hw : WrittenTrace t b) :
    WrittenTrace (List.replicate n .correct ++ t) (runBytes n ++ b) := by
  induction n using Nat.strongRecOn with
  | ind n ih =>
    rw [runBytes]
    by_cases hn : n > 32767
    · rw [dif_pos hn, List.append_assoc]
      have : List.replicate n Trace.correct ++ t =
          List.replicate 32767 .correct ++ (List.replicate (n - 32767) .correct ++ t) := by
        rw [← List.append_assoc, List.replicate_append_replicate, show 32767 + (n - 32767) = n by omega]
      rw [this]
      exact .cons (record_run (by omega) (by omega)) (fun _ _ => List.length_replicate)
        (ih (n - 32767) (by omega) (by omega))
    · rw [dif_neg hn]
      exact .cons (record_run h (by omega)) (fun _ h' => absurd h' ht) hw

theorem written_bytesOf {t : List Trace} (h : TraceOk t) : WrittenTrace t (bytesOf t) := by
  induction t using runs_induction with
  | nil => exact .nil
  | lit t ih =>
    rw [bytesOf_lit]
    exact .cons (x := [.actuallyLiteral]) .literal (by simp) (ih h.tail)
  | ref r t ih =>
    rw [bytesOf_ref]
    have hr := h r (by simp)
    obtain ⟨b0, b1, e, ev⟩ := u16le_val (v := r.dist.toNat) (by have := hr.2.1; omega)
    rw [e]
    exact .cons (x := [.actually r]) (b := [b0, b1, r.runMinus3])
      (.reference r b0 b1 r.runMinus3 ev.symm hr.1 hr.2.1 (Nat.add_comm _ _)) (by simp) (ih h.tail)
  | run n t hn ih =>
    rw [bytesOf_run n hn]
    exact written_run (by omega) hn (ih h.right)

theorem bytesOf_full {n : Nat} (h1 : 1 ≤ n) (h2 : n ≤ 32767) {t : List Trace}
    (h : t.head? = some .correct → n = 32767) :
    bytesOf (List.replicate n .correct ++ t) = u16le (32768 + n) ++ bytesOf t := by
  obtain ⟨m, rest, rfl, hr⟩ := run_split t
  cases m with
  | zero =>
    obtain ⟨n, rfl⟩ : ∃ k, n = k + 1 := ⟨n - 1, by omega⟩
    rw [List.replicate_zero, List.nil_append, bytesOf_run n hr, runBytes, dif_neg (by omega)]
  | succ m =>
    have hn := h rfl
    subst hn
    rw [← List.append_assoc, List.replicate_append_replicate, show 32767 + (m + 1) = 32767 + m + 1 by omega,
      bytesOf_run _ hr, bytesOf_run _ hr, runBytes, dif_pos (by omega), show 32767 + m + 1 - 32767 = m + 1 by omega,
      List.append_assoc]

theorem bytesOf_written {t : List Trace} {b : List UInt8} (h : WrittenTrace t b) : bytesOf t = b := by
  induction h with
  | nil => rfl
  | @cons x t b bs hx hc _ ih =>
    subst ih
    cases hx with
    | literal => exact bytesOf_lit t
    | reference r lo hi len h1 h2 h3 h4 =>
      have := bytesOf_ref r t
      rw [u16le_eq h1.symm, Ref.len_eq h4] at this
      exact this
    | correct n lo hi h1 h2 =>
      have := bytesOf_full h1 (TraceRecord.correct_le h2) (t := t) (fun ht => by
        have := hc (by cases n with
          | zero => omega
          | succ n => rfl) ht
        rwa [List.length_replicate] at this)
      rw [u16le_eq h2] at this
      exact this

/-- C116. The bytes written for a trace with well formed references are the file whose records of correct guesses are
as long as possible, and no others. -/
theorem C116_write (t : List Trace) (h : TraceOk t) (bytes : List UInt8) :
    write t = .ok bytes ↔ WrittenTrace t bytes := by
  rw [write_eq]
  constructor
  · intro e
    cases e
    exact written_bytesOf h
  · intro hw
    rw [bytesOf_written hw]

/-- C116. The self-check passes exactly for the traces whose references are all well formed; otherwise it panics. -/
theorem C116_verify (t : List Trace) :
    (TraceOk t → ∃ bytes, verify t = .ok bytes ∧ WrittenTrace t bytes) ∧
    (¬ TraceOk t → verify t = .error (.panic .assertion) ∨ verify t = .error (.panic .unwrap)) := by
  constructor
  · intro h
    obtain ⟨bytes, h1, _, h3⟩ := C36_roundtrip t h
    exact ⟨bytes, h3, (C116_write t h bytes).1 h1⟩
  · intro h
    unfold verify
    rw [write_eq, Ex.ok_bind]
    rcases C37_read_total (bytesOf t) with ⟨t', h1, h2⟩ | h1
    · rw [h1]
      dsimp only
      left
      have hne : t ≠ t' := fun e => h (e ▸ h2)
      unfold assert
      rw [if_neg (by simpa using hne)]
      rfl
    · rw [h1]
      exact .inr rfl

/-- Two correct guesses, a reference of length 8 at distance 300 and a literal. -/
example : WrittenTrace [.correct, .correct, .actually ⟨300, 5⟩, .actuallyLiteral] [2, 128, 44, 1, 5, 0, 0] :=
  .cons (x := [.correct, .correct]) (b := [2, 128]) (.correct 2 2 128 (by decide) (by decide)) (by simp) <|
  .cons (x := [.actually ⟨300, 5⟩]) (b := [44, 1, 5])
    (.reference ⟨300, 5⟩ 44 1 5 (by decide) (by decide) (by decide) (by decide)) (by simp) <|
  .cons (x := [.actuallyLiteral]) (b := [0, 0]) .literal (by simp) .nil

/-- Both panics of the self-check occur: distance zero reads as a literal, and then what follows is read wrongly. -/
example : verify [.actually ⟨0, 0⟩] = .error (.panic .assertion) ∧
    verify [.actually ⟨32769, 7⟩, .actuallyLiteral] = .error (.panic .assertion) ∧
    verify [.actually ⟨0, 0⟩, .actually ⟨385, 0⟩] = .error (.panic .unwrap) := by
  decide +kernel

end Rezip
