import Verif.Lemmas.Zero

/-!
# The rsync chunks of a source that fails
-/

namespace Rezip

namespace Zero

/-- Either the bytes `d` are enough for `f`, whatever follows, or it needs one more. -/
def Enough {α : Type} (f : EStateM Fail Source α) (d : List UInt8) : Prop :=
  (∃ k out, k ≤ d.length ∧ ∀ tail, f (source d ++ tail) = .ok out (source (d.drop k) ++ tail)) ∨
    ((∀ e rest, f (source d ++ .error e :: rest) = .error e rest) ∧
      ∀ x, ∃ out, f (source (d ++ [x])) = .ok out [])

theorem roll_nil (mod pos n : Nat) (buf : List UInt8) (sum : Nat) : roll mod pos n buf sum [] = .ok buf [] := by
  cases n with
  | zero => rfl
  | succ n =>
    unfold roll
    split <;> rfl

theorem roll_enough (mod : Nat) (d : List UInt8) (n pos : Nat) (buf : List UInt8) (sum : Nat)
    (hp : pos < buf.length) : Enough (roll mod pos n buf sum) d := by
  induction d generalizing n pos buf sum with
  | nil =>
    cases n with
    | zero => exact .inl ⟨0, buf, Nat.le_refl _, fun _ => rfl⟩
    | succ n =>
      by_cases h : 0 = sum % mod
      · refine .inl ⟨0, buf, Nat.le_refl _, fun tail => ?_⟩
        unfold roll
        rw [if_pos h]
        rfl
      · refine .inr ⟨fun e rest => ?_, fun x => ?_⟩
        · unfold roll
          rw [if_neg h]
          rfl
        · refine ⟨buf ++ [x], ?_⟩
          unfold roll
          rw [if_neg h]
          show (match index buf pos with | _ => _) = _
          rw [index_ok hp]
          exact roll_nil ..
  | cons a d ih =>
    cases n with
    | zero => exact .inl ⟨0, buf, Nat.zero_le _, fun _ => rfl⟩
    | succ n =>
      by_cases h : 0 = sum % mod
      · refine .inl ⟨0, buf, Nat.zero_le _, fun tail => ?_⟩
        unfold roll
        rw [if_pos h]
        rfl
      · have e : ∀ src, roll mod pos (n + 1) buf sum (.ok a :: src) =
            roll mod (pos + 1) n (buf ++ [a]) (wsub (wadd sum a.toNat) (buf[pos]).toNat) src := by
          intro src
          show (if 0 = sum % mod then EStateM.Result.ok buf (.ok a :: src) else match index buf pos with
            | .error e => .error e src
            | .ok old => roll mod (pos + 1) n (buf ++ [a]) (wsub (wadd sum a.toNat) old.toNat) src) = _
          rw [if_neg h, index_ok hp]
        rcases ih n (pos + 1) (buf ++ [a]) (wsub (wadd sum a.toNat) (buf[pos]).toNat)
            (by rw [List.length_append, List.length_singleton]; omega) with ⟨k, out, h1, h2⟩ | ⟨h1, h2⟩
        · exact .inl ⟨k + 1, out, by rw [List.length_cons]; omega, fun tail => (e _).trans (h2 tail)⟩
        · refine .inr ⟨fun x rest => (e _).trans (h1 x rest), fun x => ?_⟩
          obtain ⟨out, h3⟩ := h2 x
          exact ⟨out, (e _).trans h3⟩

/-- The first loop and what follows. -/
def afterFill (mod m n : Nat) (buf : List UInt8) (sum : Nat) : EStateM Fail Source (List UInt8) := do
  let (ended, buf, sum) ← fill n buf sum
  if ended then pure buf
  else roll mod 0 m buf sum

theorem afterFill_enough (mod m : Nat) (d : List UInt8) (n : Nat) (buf : List UInt8) (sum : Nat)
    (hp : 0 < buf.length + n) : Enough (afterFill mod m n buf sum) d := by
  induction d generalizing n buf sum with
  | nil =>
    cases n with
    | zero => exact roll_enough mod [] m 0 buf sum (by omega)
    | succ n =>
      refine .inr ⟨fun e rest => rfl, fun x => ?_⟩
      cases n with
      | zero => exact ⟨buf ++ [x], roll_nil ..⟩
      | succ n => exact ⟨buf ++ [x], rfl⟩
  | cons a d ih =>
    cases n with
    | zero => exact roll_enough mod (a :: d) m 0 buf sum (by omega)
    | succ n =>
      have e : ∀ src, afterFill mod m (n + 1) buf sum (.ok a :: src) =
          afterFill mod m n (buf ++ [a]) (wadd sum a.toNat) src := fun _ => rfl
      rcases ih n (buf ++ [a]) (wadd sum a.toNat) (by rw [List.length_append, List.length_singleton]; omega) with
        ⟨k, out, h1, h2⟩ | ⟨h1, h2⟩
      · exact .inl ⟨k + 1, out, by rw [List.length_cons]; omega, fun tail => (e _).trans (h2 tail)⟩
      · refine .inr ⟨fun x rest => (e _).trans (h1 x rest), fun x => ?_⟩
        obtain ⟨out, h3⟩ := h2 x
        exact ⟨out, (e _).trans h3⟩

theorem take_enough (d : List UInt8) : Enough takeRsync d :=
  afterFill_enough rsyncMod (rsyncMax - rsyncMin) d rsyncMin [] 0 (by decide)

end Zero

end Rezip
