import Verif.Props.Gzip

/-! How reading a gzip header fails. -/

namespace Rezip

open GzHeader

namespace Gzip

/-- A function that fails only at the end of the input, and not if `need` zeros follow the input. -/
def Fed {α : Type} (p : EStateM Fail (List UInt8) α) (need : Nat) : Prop :=
  (∀ s e s', p s = .error e s' → e = .err .eof) ∧
  ∀ s k, need ≤ k → ∃ out t k', p (s ++ List.replicate k 0) = .ok out (t ++ List.replicate k' 0) ∧ k ≤ k' + need

variable {α β : Type}

theorem Fed.pure (a : α) : Fed (pure a) 0 :=
  ⟨fun _ _ _ h => (by cases h), fun s k _ => ⟨a, s, k, rfl, Nat.le_refl _⟩⟩

theorem Fed.bind {p : EStateM Fail (List UInt8) α} {f : α → EStateM Fail (List UInt8) β} {a b : Nat}
    (hp : Fed p a) (hf : ∀ s x s', p s = .ok x s' → Fed (f x) b) : Fed (p >>= f) (a + b) := by
  constructor
  · intro s e s' h
    rcases ES.bind_eq_error.1 h with h | ⟨x, s1, h1, h2⟩
    · exact hp.1 _ _ _ h
    · exact (hf _ _ _ h1).1 _ _ _ h2
  · intro s k hk
    obtain ⟨x, t, k', h1, h2⟩ := hp.2 s k (by omega)
    obtain ⟨y, t', k'', h3, h4⟩ := (hf _ _ _ h1).2 t k' (by omega)
    exact ⟨y, t', k'', by rw [ES.bind_ok h1, h3], by omega⟩

theorem fed_readExact (n : Nat) : Fed (readExact n) n := by
  constructor
  · intro s e s' h
    unfold readExact at h
    split at h
    · cases h
    · cases h; rfl
  · intro s k hk
    unfold readExact
    rw [if_pos (by rw [List.length_append, List.length_replicate]; omega), List.drop_append, List.drop_replicate]
    exact ⟨_, _, _, rfl, by omega⟩

theorem fed_readNull : Fed readNullTerminated 1 := by
  constructor
  · intro s
    induction s with
    | nil => intro e s' h; cases h; rfl
    | cons b s ih =>
      intro e s' h
      rw [readNullTerminated] at h
      split at h
      · cases h
      · cases hr : readNullTerminated s with
        | ok x y => rw [hr] at h; cases h
        | error x y => rw [hr] at h; cases h; exact ih _ _ hr
  · intro s k hk
    induction s with
    | nil =>
      obtain ⟨k, rfl⟩ := Nat.exists_eq_add_of_le' hk
      exact ⟨[0], [], k, rfl, Nat.le_refl _⟩
    | cons b s ih =>
      rw [List.cons_append, readNullTerminated]
      by_cases h : (0 == b) = true
      · rw [if_pos h]
        exact ⟨_, s, k, rfl, by omega⟩
      · rw [if_neg h]
        obtain ⟨x, t, k', h1, h2⟩ := ih
        rw [h1]
        exact ⟨_, t, k', rfl, h2⟩

theorem fed_index {xs : List UInt8} {i : Nat} (h : i < xs.length) :
    Fed (liftE (σ := List UInt8) (index xs i)) 0 := by
  rw [index_ok h]
  exact Fed.pure _

theorem fed_readExtra : Fed readExtra (2 + 65535) := by
  refine Fed.bind (fed_readExact 2) fun s buf s' h => ?_
  have hl := (readExact_iff.1 h).1
  match buf, hl with
  | [a, b], _ =>
    have i1 : index [a, b] 1 = .ok b := rfl
    have i0 : index [a, b] 0 = .ok a := rfl
    rw [i1, i0]
    show Fed (readExact ((b.toNat <<< 8) ||| a.toNat) >>= fun x => pure ([a, b] ++ x)) 65535
    rw [xlen]
    have ha := UInt8.toNat_lt a
    have hb := UInt8.toNat_lt b
    have hf := Fed.bind (fed_readExact (a.toNat + 256 * b.toNat)) fun _ x _ _ => Fed.pure ([a, b] ++ x)
    refine ⟨hf.1, fun s k hk => ?_⟩
    obtain ⟨x, t, k', h1, h2⟩ := hf.2 s k (by omega)
    exact ⟨x, t, k', h1, by omega⟩

theorem fed_optional (c : Bool) {p : EStateM Fail (List UInt8) (List UInt8)} {n : Nat} (h : Fed p n) :
    Fed (optional c p) n := by
  cases c with
  | true => exact h
  | false =>
    have hf := Fed.pure (α := List UInt8) []
    refine ⟨hf.1, fun s k hk => ?_⟩
    obtain ⟨x, t, k', h1, h2⟩ := hf.2 s k (by omega)
    exact ⟨x, t, k', h1, by omega⟩

/-- The fields after the first ten bytes. -/
def fields (flags : UInt8) (header : List UInt8) : EStateM Fail (List UInt8) (List UInt8) := do
  let extra ← optional (hasBit flags 2) readExtra
  let fname ← optional (hasBit flags 3) readNullTerminated
  let comment ← optional (hasBit flags 4) readNullTerminated
  let crc ← optional (hasBit flags 1) (readExact 2)
  pure (header ++ extra ++ fname ++ comment ++ crc)

theorem fed_fields (flags : UInt8) (header : List UInt8) : Fed (fields flags header) 65541 :=
  (fed_optional _ fed_readExtra).bind fun _ _ _ _ => (fed_optional _ fed_readNull).bind (b := 3) fun _ _ _ _ =>
    (fed_optional _ fed_readNull).bind (b := 2) fun _ _ _ _ => (fed_optional _ (fed_readExact 2)).bind (b := 0)
      fun _ _ _ _ => Fed.pure _

/-- The first ten bytes. -/
theorem discardHeader_ten (b0 b1 b2 fl m0 m1 m2 m3 x os : UInt8) (s : List UInt8) :
    discardHeader ([b0, b1, b2, fl, m0, m1, m2, m3, x, os] ++ s) =
      if ¬ (b0 = 0x1f ∧ b1 = 0x8b) then .error (.err .gzipMagic) s
      else if b2 ≠ 8 then .error (.err .gzipMethod) s
      else if 32 ≤ fl.toNat then .error (.err .gzipFlags) s
      else fields fl [b0, b1, b2, fl, m0, m1, m2, m3, x, os] s := by
  rw [discardHeader, ES.bind_ok (readExact_iff (n := 10) |>.2 ⟨rfl, rfl⟩)]
  generalize hhd : [b0, b1, b2, fl, m0, m1, m2, m3, x, os] = hd
  have i0 : index hd 0 = .ok b0 := by rw [← hhd]; rfl
  have i1 : index hd 1 = .ok b1 := by rw [← hhd]; rfl
  have i2 : index hd 2 = .ok b2 := by rw [← hhd]; rfl
  have i3 : index hd 3 = .ok fl := by rw [← hhd]; rfl
  rw [i0, ES.liftE_bind_ok, i1, ES.liftE_bind_ok]
  by_cases c1 : b0 = 0x1f ∧ b1 = 0x8b
  · rw [if_neg (fun h => h c1), ensure_iff.2 (by rw [c1.1, c1.2]; rfl), ES.liftE_bind_ok, i2, ES.liftE_bind_ok]
    by_cases c2 : b2 = 8
    · rw [if_neg (fun h => h c2), ensure_iff.2 (by rw [c2]; rfl), ES.liftE_bind_ok, i3, ES.liftE_bind_ok]
      have key : ∀ n : Nat, n < 256 → ((0 == n.toUInt8 &&& 0b11100000) = true ↔ n < 32) := by decide +kernel
      have hk := key fl.toNat (UInt8.toNat_lt fl)
      rw [show fl.toNat.toUInt8 = fl from UInt8.ofNat_toNat] at hk
      by_cases c3 : 32 ≤ fl.toNat
      · rw [if_pos c3]
        have e : ensure (0 == fl &&& 0b11100000) .gzipFlags = .error (.err .gzipFlags) := by
          rw [ensure, if_neg (fun h => by have := hk.1 h; omega)]
        rw [e, ES.liftE_bind_error]
      · rw [if_neg c3, ensure_iff.2 (hk.2 (by omega)), ES.liftE_bind_ok]
        rfl
    · rw [if_pos c2]
      have e : ensure (8 == b2) .gzipMethod = .error (.err .gzipMethod) := by
        rw [ensure, if_neg (fun h => c2 (beq_iff_eq.1 h).symm)]
      rw [e, ES.liftE_bind_error]
  · rw [if_pos c1]
    have e : ensure (0x1f == b0 && 0x8b == b1) .gzipMagic = .error (.err .gzipMagic) := by
      rw [ensure, if_neg]
      intro h
      simp only [Bool.and_eq_true, beq_iff_eq] at h
      exact c1 ⟨h.1.symm, h.2.symm⟩
    rw [e, ES.liftE_bind_error]

theorem discardHeader_short {s : List UInt8} (h : s.length < 10) : ∃ t, discardHeader s = .error (.err .eof) t := by
  refine ⟨[], ?_⟩
  rw [discardHeader, ES.bind_err]
  rw [readExact, if_neg (by omega)]

theorem ten_of_length {s : List UInt8} (h : 10 ≤ s.length) :
    ∃ b0 b1 b2 fl m0 m1 m2 m3 x os t, s = [b0, b1, b2, fl, m0, m1, m2, m3, x, os] ++ t := by
  match s, h with
  | b0 :: b1 :: b2 :: fl :: m0 :: m1 :: m2 :: m3 :: x :: os :: t, _ =>
    exact ⟨b0, b1, b2, fl, m0, m1, m2, m3, x, os, t, rfl⟩

end Gzip

end Rezip
