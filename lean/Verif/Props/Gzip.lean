import Verif.Model.Gzip
import Verif.Spec.GzipHeader
import Verif.Lemmas.Monad

/-!
# C56, C57: gzip headers
-/

namespace Rezip

namespace Gzip

open GzHeader

theorem readExact_iff {n : Nat} {s out rest : List UInt8} :
    readExact n s = .ok out rest ↔ out.length = n ∧ s = out ++ rest := by
  unfold readExact
  constructor
  · intro h
    split at h
    · cases h
      refine ⟨by rw [List.length_take]; omega, by rw [List.take_append_drop]⟩
    · cases h
  · rintro ⟨rfl, rfl⟩
    rw [if_pos (by rw [List.length_append]; omega), List.take_left, List.drop_left]

theorem readNull_iff {s out rest : List UInt8} :
    readNullTerminated s = .ok out rest ↔
      ∃ x, (∀ b ∈ x, b ≠ 0) ∧ out = x ++ [0] ∧ s = out ++ rest := by
  induction s generalizing out with
  | nil =>
    constructor
    · intro h; cases h
    · rintro ⟨x, _, rfl, h⟩; simp at h
  | cons b s ih =>
    rw [readNullTerminated]
    by_cases hb : b = 0
    · subst hb
      rw [if_pos (show ((0 : UInt8) == 0) = true from rfl)]
      constructor
      · intro h; cases h; exact ⟨[], by simp, rfl, rfl⟩
      · rintro ⟨x, hx, rfl, h⟩
        cases x with
        | nil => cases h; rfl
        | cons c x => cases h; exact absurd rfl (hx 0 (by simp))
    · rw [if_neg (by simpa using fun h => hb h.symm)]
      constructor
      · intro h
        cases hr : readNullTerminated s with
        | error e s' => rw [hr] at h; cases h
        | ok bs s' =>
          rw [hr] at h
          cases h
          obtain ⟨x, hx, rfl, hs⟩ := ih.1 hr
          refine ⟨b :: x, ?_, rfl, by rw [hs]; rfl⟩
          intro c hc
          rcases List.mem_cons.1 hc with rfl | hc
          · exact hb
          · exact hx c hc
      · rintro ⟨x, hx, rfl, h⟩
        cases x with
        | nil => cases h; exact absurd rfl hb
        | cons c x =>
          cases h
          rw [ih.2 ⟨x, fun d hd => hx d (List.mem_cons_of_mem _ hd), rfl, rfl⟩]
          rfl

theorem nullPart_iff {c : Bool} {s out rest : List UInt8} :
    optional c readNullTerminated s = .ok out rest ↔
      ∃ o, o.isSome = c ∧ (∀ x, o = some x → ∀ b ∈ x, b ≠ 0) ∧ out = zeroTerminated o ∧
        s = out ++ rest := by
  rw [optional]
  cases c with
  | false =>
    rw [if_neg (by simp)]
    constructor
    · intro h; cases h; exact ⟨none, rfl, by simp, rfl, rfl⟩
    · rintro ⟨o, ho, _, rfl, rfl⟩
      cases o with
      | none => rfl
      | some x => cases ho
  | true =>
    rw [if_pos rfl, readNull_iff]
    constructor
    · rintro ⟨x, hx, rfl, h⟩
      exact ⟨some x, rfl, by intro y hy; cases hy; exact hx, rfl, h⟩
    · rintro ⟨o, ho, hv, rfl, h⟩
      cases o with
      | none => cases ho
      | some x => exact ⟨x, hv x rfl, rfl, h⟩

theorem crcPart_iff {c : Bool} {s out rest : List UInt8} :
    optional c (readExact 2) s = .ok out rest ↔
      ∃ o, o.isSome = c ∧ out = crcField o ∧ s = out ++ rest := by
  rw [optional]
  cases c with
  | false =>
    rw [if_neg (by simp)]
    constructor
    · intro h; cases h; exact ⟨none, rfl, rfl, rfl⟩
    · rintro ⟨o, ho, rfl, rfl⟩
      cases o with
      | none => rfl
      | some x => cases ho
  | true =>
    rw [if_pos rfl, readExact_iff]
    constructor
    · rintro ⟨hl, h⟩
      match out, hl with
      | [a, b], _ => exact ⟨some (a, b), rfl, rfl, h⟩
    · rintro ⟨o, ho, rfl, h⟩
      cases o with
      | none => cases ho
      | some x => exact ⟨rfl, h⟩

theorem xlen (a b : UInt8) : (b.toNat <<< 8) ||| a.toNat = a.toNat + 256 * b.toNat := by
  rw [Nat.shiftLeft_eq]
  rw [Nat.mul_comm, ← Nat.two_pow_add_eq_or_of_lt (i := 8) (UInt8.toNat_lt a)]
  omega

theorem extraPart_iff {c : Bool} {s out rest : List UInt8} :
    optional c readExtra s = .ok out rest ↔
      ∃ o, o.isSome = c ∧ (∀ x, o = some x → x.length < 65536) ∧ out = extraField o ∧
        s = out ++ rest := by
  rw [optional]
  cases c with
  | false =>
    rw [if_neg (by simp)]
    constructor
    · intro h; cases h; exact ⟨none, rfl, by simp, rfl, rfl⟩
    · rintro ⟨o, ho, _, rfl, rfl⟩
      cases o with
      | none => rfl
      | some x => cases ho
  | true =>
    rw [if_pos rfl, readExtra]
    constructor
    · intro h0
      obtain ⟨buf, s1, h1, h⟩ := ES.bind_eq_ok.1 h0
      clear h0
      obtain ⟨hl, rfl⟩ := readExact_iff.1 h1
      match buf, hl with
      | [a, b], _ =>
        have i1 : index [a, b] 1 = .ok b := rfl
        have i0 : index [a, b] 0 = .ok a := rfl
        rw [i1, ES.liftE_bind_ok, i0, ES.liftE_bind_ok] at h
        obtain ⟨x, s2, h2, h'⟩ := ES.bind_eq_ok.1 h
        clear h
        obtain ⟨hx, rfl⟩ := readExact_iff.1 h2
        cases h'
        have ha := UInt8.toNat_lt a
        have hb := UInt8.toNat_lt b
        rw [xlen] at hx
        refine ⟨some x, rfl, by intro y hy; cases hy; omega, ?_, by simp⟩
        rw [extraField, hx]
        have e1 : (a.toNat + 256 * b.toNat) % 256 = a.toNat := by omega
        have e2 : (a.toNat + 256 * b.toNat) / 256 = b.toNat := by omega
        rw [e1, e2]
        simp
    · rintro ⟨o, ho, hv, rfl, rfl⟩
      cases o with
      | none => cases ho
      | some x =>
        have hx := hv x rfl
        have h1 : readExact 2 (extraField (some x) ++ rest) =
            .ok [(x.length % 256).toUInt8, (x.length / 256).toUInt8] (x ++ rest) :=
          readExact_iff.2 ⟨rfl, rfl⟩
        rw [ES.bind_ok h1]
        have i1 : index [(x.length % 256).toUInt8, (x.length / 256).toUInt8] 1 =
          .ok (x.length / 256).toUInt8 := rfl
        have i0 : index [(x.length % 256).toUInt8, (x.length / 256).toUInt8] 0 =
          .ok (x.length % 256).toUInt8 := rfl
        rw [i1, ES.liftE_bind_ok, i0, ES.liftE_bind_ok, xlen]
        have t0 : (x.length % 256).toUInt8.toNat = x.length % 256 := by simp
        have t1 : (x.length / 256).toUInt8.toNat = x.length / 256 := by simp; omega
        rw [t0, t1]
        have h2 : readExact (x.length % 256 + 256 * (x.length / 256)) (x ++ rest) = .ok x rest :=
          readExact_iff.2 ⟨by omega, rfl⟩
        rw [ES.bind_ok h2]
        rfl

theorem flags_of (f : UInt8) (h : (0 == f &&& 0b11100000) = true) :
    f = flagByte (hasBit f 0) (hasBit f 1) (hasBit f 2) (hasBit f 3) (hasBit f 4) := by
  have key : ∀ n : Nat, n < 256 → (0 == n.toUInt8 &&& 0b11100000) = true →
      n.toUInt8 = flagByte (hasBit n.toUInt8 0) (hasBit n.toUInt8 1) (hasBit n.toUInt8 2)
        (hasBit n.toUInt8 3) (hasBit n.toUInt8 4) := by decide +kernel
  have := key f.toNat (UInt8.toNat_lt f)
  rw [show f.toNat.toUInt8 = f from UInt8.ofNat_toNat] at this
  exact this h

theorem flags_bits : ∀ text hcrc extra name comment : Bool,
    (0 == flagByte text hcrc extra name comment &&& 0b11100000) = true ∧
    hasBit (flagByte text hcrc extra name comment) 1 = hcrc ∧
    hasBit (flagByte text hcrc extra name comment) 2 = extra ∧
    hasBit (flagByte text hcrc extra name comment) 3 = name ∧
    hasBit (flagByte text hcrc extra name comment) 4 = comment := by decide

theorem ensure_iff {c : Bool} {e : Err} : ensure c e = .ok () ↔ c = true := by
  unfold ensure
  cases c <;> simp

theorem liftE_ok_iff {α : Type} {x : Except Fail α} {s s' : List UInt8} {a : α} :
    liftE (σ := List UInt8) x s = .ok a s' ↔ x = .ok a ∧ s = s' := by
  cases x with
  | error e =>
    constructor
    · intro h; cases h
    · rintro ⟨h, _⟩; cases h
  | ok b =>
    constructor
    · intro h; cases h; exact ⟨rfl, rfl⟩
    · rintro ⟨h, rfl⟩; cases h; rfl

theorem discardHeader_iff {s out rest : List UInt8} :
    discardHeader s = .ok out rest ↔
      s = out ++ rest ∧ ∃ h : GzHeader, h.Valid ∧ h.bytes = out := by
  rw [discardHeader]
  constructor
  · intro h0
    obtain ⟨hd, s1, h1, h⟩ := ES.bind_eq_ok.1 h0
    clear h0
    obtain ⟨hl, rfl⟩ := readExact_iff.1 h1
    match hd, hl with
    | [b0, b1, b2, fl, m0, m1, m2, m3, xfl, os], _ =>
      generalize hhd : [b0, b1, b2, fl, m0, m1, m2, m3, xfl, os] = hd at h
      have i0 : index hd 0 = .ok b0 := by rw [← hhd]; rfl
      have i1 : index hd 1 = .ok b1 := by rw [← hhd]; rfl
      have i2 : index hd 2 = .ok b2 := by rw [← hhd]; rfl
      have i3 : index hd 3 = .ok fl := by rw [← hhd]; rfl
      rw [i0, ES.liftE_bind_ok, i1, ES.liftE_bind_ok] at h
      obtain ⟨_, _, h1, h⟩ := ES.bind_eq_ok.1 h
      obtain ⟨e1, rfl⟩ := liftE_ok_iff.1 h1
      rw [i2, ES.liftE_bind_ok] at h
      obtain ⟨_, _, h1, h⟩ := ES.bind_eq_ok.1 h
      obtain ⟨e2, rfl⟩ := liftE_ok_iff.1 h1
      rw [i3, ES.liftE_bind_ok] at h
      obtain ⟨_, _, h1, h⟩ := ES.bind_eq_ok.1 h
      obtain ⟨e3, rfl⟩ := liftE_ok_iff.1 h1
      obtain ⟨ex, s2, h2, k2⟩ := ES.bind_eq_ok.1 h
      clear h
      obtain ⟨oe, e4, v4, rfl, rfl⟩ := extraPart_iff.1 h2
      obtain ⟨nm, s3, h3, k3⟩ := ES.bind_eq_ok.1 k2
      clear k2
      obtain ⟨on, e5, v5, rfl, rfl⟩ := nullPart_iff.1 h3
      obtain ⟨cm, s4, h4, k4⟩ := ES.bind_eq_ok.1 k3
      clear k3
      obtain ⟨oc, e6, v6, rfl, rfl⟩ := nullPart_iff.1 h4
      obtain ⟨cr, s5, h5, k5⟩ := ES.bind_eq_ok.1 k4
      clear k4
      obtain ⟨ocr, e7, rfl, rfl⟩ := crcPart_iff.1 h5
      cases k5
      have m := ensure_iff.1 e1
      have m2' := ensure_iff.1 e2
      have m3' := ensure_iff.1 e3
      simp only [Bool.and_eq_true, beq_iff_eq] at m m2'
      refine ⟨by simp, ⟨hasBit fl 0, (m0, m1, m2, m3), xfl, os, oe, on, oc, ocr⟩,
        ⟨v4, v5, v6⟩, ?_⟩
      rw [GzHeader.bytes]
      dsimp only
      rw [e4, e5, e6, e7, ← flags_of fl m3', ← hhd, m.1, m.2, m2']
  · rintro ⟨rfl, h, ⟨v1, v2, v3⟩, rfl⟩
    obtain ⟨f0, f1, f2, f3, f4⟩ := flags_bits h.text h.hcrc.isSome h.extra.isSome h.name.isSome
      h.comment.isSome
    rw [GzHeader.bytes]
    generalize hfl : flagByte h.text h.hcrc.isSome h.extra.isSome h.name.isSome
      h.comment.isSome = fl at *
    rw [List.append_assoc, List.append_assoc, List.append_assoc, List.append_assoc]
    rw [ES.bind_ok (readExact_iff (n := 10) |>.2 ⟨rfl, rfl⟩)]
    generalize hhd : [0x1f, 0x8b, 8, fl, h.mtime.1, h.mtime.2.1, h.mtime.2.2.1, h.mtime.2.2.2,
      h.xfl, h.os] = hd
    have i0 : index hd 0 = .ok 0x1f := by rw [← hhd]; rfl
    have i1 : index hd 1 = .ok 0x8b := by rw [← hhd]; rfl
    have i2 : index hd 2 = .ok 8 := by rw [← hhd]; rfl
    have i3 : index hd 3 = .ok fl := by rw [← hhd]; rfl
    rw [i0, ES.liftE_bind_ok, i1, ES.liftE_bind_ok, ensure_iff.2 (by rfl), ES.liftE_bind_ok, i2,
      ES.liftE_bind_ok, ensure_iff.2 (by rfl), ES.liftE_bind_ok, i3, ES.liftE_bind_ok,
      ensure_iff.2 f0, ES.liftE_bind_ok]
    rw [ES.bind_ok ((extraPart_iff (c := hasBit fl 2)).2 ⟨h.extra, f2.symm, v1, rfl, rfl⟩)]
    rw [ES.bind_ok ((nullPart_iff (c := hasBit fl 3)).2 ⟨h.name, f3.symm, v2, rfl, rfl⟩)]
    rw [ES.bind_ok ((nullPart_iff (c := hasBit fl 4)).2 ⟨h.comment, f4.symm, v3, rfl, rfl⟩)]
    rw [ES.bind_ok ((crcPart_iff (c := hasBit fl 1)).2 ⟨h.hcrc, f1.symm, rfl, rfl⟩)]
    simp

end Gzip

/-! ### C56 -/

/-- C56. On success the bytes returned followed by the unread input are the input, and the bytes returned
are an RFC 1952 header. -/
theorem C56_header (input out rest : List UInt8)
    (h : Gzip.discardHeader input = .ok out rest) :
    input = out ++ rest ∧ ∃ hd : GzHeader, hd.Valid ∧ hd.bytes = out :=
  Gzip.discardHeader_iff.1 h

/-! ### C57 -/

/-- C57. Any RFC 1952 header followed by anything is accepted, and exactly it is returned. -/
theorem C57_accepted (hd : GzHeader) (hv : hd.Valid) (rest : List UInt8) :
    Gzip.discardHeader (hd.bytes ++ rest) = .ok hd.bytes rest :=
  Gzip.discardHeader_iff.2 ⟨rfl, hd, hv, rfl⟩

/-- A header with all optional fields. -/
example : (GzHeader.mk true (1, 2, 3, 4) 5 6 (some [7, 0]) (some [97, 98]) (some []) (some (8, 9))).Valid ∧
    (GzHeader.mk true (1, 2, 3, 4) 5 6 (some [7, 0]) (some [97, 98]) (some []) (some (8, 9))).bytes =
      [0x1f, 0x8b, 8, 31, 1, 2, 3, 4, 5, 6, 2, 0, 7, 0, 97, 98, 0, 0, 8, 9] := by
  refine ⟨⟨?_, ?_, ?_⟩, by decide⟩
  · intro x hx; cases hx; decide
  · intro x hx; cases hx; decide
  · intro x hx; cases hx; decide

namespace Gzip

/-- Failures of a reader are errors, not panics. -/
def OnlyErrs {α : Type} (p : EStateM Fail (List UInt8) α) : Prop :=
  ∀ s e s', p s = .error e s' → ∃ x, e = .err x

theorem OnlyErrs.bind {α β : Type} {p : EStateM Fail (List UInt8) α}
    {f : α → EStateM Fail (List UInt8) β} (hp : OnlyErrs p)
    (hf : ∀ s a s', p s = .ok a s' → OnlyErrs (f a)) : OnlyErrs (p >>= f) := by
  intro s e s' h
  rw [ES.bind_apply] at h
  cases hr : p s with
  | error e' s1 => rw [hr] at h; cases h; exact hp _ _ _ hr
  | ok a s1 => rw [hr] at h; exact hf _ _ _ hr _ _ _ h

theorem OnlyErrs.pure {α : Type} (a : α) : OnlyErrs (Pure.pure a) := by
  intro s e s' h; cases h

theorem onlyErrs_readExact (n : Nat) : OnlyErrs (readExact n) := by
  intro s e s' h
  unfold readExact at h
  split at h
  · cases h
  · cases h; exact ⟨_, rfl⟩

theorem onlyErrs_readNull : OnlyErrs readNullTerminated := by
  intro s
  induction s with
  | nil => intro e s' h; cases h; exact ⟨_, rfl⟩
  | cons b s ih =>
    intro e s' h
    rw [readNullTerminated] at h
    split at h
    · cases h
    · cases hr : readNullTerminated s with
      | ok bs s1 => rw [hr] at h; cases h
      | error e1 s1 => rw [hr] at h; cases h; exact ih _ _ hr

theorem onlyErrs_index {xs : List UInt8} {i : Nat} (h : i < xs.length) :
    OnlyErrs (liftE (σ := List UInt8) (index xs i)) := by
  rw [index_ok h]
  intro s e s' h; cases h

theorem onlyErrs_ensure (c : Bool) (x : Err) : OnlyErrs (liftE (σ := List UInt8) (ensure c x)) := by
  intro s e s' h
  cases c with
  | true => cases h
  | false => cases h; exact ⟨x, rfl⟩

theorem onlyErrs_optional (c : Bool) {p : EStateM Fail (List UInt8) (List UInt8)} (h : OnlyErrs p) :
    OnlyErrs (optional c p) := by
  cases c with
  | true => exact h
  | false => exact OnlyErrs.pure _

theorem onlyErrs_readExtra : OnlyErrs readExtra := by
  refine (onlyErrs_readExact 2).bind fun s buf s' h => ?_
  have hl := (readExact_iff.1 h).1
  refine (onlyErrs_index (by omega)).bind fun _ _ _ _ => ?_
  refine (onlyErrs_index (by omega)).bind fun _ _ _ _ => ?_
  exact (onlyErrs_readExact _).bind fun _ _ _ _ => OnlyErrs.pure _

theorem onlyErrs_discardHeader : OnlyErrs discardHeader := by
  refine (onlyErrs_readExact 10).bind fun s buf s' h => ?_
  have hl := (readExact_iff.1 h).1
  refine (onlyErrs_index (by omega)).bind fun _ _ _ _ => ?_
  refine (onlyErrs_index (by omega)).bind fun _ _ _ _ => ?_
  refine (onlyErrs_ensure _ _).bind fun _ _ _ _ => ?_
  refine (onlyErrs_index (by omega)).bind fun _ _ _ _ => ?_
  refine (onlyErrs_ensure _ _).bind fun _ _ _ _ => ?_
  refine (onlyErrs_index (by omega)).bind fun _ _ _ _ => ?_
  refine (onlyErrs_ensure _ _).bind fun _ _ _ _ => ?_
  refine (onlyErrs_optional _ onlyErrs_readExtra).bind fun _ _ _ _ => ?_
  refine (onlyErrs_optional _ onlyErrs_readNull).bind fun _ _ _ _ => ?_
  refine (onlyErrs_optional _ onlyErrs_readNull).bind fun _ _ _ _ => ?_
  exact (onlyErrs_optional _ (onlyErrs_readExact 2)).bind fun _ _ _ _ => OnlyErrs.pure _

end Gzip

/-- Everything else is refused, with an error and not a panic. -/
theorem C57_others_refused (input : List UInt8)
    (h : ¬ ∃ (hd : GzHeader) (rest : List UInt8), hd.Valid ∧ input = hd.bytes ++ rest) :
    ∃ e s, Gzip.discardHeader input = .error (.err e) s := by
  cases hr : Gzip.discardHeader input with
  | error e s =>
    obtain ⟨x, rfl⟩ := Gzip.onlyErrs_discardHeader _ _ _ hr
    exact ⟨x, s, rfl⟩
  | ok out rest =>
    obtain ⟨h1, hd, h2, h3⟩ := C56_header input out rest hr
    exact absurd ⟨hd, rest, h2, by rw [h1, h3]⟩ h

/-- A reserved flag. -/
example : Gzip.discardHeader [0x1f, 0x8b, 8, 32, 0, 0, 0, 0, 0, 0] =
    .error (.err .gzipFlags) [] := by decide

end Rezip
