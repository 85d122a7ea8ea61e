import Verif.Lemmas.BitVector
import Verif.Spec.Source

/-! What a generic bit-reading function does on a list of bits, and that every bit source runs it
that way. -/

namespace Rezip

open Spec

namespace BitProg

variable {α β γ : Type}

@[simp] theorem bind_eq (p : BitProg α) (f : α → BitProg β) : (p >>= f) = p.bind f := rfl

@[simp] theorem pure_eq (a : α) : (pure a : BitProg α) = .done a := rfl

theorem bind_assoc (p : BitProg α) (f : α → BitProg β) (g : β → BitProg γ) :
    (p.bind f).bind g = p.bind fun a => (f a).bind g := by
  induction p with
  | done a => rfl
  | fail e => rfl
  | bit k ih => simp only [BitProg.bind, ih]

@[simp] theorem exec_done (a : α) (bs : List Bool) : (BitProg.done a).exec bs = .ok a bs := rfl

@[simp] theorem exec_fail (e : Fail) (bs : List Bool) :
    (BitProg.fail e : BitProg α).exec bs = .fail e := rfl

@[simp] theorem exec_bit_cons (k : Bool → BitProg α) (b : Bool) (bs : List Bool) :
    (BitProg.bit k).exec (b :: bs) = (k b).exec bs := rfl

@[simp] theorem exec_bit_nil (k : Bool → BitProg α) : (BitProg.bit k).exec [] = .starved := rfl

theorem exec_bind (p : BitProg α) (f : α → BitProg β) (bs : List Bool) :
    (p.bind f).exec bs = match p.exec bs with
      | .ok a rest => (f a).exec rest
      | .fail e => .fail e
      | .starved => .starved := by
  induction p generalizing bs with
  | done a => rfl
  | fail e => rfl
  | bit k ih =>
    cases bs with
    | nil => rfl
    | cons b bs => simp only [BitProg.bind, exec_bit_cons, ih]

theorem exec_bind_ok {p : BitProg α} {f : α → BitProg β} {bs rest : List Bool} {a : α}
    (h : p.exec bs = .ok a rest) : (p.bind f).exec bs = (f a).exec rest := by
  rw [exec_bind, h]

theorem exec_bind_eq_ok {p : BitProg α} {f : α → BitProg β} {bs rest' : List Bool} {b : β} :
    (p.bind f).exec bs = .ok b rest' ↔
      ∃ a rest, p.exec bs = .ok a rest ∧ (f a).exec rest = .ok b rest' := by
  rw [exec_bind]
  cases p.exec bs <;> simp [and_assoc]

theorem exec_bind_eq_fail {p : BitProg α} {f : α → BitProg β} {bs : List Bool} {e : Fail} :
    (p.bind f).exec bs = .fail e ↔
      p.exec bs = .fail e ∨ ∃ a rest, p.exec bs = .ok a rest ∧ (f a).exec rest = .fail e := by
  rw [exec_bind]
  cases p.exec bs <;> simp [and_assoc]

@[simp] theorem exec_ofExcept_ok (a : α) (bs : List Bool) :
    (ofExcept (.ok a)).exec bs = .ok a bs := rfl

@[simp] theorem exec_ofExcept_error (e : Fail) (bs : List Bool) :
    (ofExcept (.error e) : BitProg α).exec bs = .fail e := rfl

theorem exec_ofExcept_eq_ok {x : Except Fail α} {bs rest : List Bool} {a : α} :
    (ofExcept x).exec bs = .ok a rest ↔ x = .ok a ∧ bs = rest := by
  cases x <;> simp

theorem exec_ofExcept_eq_fail {x : Except Fail α} {bs : List Bool} {e : Fail} :
    (ofExcept x).exec bs = .fail e ↔ x = .error e := by
  cases x <;> simp

/-- A program cannot see the bits it does not read. -/
theorem exec_append {p : BitProg α} {bs rest : List Bool} {a : α} (h : p.exec bs = .ok a rest)
    (t : List Bool) : p.exec (bs ++ t) = .ok a (rest ++ t) := by
  induction p generalizing bs with
  | done x =>
    simp only [exec_done, ExecRes.ok.injEq] at h ⊢
    exact ⟨h.1, by rw [h.2]⟩
  | fail e => simp at h
  | bit k ih =>
    cases bs with
    | nil => simp at h
    | cons b bs => exact ih b h

theorem exec_fail_append {p : BitProg α} {bs : List Bool} {e : Fail} (h : p.exec bs = .fail e)
    (t : List Bool) : p.exec (bs ++ t) = .fail e := by
  induction p generalizing bs with
  | done x => simp at h
  | fail e => exact h
  | bit k ih =>
    cases bs with
    | nil => simp at h
    | cons b bs => exact ih b h

/-- On success a prefix of the bits was consumed. -/
theorem exec_ok_split {p : BitProg α} {bs rest : List Bool} {a : α} (h : p.exec bs = .ok a rest) :
    ∃ used, bs = used ++ rest ∧ p.exec used = .ok a [] := by
  induction p generalizing bs with
  | done x =>
    simp only [exec_done, ExecRes.ok.injEq] at h
    exact ⟨[], by simp [h.2], by simp [h.1]⟩
  | fail e => simp at h
  | bit k ih =>
    cases bs with
    | nil => simp at h
    | cons b bs =>
      obtain ⟨used, h1, h2⟩ := ih b h
      exact ⟨b :: used, by simp [h1], h2⟩

theorem exec_ok_suffix {p : BitProg α} {bs rest : List Bool} {a : α} (h : p.exec bs = .ok a rest) :
    rest.length ≤ bs.length := by
  obtain ⟨used, rfl, _⟩ := exec_ok_split h
  simp

/-- Cutting off bits that would have been consumed starves the program. -/
theorem exec_starved_of_append {p : BitProg α} {pre cut : List Bool} {a : α}
    (h : p.exec (pre ++ cut) = .ok a []) (hc : cut ≠ []) : p.exec pre = .starved := by
  cases hp : p.exec pre with
  | starved => rfl
  | fail e => rw [exec_fail_append hp] at h; cases h
  | ok x rest =>
    rw [exec_append hp] at h
    simp only [ExecRes.ok.injEq, List.append_eq_nil_iff] at h
    exact absurd h.2.2 hc

theorem exec_readPartLoop (i n res : Nat) (bs t : List Bool) (hn : bs.length = n)
    (hr : res < 2 ^ i) :
    (readPartLoop i n res).exec (bs ++ t) = .ok (res + 2 ^ i * bitsVal bs) t := by
  induction n generalizing i res bs with
  | zero =>
    have : bs = [] := List.length_eq_zero_iff.1 hn
    subst this
    simp [readPartLoop, bitsVal]
  | succ n ih =>
    cases bs with
    | nil => simp at hn
    | cons b bs =>
      have h2 : (if b then res ||| (1 <<< i) else res) = res + 2 ^ i * b.toNat := by
        have := Nat.two_pow_add_eq_or_of_lt hr 1
        cases b
        · simp
        · simp only [↓reduceIte, Nat.shiftLeft_eq, Nat.one_mul, Bool.toNat_true, Nat.mul_one]
          rw [Nat.or_comm, ← Nat.mul_one (2 ^ i), ← this, Nat.mul_one, Nat.add_comm]
      simp only [readPartLoop, List.cons_append, exec_bit_cons, h2]
      rw [ih (i + 1) _ bs (by simpa using hn)]
      · rw [bitsVal, Nat.pow_succ, Nat.mul_add, Nat.mul_assoc, Nat.add_assoc]
      · rw [Nat.pow_succ]; cases b <;> simp <;> omega

theorem exec_readPart {n : Nat} (hn : n ≤ 16) (bs t : List Bool) (h : bs.length = n) :
    (readPart n).exec (bs ++ t) = .ok (bitsVal bs) t := by
  simp only [readPart, hn, ↓reduceIte]
  rw [exec_readPartLoop 0 n 0 bs t h (by simp)]
  simp

theorem exec_readPart_lsb {n v : Nat} (hn : n ≤ 16) (hv : v < 2 ^ n) (t : List Bool) :
    (readPart n).exec (lsbBits n v ++ t) = .ok v t := by
  rw [exec_readPart hn _ _ (by simp), bitsVal_lsbBits, Nat.mod_eq_of_lt hv]

theorem exec_readPartLoop_short (i n res : Nat) (bs : List Bool) (hn : bs.length < n) :
    (readPartLoop i n res).exec bs = .starved := by
  induction n generalizing i res bs with
  | zero => omega
  | succ n ih =>
    cases bs with
    | nil => rfl
    | cons b bs => exact ih _ _ _ (by simpa using hn)

theorem exec_readPart_short {n : Nat} (hn : n ≤ 16) {bs : List Bool} (h : bs.length < n) :
    (readPart n).exec bs = .starved := by
  simp only [readPart, hn, ↓reduceIte]
  exact exec_readPartLoop_short 0 n 0 bs h

/-- `read_part` fully characterised. -/
theorem exec_readPart_eq_ok {n : Nat} (hn : n ≤ 16) {bs rest : List Bool} {v : Nat} :
    (readPart n).exec bs = .ok v rest ↔ v < 2 ^ n ∧ bs = lsbBits n v ++ rest := by
  constructor
  · intro h
    by_cases hl : bs.length < n
    · rw [exec_readPart_short hn hl] at h; cases h
    · rw [← List.take_append_drop n bs, exec_readPart hn _ _ (by simp; omega)] at h
      simp only [ExecRes.ok.injEq] at h
      have hlen : (bs.take n).length = n := by simp; omega
      have hlt := bitsVal_lt (bs.take n)
      have hb := lsbBits_bitsVal (bs.take n)
      rw [hlen, h.1] at hlt hb
      refine ⟨hlt, ?_⟩
      rw [hb, ← h.2, List.take_append_drop]
  · rintro ⟨hv, rfl⟩
    exact exec_readPart_lsb hn hv rest

theorem exec_readPart_ne_fail {n : Nat} (hn : n ≤ 16) {bs : List Bool} {e : Fail} :
    (readPart n).exec bs ≠ .fail e := by
  by_cases hl : bs.length < n
  · rw [exec_readPart_short hn hl]; simp
  · rw [← List.take_append_drop n bs, exec_readPart hn _ _ (by simp; omega)]; simp

/-! ### `BitCollector` -/

theorem exec_collect_ok {p : BitProg α} {d used rest : List Bool} {a : α}
    (h : p.exec (used ++ rest) = .ok a rest) :
    (p.collect (BitVector.ofBits d)).exec (used ++ rest) =
      .ok (a, BitVector.ofBits (d ++ used)) rest := by
  induction p generalizing used d with
  | done x =>
    simp only [exec_done, ExecRes.ok.injEq] at h
    obtain ⟨rfl, h⟩ := h
    have h : used = [] := by simpa using h
    subst h
    simp [collect]
  | fail e => simp at h
  | bit k ih =>
    cases used with
    | nil =>
      cases rest with
      | nil => simp at h
      | cons b bs =>
        have := exec_ok_suffix (show (k b).exec bs = .ok a (b :: bs) from h)
        simp only [List.length_cons] at this
        omega
    | cons b used =>
      simp only [List.cons_append, exec_bit_cons, collect, BitVector.push_ofBits] at h ⊢
      rw [ih b h]
      simp

theorem exec_collect_fail {p : BitProg α} {d bs : List Bool} {e : Fail}
    (h : p.exec bs = .fail e) : (p.collect (BitVector.ofBits d)).exec bs = .fail e := by
  induction p generalizing bs d with
  | done x => simp at h
  | fail e => simpa [collect] using h
  | bit k ih =>
    cases bs with
    | nil => simp at h
    | cons b bs =>
      simp only [exec_bit_cons, collect, BitVector.push_ofBits] at h ⊢
      exact ih b h

theorem exec_collect_starved {p : BitProg α} {d bs : List Bool}
    (h : p.exec bs = .starved) : (p.collect (BitVector.ofBits d)).exec bs = .starved := by
  induction p generalizing bs d with
  | done x => simp at h
  | fail e => simp at h
  | bit k ih =>
    cases bs with
    | nil => simp [collect]
    | cons b bs =>
      simp only [exec_bit_cons, collect, BitVector.push_ofBits] at h ⊢
      exact ih b h

/-! ### `StackIterator` -/

theorem runIter_ok {p : BitProg α} {bs rest : List Bool} {a : α} {i : Nat} (hi : i ≤ bs.length)
    (h : p.exec (bs.drop i) = .ok a rest) :
    p.runIter { inner := BitVector.ofBits bs, pos := i } =
      .ok a { inner := BitVector.ofBits bs, pos := bs.length - rest.length } := by
  induction p generalizing i with
  | done x =>
    simp only [exec_done, ExecRes.ok.injEq] at h
    obtain ⟨rfl, rfl⟩ := h
    simp only [runIter, List.length_drop]
    congr 2; omega
  | fail e => simp at h
  | bit k ih =>
    by_cases hlt : i < bs.length
    · simp only [runIter, BitVector.next_ofBits_lt bs i hlt]
      apply ih
      · omega
      · rw [List.drop_eq_getElem_cons hlt] at h; exact h
    · rw [List.drop_of_length_le (by omega)] at h; simp at h

theorem runIter_fail {p : BitProg α} {bs : List Bool} {e : Fail} {i : Nat} (hi : i ≤ bs.length)
    (h : p.exec (bs.drop i) = .fail e) :
    ∃ s, p.runIter { inner := BitVector.ofBits bs, pos := i } = .error e s := by
  induction p generalizing i with
  | done x => simp at h
  | fail e' => simp only [exec_fail, ExecRes.fail.injEq] at h; subst h; exact ⟨_, rfl⟩
  | bit k ih =>
    by_cases hlt : i < bs.length
    · simp only [runIter, BitVector.next_ofBits_lt bs i hlt]
      apply ih
      · omega
      · rw [List.drop_eq_getElem_cons hlt] at h; exact h
    · rw [List.drop_of_length_le (by omega)] at h; simp at h

theorem runIter_starved {p : BitProg α} {bs : List Bool} {i : Nat} (hi : i ≤ bs.length)
    (h : p.exec (bs.drop i) = .starved) :
    ∃ s, p.runIter { inner := BitVector.ofBits bs, pos := i } = .error (.panic .unwrap) s := by
  induction p generalizing i with
  | done x => simp at h
  | fail e' => simp at h
  | bit k ih =>
    by_cases hlt : i < bs.length
    · simp only [runIter, BitVector.next_ofBits_lt bs i hlt]
      apply ih
      · omega
      · rw [List.drop_eq_getElem_cons hlt] at h; exact h
    · have : i = bs.length := by omega
      subst this
      simp only [runIter, BitVector.next_ofBits_end]
      exact ⟨_, rfl⟩

end BitProg

end Rezip
