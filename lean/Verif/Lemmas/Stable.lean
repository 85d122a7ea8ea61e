import Verif.Lemmas.BitProg
import Verif.Lemmas.Monad
import Verif.Model.Parse
import Verif.Spec.Iter

/-! What was found out about an input without reaching its end does not change when more bytes follow. -/

namespace Rezip

open Spec

namespace BitReader

/-- A reader with more bytes behind it. -/
def ext (r : BitReader) (more : List UInt8) : BitReader := { r with inner := r.inner ++ more }

end BitReader

namespace Parse

open BitReader

/-- Results with more bytes behind. -/
def Same {α : Type} (more : List UInt8) (x y : EStateM.Result Fail BitReader α) : Prop :=
  match x with
  | .ok a r => y = .ok a (r.ext more)
  | .error e r => e = .err .eof ∨ e = .diverge ∨ y = .error e (r.ext more)

/-- A function that gives the same with more bytes behind, unless it meets the end. -/
def Stable {α : Type} (p : EStateM Fail BitReader α) : Prop :=
  ∀ r more, Same more (p r) (p (r.ext more))

variable {α β : Type}

theorem Stable.pure (a : α) : Stable (pure a : EStateM Fail BitReader α) := fun _ _ => rfl

theorem Stable.lift (x : Except Fail α) : Stable (liftE x : EStateM Fail BitReader α) := by
  intro r more
  cases x with
  | ok a => exact rfl
  | error e => exact .inr (.inr rfl)

theorem Same.bind {more : List UInt8} {x y : EStateM.Result Fail BitReader α} (h : Same more x y)
    {p q : EStateM Fail BitReader α} {f g : α → EStateM Fail BitReader β} {r s : BitReader}
    (hp : p r = x) (hq : q s = y) (hf : ∀ a r, Same more (f a r) (g a (r.ext more))) :
    Same more ((p >>= f) r) ((q >>= g) s) := by
  cases x with
  | ok a r' =>
    have h : y = .ok a (r'.ext more) := h
    rw [ES.bind_ok hp, ES.bind_ok (hq.trans h)]
    exact hf a r'
  | error e r' =>
    rw [ES.bind_err hp]
    rcases h with h | h | h
    · exact .inl h
    · exact .inr (.inl h)
    · rw [ES.bind_err (hq.trans h)]
      exact .inr (.inr rfl)

theorem Stable.bind {p : EStateM Fail BitReader α} {f : α → EStateM Fail BitReader β} (hp : Stable p)
    (hf : ∀ a, Stable (f a)) : Stable (p >>= f) := fun r more =>
  (hp r more).bind rfl rfl fun a r => hf a r more

theorem stable_readBit : Stable readBit := by
  intro r more
  unfold readBit ext
  dsimp only
  by_cases h0 : (r.remainingBits == 0) = true
  · rw [if_pos h0, if_pos h0]
    cases hi : r.inner with
    | nil => exact .inl rfl
    | cons b rest =>
      simp only [readExact, List.cons_append, List.length_cons, Nat.le_add_left, ↓reduceIte, List.take_succ_cons,
        List.take_zero, List.drop_succ_cons, List.drop_zero]
      exact rfl
  · rw [if_neg h0, if_neg h0]
    exact rfl

theorem run_bit (k : Bool → BitProg α) : run (.bit k) = readBit >>= fun b => run (k b) := by
  funext r
  rw [run, ES.bind_apply]
  dsimp only
  cases readBit r <;> rfl

theorem stable_run (p : BitProg α) : Stable (run p) := by
  induction p with
  | done a => exact fun _ _ => rfl
  | fail e => exact fun _ _ => .inr (.inr rfl)
  | bit k ih =>
    rw [run_bit]
    exact stable_readBit.bind ih

/-- Looking at the position. -/
theorem Stable.position {k : Nat → EStateM Fail BitReader α} (hk : ∀ p, Stable (k p)) :
    Stable (do
      let r ← get
      let p ← liftE r.position
      k p) := by
  intro r more
  rw [ES.get_bind, ES.get_bind]
  have e : (r.ext more).position = r.position := rfl
  rw [e]
  exact (Stable.lift r.position).bind hk r more

theorem stable_alignLoop (fuel : Nat) : Stable (alignLoop fuel) := by
  induction fuel with
  | zero => exact fun _ _ => .inr (.inl rfl)
  | succ fuel ih =>
    rw [alignLoop]
    refine Stable.position fun p => ?_
    split
    · exact stable_readBit.bind fun b => (Stable.lift _).bind fun _ => ih
    · exact Stable.pure ()

theorem stable_align : Stable align := stable_alignLoop 9

theorem stable_readExactInner (n : Nat) : Stable (readExactInner n) := by
  intro r more
  unfold readExactInner readExact ext
  dsimp only
  by_cases h : n ≤ r.inner.length
  · have h' : n ≤ (r.inner ++ more).length := by rw [List.length_append]; omega
    rw [if_pos h, if_pos h']
    show _ = _
    dsimp only
    rw [List.take_append_of_le_length h, List.drop_append_of_le_length h]
    rfl
  · rw [if_neg h]
    exact .inl rfl

theorem stable_readAlignedU16 : Stable readAlignedU16 :=
  Stable.position fun _ => (Stable.lift _).bind fun _ => (stable_readExactInner 2).bind fun _ =>
    (Stable.lift _).bind fun _ => (Stable.lift _).bind fun _ => Stable.pure _

theorem stable_readLengthPrefixed : Stable readLengthPrefixed :=
  Stable.position fun _ => (Stable.lift _).bind fun _ => stable_readAlignedU16.bind fun _ =>
    stable_readAlignedU16.bind fun _ => (Stable.lift _).bind fun _ => stable_readExactInner _

theorem run_bind (p : BitProg α) (f : α → BitProg β) (r : BitReader) :
    run (p.bind f) r = (run p >>= fun a => run (f a)) r := by
  induction p generalizing r with
  | done a => rfl
  | fail e => rfl
  | bit k ih =>
    rw [BitProg.bind, run_bit, run_bit, ES.bind_assoc_apply, ES.bind_apply, ES.bind_apply]
    cases readBit r with
    | error e r' => rfl
    | ok b r' => exact ih b r'

/-- More fuel does not matter once there was enough. -/
theorem scanLoop_fuel (lt : CodeTree) (dt : Option CodeTree) (f k : Nat) : ∀ (acc : List Code) (r : BitReader),
    (∀ s, run (scanLoop lt dt f acc) r ≠ .error .diverge s) →
    run (scanLoop lt dt (f + k) acc) r = run (scanLoop lt dt f acc) r := by
  induction f with
  | zero =>
    intro acc r h
    exact absurd rfl (h r)
  | succ f ih =>
    intro acc r h
    have e : f + 1 + k = (f + k) + 1 := by omega
    rw [e]
    rw [scanLoop] at h
    rw [scanLoop, scanLoop]
    rw [BitProg.bind_eq, run_bind] at h
    rw [BitProg.bind_eq, run_bind, BitProg.bind_eq, run_bind]
    cases hs : run (scanCode lt dt) r with
    | error e r' => rw [ES.bind_err hs, ES.bind_err hs]
    | ok c r' =>
      rw [ES.bind_ok hs] at h
      rw [ES.bind_ok hs, ES.bind_ok hs]
      cases c with
      | none => rfl
      | some c => exact ih _ _ h

theorem stable_scanHuffmanData (lt : CodeTree) (dt : Option CodeTree) : Stable (scanHuffmanData lt dt) := by
  intro r more
  have h := stable_run (scanLoop lt dt (bitsLeft r + 1) []) r more
  unfold scanHuffmanData
  have e : bitsLeft (r.ext more) + 1 = (bitsLeft r + 1) + 8 * more.length := by
    simp only [bitsLeft, ext, List.length_append]
    omega
  rw [e]
  cases hs : run (scanLoop lt dt (bitsLeft r + 1) []) r with
  | ok a r' =>
    rw [hs] at h
    have h : _ = _ := h
    rw [scanLoop_fuel _ _ _ _ _ _ (by rw [h]; intro s; exact fun h => by cases h)]
    exact h
  | error e r' =>
    rw [hs] at h
    rcases h with h | h | h
    · exact .inl h
    · exact .inr (.inl h)
    · by_cases hd : e = .diverge
      · exact .inr (.inl hd)
      · rw [scanLoop_fuel _ _ _ _ _ _ (by rw [h]; intro s hh; exact hd (by cases hh; rfl))]
        exact .inr (.inr h)

theorem stable_readBlock : Stable readBlock := by
  refine (stable_run _).bind fun kind => ?_
  split
  · exact stable_align.bind fun _ => stable_readLengthPrefixed.bind fun _ => Stable.pure _
  · generalize Huffman.fixedLengthTree = a
    generalize Huffman.fixedDistanceTree = b
    exact (Stable.lift a).bind fun _ => (Stable.lift b).bind fun _ =>
      (stable_scanHuffmanData _ _).bind fun _ => Stable.pure _
  · exact (stable_run _).bind fun _ => (stable_scanHuffmanData _ _).bind fun _ => Stable.pure _
  · exact Stable.lift _
  · exact Stable.lift _

/-- An iterator with more bytes behind it. -/
def BlockIter.ext (it : BlockIter) (more : List UInt8) : BlockIter := { it with inner := it.inner.ext more }

/-- The iterator gives the same item, unless it meets the end. -/
theorem next_ext (it : BlockIter) (more : List UInt8) (h1 : it.next.1 ≠ some (.error (.err .eof)))
    (h2 : it.next.1 ≠ some (.error .diverge)) :
    (it.ext more).next = (it.next.1, it.next.2.ext more) := by
  obtain ⟨r, ended⟩ := it
  unfold BlockIter.next at h1 h2 ⊢
  unfold BlockIter.ext
  dsimp only at h1 h2 ⊢
  cases ended with
  | true =>
    simp only [↓reduceIte] at h1 h2 ⊢
    have h := stable_alignLoop 9 r more
    have e : align = alignLoop 9 := rfl
    rw [e] at h1 h2 ⊢
    cases ha : alignLoop 9 r with
    | ok a r' =>
      rw [ha] at h
      have h : _ = _ := h
      rw [h]
    | error e r' =>
      rw [ha] at h h1 h2
      rcases h with h | h | h
      · exact absurd (by rw [h]) h1
      · exact absurd (by rw [h]) h2
      · rw [h]
  | false =>
    simp only [Bool.false_eq_true, ↓reduceIte] at h1 h2 ⊢
    have h := stable_readBit r more
    cases ha : readBit r with
    | error e r' =>
      rw [ha] at h h1 h2
      rcases h with h | h | h
      · exact absurd (by rw [h]) h1
      · exact absurd (by rw [h]) h2
      · rw [h]
    | ok b r' =>
      rw [ha] at h h1 h2
      have h : _ = _ := h
      rw [h]
      dsimp only at h1 h2 ⊢
      have h := stable_readBlock r' more
      cases hb : readBlock r' with
      | ok a r'' =>
        rw [hb] at h
        have h : _ = _ := h
        rw [h]
      | error e r'' =>
        rw [hb] at h h1 h2
        rcases h with h | h | h
        · exact absurd (by rw [h]) h1
        · exact absurd (by rw [h]) h2
        · rw [h]

end Parse

end Rezip
