import Verif.Spec.Sticky
import Verif.Props.Finish

/-!
# C04, C72: exactly what a bit vector does under pushes and pops
-/

namespace Rezip

open Spec

theorem getD_left {α : Type} (l m : List α) (i : Nat) (d : α) (h : i < l.length) :
    (l ++ m).getD i d = l.getD i d := by
  simp [List.getD_eq_getElem?_getD, List.getElem?_append_left h]

theorem getD_right {α : Type} (l m : List α) (i : Nat) (d : α) (h : l.length ≤ i) :
    (l ++ m).getD i d = m.getD (i - l.length) d := by
  simp [List.getD_eq_getElem?_getD, List.getElem?_append_right h]

theorem getD_inside {α : Type} (l : List α) (d : α) {i : Nat} (h : i < l.length) : l.getD i d = l[i] := by
  simp [List.getD_eq_getElem?_getD, h]

theorem getD_outside {α : Type} (l : List α) (d : α) {i : Nat} (h : l.length ≤ i) : l.getD i d = d := by
  simp [List.getD_eq_getElem?_getD, h]

theorem bitsVal_testBit (bs : List Bool) (i : Nat) : (bitsVal bs).testBit i = bs.getD i false := by
  induction bs generalizing i with
  | nil => simp [bitsVal]
  | cons b bs ih =>
    cases i with
    | zero => cases b <;> simp [bitsVal, Nat.testBit_zero] <;> omega
    | succ i =>
      rw [Nat.testBit_succ, List.getD_cons_succ, ← ih]
      congr 1
      cases b <;> simp [bitsVal] <;> omega

theorem byteOf_or (c js : List Bool) (j : Bool) (h : c.length + 1 + js.length ≤ 8) :
    byteOf (c ++ j :: js) ||| ((1 : UInt8) <<< c.length.toUInt8) = byteOf (c ++ true :: js) := by
  apply UInt8.toNat_inj.1
  have hs : ((1 : UInt8) <<< c.length.toUInt8).toNat = 2 ^ c.length := by
    have : ∀ k < 8, ((1 : UInt8) <<< k.toUInt8).toNat = 2 ^ k := by decide +kernel
    exact this _ (by omega)
  rw [UInt8.toNat_or, byteOf_toNat (by simp; omega), byteOf_toNat (by simp; omega), hs]
  apply Nat.eq_of_testBit_eq
  intro i
  rw [Nat.testBit_or, bitsVal_testBit, bitsVal_testBit, Nat.testBit_two_pow]
  rcases Nat.lt_trichotomy i c.length with hi | hi | hi
  · rw [getD_left _ _ _ _ hi, getD_left _ _ _ _ hi]
    simp; omega
  · subst hi
    rw [getD_right _ _ _ _ (Nat.le_refl _), getD_right _ _ _ _ (Nat.le_refl _)]
    simp
  · obtain ⟨k, rfl⟩ : ∃ k, i = c.length + (k + 1) := ⟨i - c.length - 1, by omega⟩
    rw [getD_right _ _ _ _ (by omega), getD_right _ _ _ _ (by omega)]
    simp

theorem VecInv.push {v : BitVector} {st left : List Bool} (h : VecInv v st left) (b : Bool) :
    ∃ v', v.push b = .ok v' ∧ VecInv v' (st ++ [b || left.headD false]) left.tail := by
  cases left with
  | nil =>
    refine ⟨_, h.push_clean (by simp) b, ?_⟩
    simp only [List.headD_nil, Bool.or_false, List.tail_nil]
    exact ⟨by simp [BitVector.ofBits], rfl, by simp⟩
  | cons j js =>
    have hj := h.junk_len
    simp only [List.length_cons, padLen] at hj
    obtain ⟨a, c, hst, ha, hc⟩ := BitWriter.split8 st
    subst hst
    have hl : (a ++ c).length = a.length + c.length := List.length_append
    have hcm : (a ++ c).length % 8 = c.length := by omega
    have hcd : (a ++ c).length / 8 = a.length / 8 := by omega
    have hp : ∀ x : Bool, packBits (a ++ c ++ x :: js) = packBits a ++ [byteOf (c ++ x :: js)] := by
      intro x
      rw [List.append_assoc, packBits_append ha,
        packBits_short (a := c ++ x :: js) (by simp; omega) (by simp)]
    have hpl : (packBits a).length = a.length / 8 := by rw [packBits_length]; omega
    have hb : v.bytes = packBits a ++ [byteOf (c ++ j :: js)] := by rw [h.bytes, hp]
    have hlt : a.length / 8 < v.bytes.length := by rw [hb]; simp; omega
    unfold BitVector.push
    dsimp only
    rw [h.len, hcd, if_neg (by omega), hcm]
    cases b with
    | false =>
      refine ⟨_, rfl, ?_⟩
      simp only [Bool.false_or, List.headD_cons, List.tail_cons]
      refine ⟨?_, by simp; omega, by simp [padLen]; omega⟩
      dsimp only
      rw [h.bytes]; simp
    | true =>
      simp only [Ex.pure_eq, Ex.ok_bind, if_true]
      rw [index_ok hlt, Ex.ok_bind, indexSet_ok hlt, Ex.ok_bind]
      refine ⟨_, rfl, ?_⟩
      simp only [Bool.true_or, List.tail_cons]
      refine ⟨?_, by simp; omega, by simp [padLen]; omega⟩
      dsimp only
      rw [List.append_assoc, List.singleton_append, hp, ← byteOf_or c js j (by omega)]
      simp only [hb, ← hpl]
      simp

theorem VecInv.left_nil {v : BitVector} {left : List Bool} (h : VecInv v [] left) : left = [] := by
  have := h.junk_len; simp [padLen] at this; exact this

theorem runVec_sticky (ops : List VecOp) (v : BitVector) (st left : List Bool) (h : VecInv v st left) :
    ∃ v', runVec ops v = .ok ((sticky ops st left).1, v') ∧
      VecInv v' (sticky ops st left).2.1 (sticky ops st left).2.2 := by
  induction ops generalizing v st left with
  | nil => exact ⟨v, rfl, h⟩
  | cons op ops ih =>
    cases op with
    | push b =>
      obtain ⟨v1, hp, hv⟩ := h.push b
      obtain ⟨v', h1, h2⟩ := ih v1 _ _ hv
      refine ⟨v', ?_, h2⟩
      rw [runVec, hp, Ex.ok_bind, h1]
      rfl
    | pop =>
      rcases List.eq_nil_or_concat st with rfl | ⟨st', b, rfl⟩
      · have h0 : v.len = 0 := h.len
        have hp : v.pop = .ok (none, v) := by simp [BitVector.pop, h0]
        rw [h.left_nil] at h
        obtain ⟨v', h1, h2⟩ := ih v [] [] h
        refine ⟨v', ?_, h2⟩
        simp only [runVec, hp, Ex.ok_bind, h1, Ex.pure_eq]
        rfl
      · rw [List.concat_eq_append] at *
        obtain ⟨v₁, hp, hinv⟩ := h.pop
        obtain ⟨v', h1, h2⟩ := ih v₁ st' _ hinv
        have hs : sticky (VecOp.pop :: ops) (st' ++ [b]) left =
            (some b :: (sticky ops st' (if st'.length % 8 = 0 then [] else b :: left)).1,
              (sticky ops st' (if st'.length % 8 = 0 then [] else b :: left)).2) := by
          simp [sticky]
        rw [hs]
        refine ⟨v', ?_, h2⟩
        simp only [runVec, hp, Ex.ok_bind, h1, Ex.pure_eq]

theorem VecInv.new : VecInv BitVector.new [] [] := ⟨by simp [BitVector.new, packBits_nil], rfl, by simp⟩

/-- C04. What every history of pushes and pops does to a bit vector, exactly. -/
theorem C04_exact (ops : List VecOp) :
    ∃ v, runVec ops BitVector.new = .ok ((sticky ops [] []).1, v) ∧
      v.toBits = .ok (sticky ops [] []).2.1 ∧ v.len = (sticky ops [] []).2.1.length := by
  obtain ⟨v, h1, h2⟩ := runVec_sticky ops BitVector.new [] [] .new
  exact ⟨v, h1, h2.toBits, h2.len⟩

theorem sticky_differs (ops : List VecOp) (st st' left : List Bool) (hl : st.length = st'.length)
    (hne : st ≠ st') :
    ((sticky ops st left).1, (sticky ops st left).2.1) ≠ runStack ops st' := by
  induction ops generalizing st st' left with
  | nil => intro h; exact hne (congrArg Prod.snd h)
  | cons op ops ih =>
    cases op with
    | push b =>
      rw [sticky, runStack]
      refine ih _ _ _ (by simp [hl]) ?_
      intro h
      exact hne (List.append_inj h hl).1
    | pop =>
      rcases List.eq_nil_or_concat st with rfl | ⟨s, b, rfl⟩
      · exact absurd (List.length_eq_zero_iff.1 hl.symm).symm hne
      · rcases List.eq_nil_or_concat st' with rfl | ⟨s', b', rfl⟩
        · simp at hl
        · simp only [List.concat_eq_append] at *
          rw [sticky, runStack]
          simp only [List.getLast?_concat, List.dropLast_concat]
          intro h
          simp only [Prod.mk.injEq, List.cons.injEq, Option.some.injEq] at h
          obtain ⟨⟨rfl, h1⟩, h2⟩ := h
          refine ih s s' _ (by simpa using hl) (fun h => hne (by rw [h])) (Prod.ext h1 h2)

theorem sticky_iff (ops : List VecOp) (st left : List Bool) :
    ((sticky ops st left).1, (sticky ops st left).2.1) = runStack ops st ↔ NoSmear ops st left := by
  induction ops generalizing st left with
  | nil => exact ⟨fun _ => trivial, fun _ => rfl⟩
  | cons op ops ih =>
    cases op with
    | push b =>
      rw [sticky, runStack, NoSmear]
      by_cases hs : left.headD false = true → b = true
      · have : (b || left.headD false) = b := by
          cases b <;> cases hh : left.headD false <;> simp_all
        rw [this, ih]
        exact ⟨fun h => ⟨hs, h⟩, fun h => h.2⟩
      · refine ⟨fun h => absurd h (sticky_differs _ _ _ _ (by simp) ?_), fun h => absurd h.1 hs⟩
        intro h
        have := (List.append_inj h rfl).2
        simp only [List.cons.injEq, and_true] at this
        apply hs
        intro hh
        rw [hh] at this
        cases b <;> simp_all
    | pop =>
      rcases List.eq_nil_or_concat st with rfl | ⟨s, b, rfl⟩
      · have := ih [] []
        simp only [sticky, runStack, NoSmear, List.getLast?_nil, List.dropLast_nil] at this ⊢
        rw [← this]
        simp [Prod.ext_iff]
      · simp only [List.concat_eq_append, sticky, runStack, NoSmear, List.getLast?_concat,
          List.dropLast_concat]
        rw [← ih]
        simp [Prod.ext_iff]

/-- C04. A history gives what a stack gives exactly if it never pushes a 0 where a popped 1 was left behind. -/
theorem C04_iff (ops : List VecOp) :
    (∃ v, runVec ops BitVector.new = .ok ((runStack ops []).1, v) ∧ v.toBits = .ok (runStack ops []).2) ↔
      NoSmear ops [] [] := by
  rw [← sticky_iff]
  obtain ⟨v, h1, h2, _⟩ := C04_exact ops
  constructor
  · rintro ⟨v', h3, h4⟩
    rw [h1] at h3
    obtain ⟨e1, rfl⟩ := Prod.mk.inj (Except.ok.inj h3)
    rw [h2] at h4
    exact Prod.ext e1 (Except.ok.inj h4)
  · intro h
    rw [← h]
    exact ⟨v, h1, h2⟩

/-- C72. Two vectors compare equal exactly if they hold the same bits and have the same bits left behind. -/
theorem C72_exact (ops ops' : List VecOp) :
    ∃ v v', runVec ops BitVector.new = .ok ((sticky ops [] []).1, v) ∧
      runVec ops' BitVector.new = .ok ((sticky ops' [] []).1, v') ∧
      (v = v' ↔ (sticky ops [] []).2.1 = (sticky ops' [] []).2.1 ∧
        ∀ i, (sticky ops [] []).2.2.getD i false = (sticky ops' [] []).2.2.getD i false) := by
  obtain ⟨v, h1, h2⟩ := runVec_sticky ops BitVector.new [] [] .new
  obtain ⟨v', h1', h2'⟩ := runVec_sticky ops' BitVector.new [] [] .new
  refine ⟨v, v', h1, h1', ?_⟩
  generalize (sticky ops [] []).2.1 = st at *
  generalize (sticky ops [] []).2.2 = l at *
  generalize (sticky ops' [] []).2.1 = st' at *
  generalize (sticky ops' [] []).2.2 = l' at *
  have pad : ∀ (s m : List Bool) (i : Nat), (padded (s ++ m)).getD (s.length + i) false = m.getD i false := by
    intro s m i
    rw [padded, List.append_assoc, getD_right _ _ _ _ (by omega), Nat.add_sub_cancel_left]
    by_cases hi : i < m.length
    · rw [getD_left _ _ _ _ hi]
    · rw [getD_right _ _ _ _ (by omega), getD_outside m _ (by omega)]
      by_cases hk : i - m.length < (List.replicate (padLen (s ++ m).length) false).length
      · rw [getD_inside _ _ hk, List.getElem_replicate]
      · rw [getD_outside _ _ (by omega)]
  have hlen : ∀ (s m : List Bool), m.length ≤ padLen s.length →
      (padded (s ++ m)).length = s.length + padLen s.length := by
    intro s m hm
    simp only [padded, padLen, List.length_append, List.length_replicate] at hm ⊢
    omega
  constructor
  · intro h
    subst h
    have e : st = st' := Except.ok.inj (h2.toBits.symm.trans h2'.toBits)
    subst e
    refine ⟨rfl, fun i => ?_⟩
    rw [← pad st l, ← pad st l', ← bytesBits_packBits, ← bytesBits_packBits, ← h2.bytes, ← h2'.bytes]
  · rintro ⟨rfl, h⟩
    have : padded (st ++ l) = padded (st ++ l') := by
      apply List.ext_getElem
      · rw [hlen st l h2.junk_len, hlen st l' h2'.junk_len]
      · intro i hi hi'
        by_cases hs : i < st.length
        · simp only [padded, List.append_assoc]
          rw [List.getElem_append_left hs, List.getElem_append_left hs]
        · obtain ⟨k, rfl⟩ : ∃ k, i = st.length + k := ⟨i - st.length, by omega⟩
          rw [← getD_inside _ false hi, ← getD_inside _ false hi', pad, pad, h]
    have hb : v.bytes = v'.bytes := by
      rw [h2.bytes, h2'.bytes, ← packBits_padded (st ++ l), this, packBits_padded]
    cases v; cases v'
    simp only [BitVector.mk.injEq]
    exact ⟨hb, h2.len.trans h2'.len.symm⟩

/-- A history that smears: it reads back a 1 where a 0 was pushed. -/
example : ¬ NoSmear [.push true, .push true, .pop, .push false] [] [] ∧
    sticky [.push true, .push true, .pop, .push false] [] [] = ([some true], [true, true], []) := by
  simp [NoSmear, sticky]

/-- One that pushes onto a byte with bits left behind but does not smear, which `C04_bitvec_stack_partial` does
not cover. -/
example : NoSmear [.push true, .push true, .pop, .push true, .push false] [] [] ∧
    ¬ Clean [.push true, .push true, .pop, .push true, .push false] [] false := by
  simp [NoSmear, Clean]

end Rezip
