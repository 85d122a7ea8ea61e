import Verif.Lemmas.Huffman

/-! Dynamic headers: `read_codes` against `HeaderBits`. -/

namespace Rezip

open Spec

namespace Huffman

/-! ### The code length code lengths -/

theorem clOrder_table : ∀ i : Fin 15, (clOrder.drop (4 + i.val)).head? = some (codeLenPos i.val) ∧
    codeLenPos i.val < 19 ∧ codeLenPos i.val ∉ clOrder.drop (4 + i.val + 1) := by decide +kernel

theorem clOrder_drop {i : Nat} (hi : i < 15) :
    clOrder.drop (4 + i) = codeLenPos i :: clOrder.drop (4 + (i + 1)) := by
  have h := (clOrder_table ⟨i, hi⟩).1
  simp only at h
  have hlen : 4 + i < clOrder.length := by simp [clOrder]; omega
  rw [List.head?_drop, List.getElem?_eq_getElem hlen, Option.some.injEq] at h
  rw [List.drop_eq_getElem_cons hlen, h]
  rfl

theorem getD_set_self {xs : List Nat} {p v : Nat} (h : p < xs.length) : (xs.set p v).getD p 0 = v := by
  simp [List.getD, h]

theorem getD_set_ne {xs : List Nat} {p q v : Nat} (h : p ≠ q) :
    (xs.set p v).getD q 0 = xs.getD q 0 := by
  simp [List.getD, List.getElem?_set_ne h]

theorem exec_readCodeLenLens {i n : Nat} (hn : i + n ≤ 15) {lens out : List Nat}
    (hl : lens.length = 19) {bs rest : List Bool} :
    (readCodeLenLens i n lens).exec bs = .ok out rest ↔
      out.length = 19 ∧ (∀ s ∈ (clOrder.drop (4 + i)).take n, out.getD s 0 < 8) ∧
      (∀ s, s ∉ (clOrder.drop (4 + i)).take n → out.getD s 0 = lens.getD s 0) ∧
      bs = ((clOrder.drop (4 + i)).take n).flatMap (fun s => lsbBits 3 (out.getD s 0)) ++ rest := by
  induction n generalizing i lens bs with
  | zero =>
    simp only [readCodeLenLens, BitProg.exec_done, ExecRes.ok.injEq, List.take_zero,
      List.not_mem_nil, false_imp_iff, implies_true, true_and, not_false_eq_true, forall_const,
      List.flatMap_nil, List.nil_append]
    constructor
    · rintro ⟨rfl, rfl⟩; exact ⟨hl, fun _ => rfl, rfl⟩
    · rintro ⟨h1, h2, rfl⟩
      refine ⟨?_, rfl⟩
      apply List.ext_getElem (by omega)
      intro k hk1 hk2
      have := h2 k
      simp only [List.getD, List.getElem?_eq_getElem hk1, List.getElem?_eq_getElem hk2,
        Option.getD_some] at this
      exact this.symm
  | succ n ih =>
    have hi : i < 15 := by omega
    obtain ⟨_, hp, hnot⟩ := clOrder_table ⟨i, hi⟩
    simp only at hp hnot
    have hnot' : codeLenPos i ∉ (clOrder.drop (4 + (i + 1))).take n :=
      fun hm => hnot (List.mem_of_mem_take hm)
    rw [clOrder_drop hi, List.take_succ_cons, List.flatMap_cons]
    simp only [readCodeLenLens, BitProg.bind_eq, BitProg.exec_bind_eq_ok,
      BitProg.exec_readPart_eq_ok (show 3 ≤ 16 by omega), BitProg.exec_ofExcept_eq_ok]
    constructor
    · rintro ⟨v, bs1, ⟨hv, rfl⟩, lens', bs1', ⟨h1, rfl⟩, h2⟩
      rw [indexSet_eq_ok] at h1
      obtain ⟨h1, rfl⟩ := h1
      obtain ⟨a1, a2, a3, rfl⟩ := (ih (by omega) (by simpa using hl)).1 h2
      have hv' : out.getD (codeLenPos i) 0 = v := by
        rw [a3 _ hnot', getD_set_self h1]
      refine ⟨a1, ?_, ?_, by rw [hv', List.append_assoc]⟩
      · intro s hs
        rcases List.mem_cons.1 hs with rfl | hs
        · rw [hv']; simpa using hv
        · exact a2 s hs
      · intro s hs
        simp only [List.mem_cons, not_or] at hs
        rw [a3 s hs.2, getD_set_ne (Ne.symm hs.1)]
    · rintro ⟨a1, a2, a3, rfl⟩
      refine ⟨out.getD (codeLenPos i) 0, _, ⟨a2 _ (by simp), by rw [List.append_assoc]⟩,
        lens.set (codeLenPos i) (out.getD (codeLenPos i) 0), _, ⟨indexSet_ok (by omega), rfl⟩, ?_⟩
      refine (ih (by omega) (by simpa using hl)).2 ⟨a1, fun s hs => a2 s (by simp [hs]), ?_, rfl⟩
      intro s hs
      by_cases hc : s = codeLenPos i
      · subst hc; rw [getD_set_self (by omega)]
      · rw [getD_set_ne (Ne.symm hc)]
        exact a3 s (by simp [hc, hs])

theorem exec_readCodeLenLens_ne_fail {i n : Nat} (hn : i + n ≤ 15) {lens : List Nat}
    (hl : lens.length = 19) {bs : List Bool} {e : Fail} :
    (readCodeLenLens i n lens).exec bs ≠ .fail e := by
  induction n generalizing i lens bs with
  | zero => simp [readCodeLenLens]
  | succ n ih =>
    have hi : i < 15 := by omega
    obtain ⟨_, hp, _⟩ := clOrder_table ⟨i, hi⟩
    simp only at hp
    simp only [readCodeLenLens, BitProg.bind_eq]
    intro h
    rcases BitProg.exec_bind_eq_fail.1 h with h | ⟨v, _, _, h⟩
    · exact BitProg.exec_readPart_ne_fail (by omega) h
    rw [indexSet_ok (by omega), BitProg.exec_bind_ok (BitProg.exec_ofExcept_ok _ _)] at h
    exact ih (by omega) (by simpa using hl) h

/-! ### The run-length coded lengths -/

section loop

variable {cl : List Nat} {t : CodeTree}

theorem loop_lit (ht : CodeTree.IsTree cl t) {L fuel i s : Nat} {rv : Option Nat} {cls : List Nat}
    {c bs : List Bool} (hs : s ≤ 15) (hc : codeOf cl s = some c) (hi : i < cls.length) :
    (codeLensLoop t L (fuel + 1) i rv 0 cls).exec (c ++ bs) =
      if i + 1 ≥ L then .ok (cls.set i s) bs
      else (codeLensLoop t L fuel (i + 1) (some s) 0 (cls.set i s)).exec bs := by
  rw [codeLensLoop.eq_def]
  simp only [gt_iff_lt, Nat.lt_irrefl, if_false, BitProg.bind_eq, BitProg.bind_assoc]
  rw [BitProg.exec_bind_ok (ht.decode hc bs)]
  simp only [hs, if_true, BitProg.bind_assoc]
  rw [indexSet_ok hi, BitProg.exec_bind_ok (BitProg.exec_ofExcept_ok _ _)]
  simp only [BitProg.pure_eq, BitProg.bind]
  split
  · rw [beq_self_eq_true, ensure_true, BitProg.exec_bind_ok (BitProg.exec_ofExcept_ok _ _)]
    rfl
  · rfl

theorem loop_copy (ht : CodeTree.IsTree cl t) {L fuel i p : Nat} {cls : List Nat}
    {c bs : List Bool} (hc : codeOf cl 16 = some c) (hi : i < L) :
    (codeLensLoop t L (fuel + 1) i (some p) 0 cls).exec (c ++ bs) =
      ((BitProg.readPart 2).bind fun n => codeLensLoop t L fuel i (some p) (n + 3) cls).exec bs := by
  rw [codeLensLoop.eq_def]
  simp only [gt_iff_lt, Nat.lt_irrefl, if_false, BitProg.bind_eq, BitProg.bind_assoc]
  rw [BitProg.exec_bind_ok (ht.decode hc bs)]
  simp only [show ¬ 16 ≤ 15 by omega, if_false, beq_self_eq_true, if_true, BitProg.bind_assoc]
  simp only [Option.isSome_some, ensure_true]
  rw [BitProg.exec_bind_ok (BitProg.exec_ofExcept_ok _ _)]
  simp only [BitProg.pure_eq, BitProg.bind, ge_iff_le, Nat.not_le.2 hi, if_false]

theorem loop_copy_none (ht : CodeTree.IsTree cl t) {L fuel i : Nat} {cls : List Nat}
    {c bs : List Bool} (hc : codeOf cl 16 = some c) :
    (codeLensLoop t L (fuel + 1) i none 0 cls).exec (c ++ bs) = .fail (.err .noValueToCopy) := by
  rw [codeLensLoop.eq_def]
  simp only [gt_iff_lt, Nat.lt_irrefl, if_false, BitProg.bind_eq, BitProg.bind_assoc]
  rw [BitProg.exec_bind_ok (ht.decode hc bs)]
  rfl

theorem loop_zeros (ht : CodeTree.IsTree cl t) {L fuel i : Nat} {rv : Option Nat} {cls : List Nat}
    {c bs : List Bool} (hc : codeOf cl 17 = some c) (hi : i < L) :
    (codeLensLoop t L (fuel + 1) i rv 0 cls).exec (c ++ bs) =
      ((BitProg.readPart 3).bind fun n => codeLensLoop t L fuel i (some 0) (n + 3) cls).exec bs := by
  rw [codeLensLoop.eq_def]
  simp only [gt_iff_lt, Nat.lt_irrefl, if_false, BitProg.bind_eq, BitProg.bind_assoc]
  rw [BitProg.exec_bind_ok (ht.decode hc bs)]
  simp only [show ¬ 17 ≤ 15 by omega, if_false, beq_self_eq_true, if_true, BitProg.bind_assoc,
    show (17 == 16) = false from rfl, Bool.false_eq_true]
  simp only [BitProg.pure_eq, BitProg.bind, ge_iff_le, Nat.not_le.2 hi, if_false]

theorem loop_manyZeros (ht : CodeTree.IsTree cl t) {L fuel i : Nat} {rv : Option Nat}
    {cls : List Nat} {c bs : List Bool} (hc : codeOf cl 18 = some c) (hi : i < L) :
    (codeLensLoop t L (fuel + 1) i rv 0 cls).exec (c ++ bs) =
      ((BitProg.readPart 7).bind fun n => codeLensLoop t L fuel i (some 0) (n + 11) cls).exec bs := by
  rw [codeLensLoop.eq_def]
  simp only [gt_iff_lt, Nat.lt_irrefl, if_false, BitProg.bind_eq, BitProg.bind_assoc]
  rw [BitProg.exec_bind_ok (ht.decode hc bs)]
  simp only [show ¬ 18 ≤ 15 by omega, if_false, beq_self_eq_true, if_true, BitProg.bind_assoc,
    show (18 == 16) = false from rfl, show (18 == 17) = false from rfl, Bool.false_eq_true]
  simp only [BitProg.pure_eq, BitProg.bind, ge_iff_le, Nat.not_le.2 hi, if_false]

/-- A pending run. -/
theorem loop_run {L k fuel i v : Nat} {dn : List Nat} {bs : List Bool} (hk : 0 < k)
    (hf : k ≤ fuel) (hd : dn.length = i) (hi : i < L) :
    (codeLensLoop t L fuel i (some v) k (dn ++ List.replicate (L - i) 0)).exec bs =
      if k < L - i then
        (codeLensLoop t L (fuel - k) (i + k) (some v) 0
          (dn ++ List.replicate k v ++ List.replicate (L - (i + k)) 0)).exec bs
      else if k = L - i then .ok (dn ++ List.replicate k v) bs
      else .fail (.err .runExceeds) := by
  induction k generalizing fuel i dn with
  | zero => omega
  | succ k ih =>
    obtain ⟨fuel, rfl⟩ : ∃ f, fuel = f + 1 := ⟨fuel - 1, by omega⟩
    rw [codeLensLoop.eq_def]
    simp only [gt_iff_lt, Nat.zero_lt_succ, if_true, BitProg.bind_eq, BitProg.bind_assoc]
    have hset : (dn ++ List.replicate (L - i) 0).set i v =
        (dn ++ [v]) ++ List.replicate (L - (i + 1)) 0 := by
      rw [List.set_append_right _ _ (by omega), hd, Nat.sub_self]
      obtain ⟨m, hm⟩ : ∃ m, L - i = m + 1 := ⟨L - i - 1, by omega⟩
      rw [hm, List.replicate_succ, List.set_cons_zero, show L - (i + 1) = m by omega]
      simp
    rw [indexSet_ok (by simp; omega), hset, BitProg.exec_bind_ok (BitProg.exec_ofExcept_ok _ _)]
    simp only [BitProg.pure_eq, BitProg.bind, Nat.add_sub_cancel]
    by_cases hend : i + 1 ≥ L
    · rw [if_pos hend]
      have hLi : L - i = 1 := by omega
      by_cases hk0 : k = 0
      · subst hk0
        rw [beq_self_eq_true, ensure_true, BitProg.exec_bind_ok (BitProg.exec_ofExcept_ok _ _), if_neg (by omega),
          if_pos (by omega), show L - (i + 1) = 0 by omega]
        simp
      · rw [if_neg (by omega), if_neg (by omega)]
        have : (k == 0) = false := by simpa using hk0
        rw [this]
        rfl
    · rw [if_neg hend]
      by_cases hk0 : k = 0
      · subst hk0
        rw [if_pos (by omega)]
        simp
      · rw [ih (by omega) (by omega) (by simp [hd]) (by omega)]
        have e1 : (k < L - (i + 1)) = (k + 1 < L - i) := by apply propext; omega
        have e2 : (k = L - (i + 1)) = (k + 1 = L - i) := by apply propext; omega
        simp only [e1, e2]
        have e3 : fuel + 1 - (k + 1) = fuel - k := by omega
        have e4 : i + 1 + k = i + (k + 1) := by omega
        rw [e3, e4]
        simp [List.replicate_succ]

theorem LensBits.le15 {prev : Option Nat} {ls : List Nat} {bs : List Bool}
    (h : LensBits cl prev ls bs) (hp : ∀ p, prev = some p → p ≤ 15) : ∀ l ∈ ls, l ≤ 15 := by
  induction h with
  | nil => simp
  | len prev l ls c bs hl _ _ ih =>
    intro x hx
    rcases List.mem_cons.1 hx with rfl | hx
    · exact hl
    · exact ih (by simpa using hl) x hx
  | copy p v ls c bs _ _ _ ih =>
    intro x hx
    rcases List.mem_append.1 hx with hx | hx
    · rw [List.eq_of_mem_replicate hx]; exact hp p rfl
    · exact ih hp x hx
  | zeros prev v ls c bs _ _ _ ih =>
    intro x hx
    rcases List.mem_append.1 hx with hx | hx
    · rw [List.eq_of_mem_replicate hx]; omega
    · exact ih (by simp) x hx
  | manyZeros prev v ls c bs _ _ _ ih =>
    intro x hx
    rcases List.mem_append.1 hx with hx | hx
    · rw [List.eq_of_mem_replicate hx]; omega
    · exact ih (by simp) x hx

theorem LensBits.eq_nil {prev : Option Nat} {ls : List Nat} {bs : List Bool}
    (h : LensBits cl prev ls bs) (hl : ls = []) : bs = [] := by
  cases h with
  | nil => rfl
  | len => cases hl
  | copy p v => simp [List.replicate_succ, Nat.add_comm 3] at hl
  | zeros prev v => simp [List.replicate_succ, Nat.add_comm 3] at hl
  | manyZeros prev v => simp [List.replicate_succ, Nat.add_comm 11] at hl

theorem set_done {L i : Nat} {dn : List Nat} (hd : dn.length = i) (hi : i < L) (s : Nat) :
    (dn ++ List.replicate (L - i) 0).set i s = (dn ++ [s]) ++ List.replicate (L - (i + 1)) 0 := by
  rw [List.set_append_right _ _ (by omega), hd, Nat.sub_self]
  obtain ⟨m, hm⟩ : ∃ m, L - i = m + 1 := ⟨L - i - 1, by omega⟩
  rw [hm, List.replicate_succ, List.set_cons_zero, show L - (i + 1) = m by omega]
  simp

/-- The loop accepts run-length coded lengths. -/
theorem loop_complete (ht : CodeTree.IsTree cl t) {L fuel i : Nat} {rv : Option Nat}
    {dn ls : List Nat} {bs rest : List Bool} (h : LensBits cl rv ls bs) (hne : ls ≠ [])
    (hd : dn.length = i) (hL : i + ls.length = L) (hf : 2 * (L - i) ≤ fuel) :
    (codeLensLoop t L fuel i rv 0 (dn ++ List.replicate (L - i) 0)).exec (bs ++ rest) =
      .ok (dn ++ ls) rest := by
  have hrun : ∀ (k p : Nat) (ls : List Nat) (bs : List Bool) (fuel i : Nat) (dn : List Nat),
      0 < k → LensBits cl (some p) ls bs →
      (∀ (fuel i : Nat) (dn : List Nat), ls ≠ [] → dn.length = i → i + ls.length = L →
        2 * (L - i) ≤ fuel →
        (codeLensLoop t L fuel i (some p) 0 (dn ++ List.replicate (L - i) 0)).exec (bs ++ rest) =
          .ok (dn ++ ls) rest) →
      dn.length = i → i + k + ls.length = L → 2 * (L - i) ≤ fuel + 1 →
      (codeLensLoop t L fuel i (some p) k (dn ++ List.replicate (L - i) 0)).exec (bs ++ rest) =
          .ok (dn ++ (List.replicate k p ++ ls)) rest := by
    intro k p ls bs fuel i dn hk hlb ih hd hL hf
    rw [loop_run hk (by omega) hd (by omega)]
    by_cases hls : ls = []
    · subst hls
      rw [LensBits.eq_nil hlb rfl]
      · rw [if_neg (by simp at hL; omega), if_pos (by simp at hL; omega)]
        simp
    · have : 0 < ls.length := List.length_pos_iff.2 hls
      rw [if_pos (by omega), ih (fuel - k) (i + k) (dn ++ List.replicate k p) hls (by simp [hd])
        (by omega) (by omega)]
      simp
  induction h generalizing fuel i dn with
  | nil => exact absurd rfl hne
  | len prev l ls c bs hl hc hb ih =>
    obtain ⟨fuel, rfl⟩ : ∃ f, fuel = f + 1 := ⟨fuel - 1, by simp at hL; omega⟩
    simp only [List.length_cons] at hL
    rw [List.append_assoc, loop_lit ht hl hc (by simp; omega), set_done hd (by omega)]
    by_cases hls : ls = []
    · subst hls
      rw [LensBits.eq_nil hb rfl]
      · simp only [List.length_nil, Nat.zero_add] at hL
        rw [if_pos (by omega), show L - (i + 1) = 0 by omega]
        simp
    · have : 0 < ls.length := List.length_pos_iff.2 hls
      rw [if_neg (by omega), ih hls (by simp [hd]) (by omega) (by omega)]
      simp
  | copy p v ls c bs hv hc hb ih =>
    simp only [List.length_append, List.length_replicate] at hL
    obtain ⟨fuel, rfl⟩ : ∃ f, fuel = f + 1 := ⟨fuel - 1, by omega⟩
    simp only [List.append_assoc]
    rw [loop_copy ht hc (by omega), BitProg.exec_bind_ok (BitProg.exec_readPart_lsb (by omega) hv _),
      Nat.add_comm v 3]
    exact hrun (3 + v) p ls bs fuel i dn (by omega) hb (fun _ _ _ => ih) hd (by omega) (by omega)
  | zeros prev v ls c bs hv hc hb ih =>
    simp only [List.length_append, List.length_replicate] at hL
    obtain ⟨fuel, rfl⟩ : ∃ f, fuel = f + 1 := ⟨fuel - 1, by omega⟩
    simp only [List.append_assoc]
    rw [loop_zeros ht hc (by omega), BitProg.exec_bind_ok (BitProg.exec_readPart_lsb (by omega) hv _),
      Nat.add_comm v 3]
    exact hrun (3 + v) 0 ls bs fuel i dn (by omega) hb (fun _ _ _ => ih) hd (by omega) (by omega)
  | manyZeros prev v ls c bs hv hc hb ih =>
    simp only [List.length_append, List.length_replicate] at hL
    obtain ⟨fuel, rfl⟩ : ∃ f, fuel = f + 1 := ⟨fuel - 1, by omega⟩
    simp only [List.append_assoc]
    rw [loop_manyZeros ht hc (by omega),
      BitProg.exec_bind_ok (BitProg.exec_readPart_lsb (by omega) hv _), Nat.add_comm v 11]
    exact hrun (11 + v) 0 ls bs fuel i dn (by omega) hb (fun _ _ _ => ih) hd (by omega) (by omega)

/-- Every way the loop can end: it starves, fails with an error, or has read run-length coded
lengths. -/
theorem loop_sound (ht : CodeTree.IsTree cl t) (h19 : cl.length = 19) {L fuel i : Nat}
    {rv : Option Nat} {dn : List Nat} {bs : List Bool}
    (hd : dn.length = i) (hi : i < L) (hf : 2 * (L - i) ≤ fuel) :
    match (codeLensLoop t L fuel i rv 0 (dn ++ List.replicate (L - i) 0)).exec bs with
    | .ok out rest => ∃ ls body, LensBits cl rv ls body ∧ bs = body ++ rest ∧ out = dn ++ ls ∧
        out.length = L
    | .fail e => ∃ x, e = .err x
    | .starved => True := by
  induction hm : L - i using Nat.strongRecOn generalizing fuel i rv dn bs with
  | ind m IH =>
  subst hm
  obtain ⟨fuel, rfl⟩ : ∃ f, fuel = f + 1 := ⟨fuel - 1, by omega⟩
  -- what happens once a run has been announced
  have hrun : ∀ (k p : Nat) (bs : List Bool), 0 < k →
      match (codeLensLoop t L fuel i (some p) k (dn ++ List.replicate (L - i) 0)).exec bs with
      | .ok out rest => ∃ ls body, LensBits cl (some p) ls body ∧ bs = body ++ rest ∧
          out = dn ++ (List.replicate k p ++ ls) ∧ out.length = L
      | .fail e => ∃ x, e = .err x
      | .starved => True := by
    intro k p bs hk
    by_cases hkf : k ≤ fuel
    · rw [loop_run hk hkf hd hi]
      by_cases h1 : k < L - i
      · rw [if_pos h1]
        have := IH (L - (i + k)) (by omega) (fuel := fuel - k) (i := i + k) (rv := some p)
          (dn := dn ++ List.replicate k p) (bs := bs) (by simp [hd]) (by omega) (by omega) rfl
        revert this
        cases (codeLensLoop t L (fuel - k) (i + k) (some p) 0
          (dn ++ List.replicate k p ++ List.replicate (L - (i + k)) 0)).exec bs with
        | ok out rest =>
          rintro ⟨ls, body, a, b, c, d⟩
          exact ⟨ls, body, a, b, by rw [c, List.append_assoc], d⟩
        | fail e => exact id
        | starved => exact id
      · rw [if_neg h1]
        by_cases h2 : k = L - i
        · rw [if_pos h2]
          exact ⟨[], [], .nil _, rfl, by simp, by simp [hd]; omega⟩
        · rw [if_neg h2]
          exact ⟨_, rfl⟩
    · -- a run longer than the fuel is longer than the lengths that are left
      have hgen : ∀ (f k i : Nat) (dn : List Nat), f < k → L - i ≤ f → i < L → dn.length = i →
          (codeLensLoop t L f i (some p) k (dn ++ List.replicate (L - i) 0)).exec bs =
            .fail (.err .runExceeds) := by
        intro f
        induction f with
        | zero => intro k i dn h1 h2 h3; omega
        | succ f ih =>
          intro k i dn h1 h2 h3 hd
          obtain ⟨k, rfl⟩ : ∃ k', k = k' + 1 := ⟨k - 1, by omega⟩
          rw [codeLensLoop.eq_def]
          simp only [gt_iff_lt, Nat.zero_lt_succ, if_true, BitProg.bind_eq, BitProg.bind_assoc]
          rw [indexSet_ok (by simp; omega), set_done hd h3,
            BitProg.exec_bind_ok (BitProg.exec_ofExcept_ok _ _)]
          simp only [BitProg.pure_eq, BitProg.bind, Nat.add_sub_cancel]
          by_cases hend : i + 1 ≥ L
          · rw [if_pos hend]
            have : (k == 0) = false := by simp; omega
            rw [this]
            rfl
          · rw [if_neg hend]
            exact ih k (i + 1) (dn ++ [p]) (by omega) (by omega) (by omega) (by simp [hd])
      rw [hgen fuel k i dn (by omega) (by omega) hi hd]
      exact ⟨_, rfl⟩
  cases hdec : t.decodeSymbol.exec bs with
  | fail e => exact absurd hdec CodeTree.IsTree.decode_ne_fail
  | starved =>
    have : (codeLensLoop t L (fuel + 1) i rv 0 (dn ++ List.replicate (L - i) 0)).exec bs =
        .starved := by
      rw [codeLensLoop.eq_def]
      simp only [gt_iff_lt, Nat.lt_irrefl, if_false, BitProg.bind_eq, BitProg.bind_assoc]
      rw [BitProg.exec_bind, hdec]
    rw [this]
    trivial
  | ok s bs1 =>
    obtain ⟨c, hc, rfl⟩ := ht.decode_inv hdec
    obtain ⟨hs, _⟩ := CodeTree.codeOf_lt hc
    by_cases h15 : s ≤ 15
    · rw [loop_lit ht h15 hc (by simp; omega), set_done hd hi]
      by_cases hend : i + 1 ≥ L
      · rw [if_pos hend]
        refine ⟨[s], c ++ [], .len _ _ _ _ _ h15 hc (.nil _), by simp, ?_, ?_⟩
        · rw [show L - (i + 1) = 0 by omega]; simp
        · simp [hd]; omega
      · rw [if_neg hend]
        have := IH (L - (i + 1)) (by omega) (fuel := fuel) (i := i + 1) (rv := some s)
          (dn := dn ++ [s]) (bs := bs1) (by simp [hd]) (by omega) (by omega) rfl
        revert this
        cases (codeLensLoop t L fuel (i + 1) (some s) 0
          (dn ++ [s] ++ List.replicate (L - (i + 1)) 0)).exec bs1 with
        | ok out rest =>
          rintro ⟨ls, body, a, b, c', d⟩
          exact ⟨s :: ls, c ++ body, .len _ _ _ _ _ h15 hc a, by rw [b, List.append_assoc],
            by rw [c']; simp, d⟩
        | fail e => exact id
        | starved => exact id
    · have hs' : s = 16 ∨ s = 17 ∨ s = 18 := by omega
      rcases hs' with rfl | rfl | rfl
      · cases rv with
        | none =>
          rw [loop_copy_none ht hc]
          exact ⟨_, rfl⟩
        | some p =>
          rw [loop_copy ht hc hi, BitProg.exec_bind]
          cases hr : (BitProg.readPart 2).exec bs1 with
          | fail e => exact absurd hr (BitProg.exec_readPart_ne_fail (by omega))
          | starved => trivial
          | ok n bs2 =>
            obtain ⟨hn, rfl⟩ := (BitProg.exec_readPart_eq_ok (by omega)).1 hr
            have := hrun (n + 3) p bs2 (by omega)
            revert this
            dsimp only
            cases (codeLensLoop t L fuel i (some p) (n + 3)
              (dn ++ List.replicate (L - i) 0)).exec bs2 with
            | ok out rest =>
              rintro ⟨ls, body, a, b, c', d⟩
              exact ⟨List.replicate (3 + n) p ++ ls, c ++ lsbBits 2 n ++ body,
                .copy _ _ _ _ _ hn hc a, by rw [b]; simp, by rw [c', Nat.add_comm n 3], d⟩
            | fail e => exact id
            | starved => exact id
      · rw [loop_zeros ht hc hi, BitProg.exec_bind]
        cases hr : (BitProg.readPart 3).exec bs1 with
        | fail e => exact absurd hr (BitProg.exec_readPart_ne_fail (by omega))
        | starved => trivial
        | ok n bs2 =>
          obtain ⟨hn, rfl⟩ := (BitProg.exec_readPart_eq_ok (by omega)).1 hr
          have := hrun (n + 3) 0 bs2 (by omega)
          revert this
          dsimp only
          cases (codeLensLoop t L fuel i (some 0) (n + 3)
            (dn ++ List.replicate (L - i) 0)).exec bs2 with
          | ok out rest =>
            rintro ⟨ls, body, a, b, c', d⟩
            exact ⟨List.replicate (3 + n) 0 ++ ls, c ++ lsbBits 3 n ++ body,
              .zeros _ _ _ _ _ hn hc a, by rw [b]; simp, by rw [c', Nat.add_comm n 3], d⟩
          | fail e => exact id
          | starved => exact id
      · rw [loop_manyZeros ht hc hi, BitProg.exec_bind]
        cases hr : (BitProg.readPart 7).exec bs1 with
        | fail e => exact absurd hr (BitProg.exec_readPart_ne_fail (by omega))
        | starved => trivial
        | ok n bs2 =>
          obtain ⟨hn, rfl⟩ := (BitProg.exec_readPart_eq_ok (by omega)).1 hr
          have := hrun (n + 11) 0 bs2 (by omega)
          revert this
          dsimp only
          cases (codeLensLoop t L fuel i (some 0) (n + 11)
            (dn ++ List.replicate (L - i) 0)).exec bs2 with
          | ok out rest =>
            rintro ⟨ls, body, a, b, c', d⟩
            exact ⟨List.replicate (11 + n) 0 ++ ls, c ++ lsbBits 7 n ++ body,
              .manyZeros _ _ _ _ _ hn hc a, by rw [b]; simp, by rw [c', Nat.add_comm n 11], d⟩
          | fail e => exact id
          | starved => exact id

end loop

/-! ### The distance alphabet -/

/-- The tree for an optional alphabet. -/
def IsOptTree (alpha : Option (List Nat)) (t : Option CodeTree) : Prop :=
  match alpha, t with
  | none, none => True
  | some ls, some t => CodeTree.IsTree ls t
  | _, _ => False

theorem single_of_counts {ls : List Nat} (h1 : (ls.filter (fun x => x == 1)).length = 1)
    (h2 : (ls.filter (fun x => decide (x > 1))).length = 0) :
    ∃ a b, ls = List.replicate a 0 ++ [1] ++ List.replicate b 0 := by
  induction ls with
  | nil => simp at h1
  | cons x xs ih =>
    simp only [List.filter_cons] at h1 h2
    match x with
    | 0 =>
      obtain ⟨a, b, h⟩ := ih (by simpa using h1) (by simpa using h2)
      exact ⟨a + 1, b, by rw [h]; simp [List.replicate_succ]⟩
    | 1 =>
      refine ⟨0, xs.length, ?_⟩
      simp only [beq_self_eq_true, if_true, List.length_cons, Nat.add_eq_right] at h1
      simp only [Nat.lt_irrefl, gt_iff_lt, decide_false, if_false, Bool.false_eq_true] at h2
      have : xs = List.replicate xs.length 0 := by
        apply List.eq_replicate_of_mem
        intro y hy
        match y with
        | 0 => rfl
        | 1 =>
          have : 1 ∈ xs.filter (fun x => x == 1) := List.mem_filter.2 ⟨hy, rfl⟩
          rw [List.length_eq_zero_iff.1 h1] at this
          cases this
        | y + 2 =>
          have : y + 2 ∈ xs.filter (fun x => decide (x > 1)) :=
            List.mem_filter.2 ⟨hy, by simp⟩
          rw [List.length_eq_zero_iff.1 h2] at this
          cases this
      simpa using this
    | x + 2 => simp at h2

theorem kraft_append (a b : List Nat) : kraft (a ++ b) = kraft a + kraft b := by
  simp [kraft]

theorem kraft_zeros (a : Nat) : kraft (List.replicate a 0) = 0 := by
  simp [kraft]

theorem kraft_single (a b : Nat) :
    kraft (List.replicate a 0 ++ [1] ++ List.replicate b 0) = 16384 := by
  rw [kraft_append, kraft_append, kraft_zeros, kraft_zeros]
  rfl

theorem complete_single (a : Nat) :
    Complete (List.replicate a 0 ++ [1] ++ List.replicate (30 - a) 0 ++ [1]) := by
  unfold Complete
  rw [kraft_append, kraft_single]
  rfl

theorem take_single {a b : Nat} (ha : a ≤ 30) (hb : a + 1 + b ≤ 32) :
    (List.replicate a 0 ++ [1] ++ List.replicate b 0).take (min (a + 1 + b) 31) ++
      List.replicate (31 - min (a + 1 + b) 31) 0 ++ [1] =
    List.replicate a 0 ++ [1] ++ List.replicate (30 - a) 0 ++ [1] := by
  rw [List.take_append, List.take_of_length_le (by simp; omega)]
  simp only [List.length_append, List.length_replicate, List.length_singleton, List.take_replicate,
    List.append_assoc, List.append_cancel_left_eq, List.cons_append, List.nil_append,
    List.cons.injEq, true_and]
  rw [← List.append_assoc, List.replicate_append_replicate]
  congr 2
  omega

/-- `distanceTree` accepts exactly the alphabets of the specification. -/
theorem distanceTree_iff {ls : List Nat} (h1 : 1 ≤ ls.length) (h32 : ls.length ≤ 32)
    (h15 : ∀ l ∈ ls, l ≤ 15) (r : Option CodeTree) :
    distanceTree ls = .ok r ↔ ∃ alpha, DistAlphabet ls alpha ∧ IsOptTree alpha r := by
  unfold distanceTree
  by_cases h0 : ls.length = 1 ∧ ls.head? = some 0
  · have hls : ls = [0] := by
      obtain ⟨ha, hb⟩ := h0
      match ls, ha with
      | [x], _ => simpa using hb
    subst hls
    constructor
    · intro h
      refine ⟨none, .unused, ?_⟩
      cases r with
      | none => trivial
      | some t => cases h
    · rintro ⟨alpha, ha, hr⟩
      have hn : ∀ ls alpha, DistAlphabet ls alpha → ls = [0] → alpha = none := by
        intro ls alpha h
        cases h with
        | unused => intro _; rfl
        | single a b ha hb =>
          intro h
          have := kraft_single a b
          rw [h] at this
          cases this
        | complete ls h2 => intro h; rw [h] at h2; simp at h2
      have := hn _ _ ha rfl
      subst this
      cases r with
      | none => rfl
      | some t => cases hr
  · have hc : (ls.length == 1 && ls.head? == some 0) = false := by
      rw [Bool.and_eq_false_iff]
      by_cases ha : ls.length = 1
      · right; simp only [beq_eq_false_iff_ne, ne_eq]; exact fun hb => h0 ⟨ha, hb⟩
      · left; simpa using ha
    simp only [hc, if_false, Bool.false_eq_true]
    by_cases hs : (ls.filter (fun x => x == 1)).length = 1 ∧
        (ls.filter (fun x => decide (x > 1))).length = 0
    · have hs' : ((ls.filter (fun x => x == 1)).length == 1 &&
          (ls.filter (fun x => decide (x > 1))).length == 0) = true := by
        rw [hs.1, hs.2]; rfl
      simp only [hs', if_true]
      obtain ⟨a, b, rfl⟩ := single_of_counts hs.1 hs.2
      have hlen : (List.replicate a 0 ++ [1] ++ List.replicate b 0).length = a + 1 + b := by
        simp; omega
      rw [hlen] at h32 ⊢
      rw [Ex.bind_eq_ok]
      by_cases ha : a ≤ 30
      · rw [take_single ha h32]
        have hle : ∀ l ∈ List.replicate a 0 ++ [1] ++ List.replicate (30 - a) 0 ++ [1], l ≤ 15 := by
          intro l hl
          simp only [List.mem_append, List.mem_replicate, List.mem_singleton] at hl
          omega
        constructor
        · rintro ⟨t, ht, hr⟩
          cases hr
          exact ⟨_, .single a b ha h32, by simp; omega, hle, ht⟩
        · rintro ⟨alpha, halpha, hr⟩
          have hn : ∀ ls alpha, DistAlphabet ls alpha →
              ls = List.replicate a 0 ++ [1] ++ List.replicate b 0 →
              alpha = some (List.replicate a 0 ++ [1] ++ List.replicate (30 - a) 0 ++ [1]) := by
            intro ls alpha h
            cases h with
            | unused =>
              intro h
              have := kraft_single a b
              rw [← h] at this
              cases this
            | single a' b' ha' hb' =>
              intro h
              have hi : ∀ a b a' b' : Nat,
                  List.replicate a 0 ++ [1] ++ List.replicate b 0 =
                    List.replicate a' 0 ++ [1] ++ List.replicate b' 0 → a = a' := by
                intro a
                induction a with
                | zero =>
                  intro b a' b' h
                  cases a' with
                  | zero => rfl
                  | succ a' => simp [List.replicate_succ] at h
                | succ a ih =>
                  intro b a' b' h
                  cases a' with
                  | zero => simp [List.replicate_succ] at h
                  | succ a' =>
                    rw [ih b a' b' (by simpa [List.replicate_succ] using h)]
              rw [hi _ _ _ _ h]
            | complete ls h2 hcomp =>
              intro h
              unfold Complete at hcomp
              rw [h, kraft_single] at hcomp
              cases hcomp
          have := hn _ _ halpha rfl
          subst this
          cases r with
          | none => cases hr
          | some t => exact ⟨t, hr.built, rfl⟩
      · have ha31 : a = 31 ∧ b = 0 := by omega
        obtain ⟨rfl, rfl⟩ := ha31
        constructor
        · rintro ⟨t, ht, _⟩
          have hbad : (CodeTree.new ((List.replicate 31 0 ++ [1] ++ List.replicate 0 0).take
              (min (31 + 1 + 0) 31) ++ List.replicate (31 - min (31 + 1 + 0) 31) 0 ++ [1])).isOk =
              false := by decide +kernel
          rw [ht] at hbad
          cases hbad
        · rintro ⟨alpha, halpha, hr⟩
          have hn : ∀ ls alpha, DistAlphabet ls alpha →
              ls ≠ List.replicate 31 0 ++ [1] ++ List.replicate 0 0 := by
            intro ls alpha h
            cases h with
            | unused => decide
            | single a' b' ha' hb' =>
              intro h
              have h2 : (List.replicate a' 0 ++ [1] ++ List.replicate b' 0)[a']? =
                  (List.replicate 31 0 ++ [1] ++ List.replicate 0 0)[a']? := by rw [h]
              rw [List.append_assoc, List.append_assoc, List.getElem?_append_right (by simp),
                List.getElem?_append_left (by simp),
                List.getElem?_append_left (l₁ := List.replicate 31 0) (by simp; omega),
                List.getElem?_replicate, if_pos (by omega)] at h2
              simp at h2
            | complete ls h2 hcomp =>
              intro h
              unfold Complete at hcomp
              rw [h, kraft_single] at hcomp
              cases hcomp
          exact absurd rfl (hn _ _ halpha)
    · have hs' : ((ls.filter (fun x => x == 1)).length == 1 &&
          (ls.filter (fun x => decide (x > 1))).length == 0) = false := by
        rw [Bool.and_eq_false_iff]
        by_cases ha : (ls.filter (fun x => x == 1)).length = 1
        · right; simp only [beq_eq_false_iff_ne, ne_eq]; exact fun hb => hs ⟨ha, hb⟩
        · left; simpa using ha
      simp only [hs', if_false, Bool.false_eq_true]
      rw [Ex.bind_eq_ok]
      constructor
      · rintro ⟨t, ht, hr⟩
        cases hr
        have h2 := ((CodeTree.new_eq_ok (by omega) t).1 ht).1
        exact ⟨some ls, .complete ls h2 ((CodeTree.new_ok_iff_complete h2 (by omega) h15).1 ⟨t, ht⟩),
          by omega, h15, ht⟩
      · rintro ⟨alpha, halpha, hr⟩
        have hn : ∀ ls' alpha, DistAlphabet ls' alpha → ls' = ls → alpha = some ls := by
          intro ls' alpha h
          cases h with
          | unused => rintro rfl; exact absurd ⟨rfl, rfl⟩ h0
          | single a b ha hb =>
            rintro rfl
            refine absurd ⟨?_, ?_⟩ hs <;> simp [List.filter_append]
          | complete ls' h2 hcomp => rintro rfl; rfl
        have := hn _ _ halpha rfl
        subst this
        cases r with
        | none => cases hr
        | some t => exact ⟨t, hr.built, rfl⟩

theorem distanceTree_error {ls : List Nat} (h32 : ls.length ≤ 32) {e : Fail}
    (h : distanceTree ls = .error e) : ∃ x, e = .err x := by
  unfold distanceTree at h
  split at h
  · cases h
  · dsimp only at h
    split at h
    · rcases Ex.bind_eq_error.1 h with h | ⟨_, _, h⟩
      · exact CodeTree.new_error (by simp; omega) h
      · cases h
    · rcases Ex.bind_eq_error.1 h with h | ⟨_, _, h⟩
      · exact CodeTree.new_error (by omega) h
      · cases h

/-! ### The whole header -/

theorem clSet (l16 l17 l18 l0 : Nat) :
    (((((List.replicate 19 0).set 16 l16).set 17 l17).set 18 l18).set 0 l0) =
      [l0, 0, 0, 0, 0, 0, 0, 0, 0, 0, 0, 0, 0, 0, 0, 0, l16, l17, l18] := rfl

/-- What `read_codes` does with its input. -/
theorem readCodes_sound (bs : List Bool) :
    match readCodes.exec bs with
    | .ok (lt, dt) rest => ∃ lit dist alpha hdr, HeaderBits lit dist hdr ∧ Complete lit ∧
        DistAlphabet dist alpha ∧ bs = hdr ++ rest ∧ CodeTree.IsTree lit lt ∧ IsOptTree alpha dt
    | .fail e => ∃ x, e = .err x
    | .starved => True := by
  -- peel off one bit field
  have field : ∀ {α : Type} (n : Nat) (f : Nat → BitProg α) (bs : List Bool) (P : ExecRes α → Prop),
      n ≤ 16 → P .starved →
      (∀ v bs', v < 2 ^ n → bs = lsbBits n v ++ bs' → P ((f v).exec bs')) →
      P (((BitProg.readPart n).bind f).exec bs) := by
    intro α n f bs P hn h1 h2
    rw [BitProg.exec_bind]
    cases h : (BitProg.readPart n).exec bs with
    | ok v bs' =>
      obtain ⟨a, b⟩ := (BitProg.exec_readPart_eq_ok hn).1 h
      exact h2 v bs' a b
    | fail e => exact absurd h (BitProg.exec_readPart_ne_fail hn)
    | starved => exact h1
  unfold readCodes
  simp only [BitProg.bind_eq]
  refine field 5 _ bs (fun r => match r with
    | .ok (lt, dt) rest => ∃ lit dist alpha hdr, HeaderBits lit dist hdr ∧ Complete lit ∧
        DistAlphabet dist alpha ∧ bs = hdr ++ rest ∧ CodeTree.IsTree lit lt ∧ IsOptTree alpha dt
    | .fail e => ∃ x, e = .err x
    | .starved => True) (by omega) trivial ?_
  intro hlit bs1 hlit5 e1
  refine field 5 _ bs1 (fun r => match r with
    | .ok (lt, dt) rest => ∃ lit dist alpha hdr, HeaderBits lit dist hdr ∧ Complete lit ∧
        DistAlphabet dist alpha ∧ bs = hdr ++ rest ∧ CodeTree.IsTree lit lt ∧ IsOptTree alpha dt
    | .fail e => ∃ x, e = .err x
    | .starved => True) (by omega) trivial ?_
  intro hdist bs2 hdist5 e2
  refine field 4 _ bs2 (fun r => match r with
    | .ok (lt, dt) rest => ∃ lit dist alpha hdr, HeaderBits lit dist hdr ∧ Complete lit ∧
        DistAlphabet dist alpha ∧ bs = hdr ++ rest ∧ CodeTree.IsTree lit lt ∧ IsOptTree alpha dt
    | .fail e => ∃ x, e = .err x
    | .starved => True) (by omega) trivial ?_
  intro hclen bs3 hclen4 e3
  refine field 3 _ bs3 (fun r => match r with
    | .ok (lt, dt) rest => ∃ lit dist alpha hdr, HeaderBits lit dist hdr ∧ Complete lit ∧
        DistAlphabet dist alpha ∧ bs = hdr ++ rest ∧ CodeTree.IsTree lit lt ∧ IsOptTree alpha dt
    | .fail e => ∃ x, e = .err x
    | .starved => True) (by omega) trivial ?_
  intro l16 bs4 hl16 e4
  refine field 3 _ bs4 (fun r => match r with
    | .ok (lt, dt) rest => ∃ lit dist alpha hdr, HeaderBits lit dist hdr ∧ Complete lit ∧
        DistAlphabet dist alpha ∧ bs = hdr ++ rest ∧ CodeTree.IsTree lit lt ∧ IsOptTree alpha dt
    | .fail e => ∃ x, e = .err x
    | .starved => True) (by omega) trivial ?_
  intro l17 bs5 hl17 e5
  refine field 3 _ bs5 (fun r => match r with
    | .ok (lt, dt) rest => ∃ lit dist alpha hdr, HeaderBits lit dist hdr ∧ Complete lit ∧
        DistAlphabet dist alpha ∧ bs = hdr ++ rest ∧ CodeTree.IsTree lit lt ∧ IsOptTree alpha dt
    | .fail e => ∃ x, e = .err x
    | .starved => True) (by omega) trivial ?_
  intro l18 bs6 hl18 e6
  refine field 3 _ bs6 (fun r => match r with
    | .ok (lt, dt) rest => ∃ lit dist alpha hdr, HeaderBits lit dist hdr ∧ Complete lit ∧
        DistAlphabet dist alpha ∧ bs = hdr ++ rest ∧ CodeTree.IsTree lit lt ∧ IsOptTree alpha dt
    | .fail e => ∃ x, e = .err x
    | .starved => True) (by omega) trivial ?_
  intro l0 bs7 hl0 e7
  rw [clSet, BitProg.exec_bind]
  have hN : 0 + (hclen + 4 - 4) ≤ 15 := by simp at hclen4; omega
  cases h8 : (readCodeLenLens 0 (hclen + 4 - 4)
      [l0, 0, 0, 0, 0, 0, 0, 0, 0, 0, 0, 0, 0, 0, 0, 0, l16, l17, l18]).exec bs7 with
  | starved => trivial
  | fail e => exact absurd h8 (exec_readCodeLenLens_ne_fail hN rfl)
  | ok cl bs8 =>
  obtain ⟨c19, c8, cz, e8⟩ := (exec_readCodeLenLens hN rfl).1 h8
  rw [Nat.add_sub_cancel] at c8 cz e8
  have c4 : ∀ s ∈ [16, 17, 18, 0], s ∉ (clOrder.drop (4 + 0)).take hclen := by
    intro s hs hm
    have hall : ∀ s ∈ [16, 17, 18, 0], s ∉ clOrder.drop (4 + 0) := by decide
    exact hall s hs (List.mem_of_mem_take hm)
  have g16 : cl.getD 16 0 = l16 := cz 16 (c4 16 (by simp))
  have g17 : cl.getD 17 0 = l17 := cz 17 (c4 17 (by simp))
  have g18 : cl.getD 18 0 = l18 := cz 18 (c4 18 (by simp))
  have g0 : cl.getD 0 0 = l0 := cz 0 (c4 0 (by simp))
  have hsplit : clOrder.take (hclen + 4) = [16, 17, 18, 0] ++ (clOrder.drop (4 + 0)).take hclen := by
    rw [Nat.add_comm hclen 4, List.take_add]
    rfl
  have hzero : ∀ s ∈ clOrder.drop (hclen + 4), cl.getD s 0 = 0 := by
    intro s hs
    have hnd : clOrder.Nodup := by decide
    have hni : s ∉ (clOrder.drop (4 + 0)).take hclen := by
      intro hm
      have hm' : s ∈ clOrder.take (hclen + 4) := by rw [hsplit]; exact List.mem_append_right _ hm
      rw [← List.take_append_drop (hclen + 4) clOrder, List.nodup_append] at hnd
      exact hnd.2.2 s hm' s hs rfl
    rw [cz s hni]
    have hs4 : s ∈ clOrder.drop 4 := by
      rw [Nat.add_comm, ← List.drop_drop] at hs
      exact List.mem_of_mem_drop hs
    have : ∀ s ∈ clOrder.drop 4,
        [l0, 0, 0, 0, 0, 0, 0, 0, 0, 0, 0, 0, 0, 0, 0, 0, l16, l17, l18].getD s 0 = 0 := by
      simp [clOrder]
    exact this s hs4
  have hlt8 : ∀ l ∈ cl, l < 8 := by
    intro l hl
    obtain ⟨s, hs, rfl⟩ := List.getElem_of_mem hl
    have hg : cl[s] = cl.getD s 0 := by simp [List.getD, hs]
    rw [hg]
    by_cases hm : s ∈ (clOrder.drop (4 + 0)).take hclen
    · exact c8 s hm
    · by_cases hm4 : s ∈ [16, 17, 18, 0]
      · simp only [List.mem_cons, List.not_mem_nil, or_false] at hm4
        rcases hm4 with rfl | rfl | rfl | rfl
        · rw [g16]; exact hl16
        · rw [g17]; exact hl17
        · rw [g18]; exact hl18
        · rw [g0]; exact hl0
      · have hall : s ∈ clOrder := by
          have : ∀ s : Fin 19, s.val ∈ clOrder := by decide
          exact this ⟨s, by omega⟩
        rw [← List.take_append_drop (hclen + 4) clOrder, hsplit] at hall
        rcases List.mem_append.1 hall with h | h
        · rcases List.mem_append.1 h with h | h
          · exact absurd h hm4
          · exact absurd h hm
        · rw [hzero s h]; omega
  dsimp only
  rw [BitProg.exec_bind]
  cases h9 : CodeTree.new cl with
  | error e =>
    exact CodeTree.new_error (by omega) h9
  | ok t =>
  have hcl15 : ∀ l ∈ cl, l ≤ 15 := fun l hl => by have := hlt8 l hl; omega
  have ht : CodeTree.IsTree cl t := ⟨by omega, hcl15, h9⟩
  have hcomp := (CodeTree.new_ok_iff_complete (by omega) (by omega) hcl15).1 ⟨t, h9⟩
  rw [BitProg.exec_ofExcept_ok]
  dsimp only
  rw [BitProg.exec_bind]
  have hloop := loop_sound ht c19 (L := hlit + 257 + (hdist + 1))
    (fuel := 2 * (hlit + 257 + (hdist + 1)) + 1) (i := 0) (rv := none) (dn := []) (bs := bs8) rfl
    (by omega) (by omega)
  simp only [Nat.sub_zero, List.nil_append] at hloop
  revert hloop
  cases (codeLensLoop t (hlit + 257 + (hdist + 1)) (2 * (hlit + 257 + (hdist + 1)) + 1) 0 none 0
    (List.replicate (hlit + 257 + (hdist + 1)) 0)).exec bs8 with
  | starved => exact fun _ => trivial
  | fail e => exact id
  | ok lens bs9 =>
  rintro ⟨ls, body, hlb, e9, rfl, hlen⟩
  dsimp only
  have hl15 := LensBits.le15 hlb (by simp)
  have hlitlen : (lens.take (hlit + 257)).length = hlit + 257 := by
    rw [List.length_take, hlen]; omega
  have hdistlen : (lens.drop (hlit + 257)).length = hdist + 1 := by
    rw [List.length_drop, hlen]; omega
  have hlit15 : ∀ l ∈ lens.take (hlit + 257), l ≤ 15 :=
    fun l hl => hl15 l (List.mem_of_mem_take hl)
  have hdist15 : ∀ l ∈ lens.drop (hlit + 257), l ≤ 15 :=
    fun l hl => hl15 l (List.mem_of_mem_drop hl)
  simp only [Nat.reducePow] at hlit5 hdist5 hclen4
  rw [BitProg.exec_bind]
  cases h10 : CodeTree.new (lens.take (hlit + 257)) with
  | error e => exact CodeTree.new_error (by omega) h10
  | ok lt =>
  rw [BitProg.exec_ofExcept_ok]
  dsimp only
  rw [BitProg.exec_bind]
  cases h11 : distanceTree (lens.drop (hlit + 257)) with
  | error e => exact distanceTree_error (by omega) h11
  | ok dt =>
  rw [BitProg.exec_ofExcept_ok]
  simp only [BitProg.pure_eq, BitProg.exec_done]
  obtain ⟨alpha, ha1, ha2⟩ := (distanceTree_iff (by omega) (by omega) hdist15 dt).1 h11
  refine ⟨lens.take (hlit + 257), lens.drop (hlit + 257), alpha, _,
    .mk cl (hclen + 4) body (by omega) (by omega) (by omega) (by omega) (by omega) (by omega) c19
      hlt8 hcomp hzero (by rw [List.take_append_drop]; exact hlb),
    (CodeTree.new_ok_iff_complete (by omega) (by omega) hlit15).1 ⟨lt, h10⟩, ha1, ?_,
    ⟨by omega, hlit15, h10⟩, ha2⟩
  rw [hlitlen, hdistlen, hsplit, e1, e2, e3, e4, e5, e6, e7, e8, e9]
  simp only [List.flatMap_append, List.flatMap_cons, List.flatMap_nil, List.append_nil,
    List.append_assoc, g16, g17, g18, g0, Nat.add_sub_cancel]

/-- Every header of the specification is accepted. -/
theorem readCodes_complete {lit dist : List Nat} {alpha : Option (List Nat)} {hdr : List Bool}
    (hh : HeaderBits lit dist hdr) (hc : Complete lit) (hd : DistAlphabet dist alpha)
    (rest : List Bool) :
    ∃ lt dt, readCodes.exec (hdr ++ rest) = .ok (lt, dt) rest ∧ CodeTree.IsTree lit lt ∧
      IsOptTree alpha dt := by
  obtain ⟨cl, n, body, h257, h288, h1, h32, h4, h19, c19, c8, ccomp, cz, hlb⟩ := hh
  have hcl15 : ∀ l ∈ cl, l ≤ 15 := fun l hl => by have := c8 l hl; omega
  obtain ⟨t, ht0⟩ := (CodeTree.new_ok_iff_complete (by omega) (by omega) hcl15).2 ccomp
  have ht : CodeTree.IsTree cl t := ⟨by omega, hcl15, ht0⟩
  have hl15 := LensBits.le15 hlb (by simp)
  have hlit15 : ∀ l ∈ lit, l ≤ 15 := fun l hl => hl15 l (by simp [hl])
  have hdist15 : ∀ l ∈ dist, l ≤ 15 := fun l hl => hl15 l (by simp [hl])
  obtain ⟨lt, hlt⟩ := (CodeTree.new_ok_iff_complete (by omega) (by omega) hlit15).2 hc
  have hdt : ∃ dt, IsOptTree alpha dt := by
    cases hd with
    | unused => exact ⟨none, trivial⟩
    | single a b ha hb =>
      have hle : ∀ l ∈ List.replicate a 0 ++ [1] ++ List.replicate (30 - a) 0 ++ [1], l ≤ 15 := by
        intro l hl
        simp only [List.mem_append, List.mem_replicate, List.mem_singleton] at hl
        omega
      obtain ⟨t, ht⟩ := (CodeTree.new_ok_iff_complete (by simp; omega) (by simp; omega) hle).2
        (complete_single a)
      exact ⟨some t, by simp; omega, hle, ht⟩
    | complete ls h2 hcomp =>
      obtain ⟨t, ht⟩ := (CodeTree.new_ok_iff_complete h2 (by omega) hdist15).2 hcomp
      exact ⟨some t, by omega, hdist15, ht⟩
  obtain ⟨dt, hdt⟩ := hdt
  have hdt' := (distanceTree_iff h1 h32 hdist15 dt).2 ⟨alpha, hd, hdt⟩
  refine ⟨lt, dt, ?_, ⟨by omega, hlit15, hlt⟩, hdt⟩
  obtain ⟨k, rfl⟩ : ∃ k, n = k + 4 := ⟨n - 4, by omega⟩
  have hsplit : clOrder.take (k + 4) = [16, 17, 18, 0] ++ (clOrder.drop (4 + 0)).take k := by
    rw [Nat.add_comm k 4, List.take_add]
    rfl
  have hget : ∀ s, cl.getD s 0 < 8 := by
    intro s
    by_cases hs : s < cl.length
    · have : cl.getD s 0 = cl[s] := by simp [List.getD, hs]
      rw [this]; exact c8 _ (List.getElem_mem hs)
    · simp [List.getD, List.getElem?_eq_none (Nat.not_lt.1 hs)]
  rw [hsplit]
  simp only [List.flatMap_append, List.flatMap_cons, List.flatMap_nil, List.append_nil,
    List.append_assoc]
  unfold readCodes
  simp only [BitProg.bind_eq]
  rw [BitProg.exec_bind_ok (BitProg.exec_readPart_lsb (by omega) (by simp; omega) _),
    BitProg.exec_bind_ok (BitProg.exec_readPart_lsb (by omega) (by simp; omega) _),
    BitProg.exec_bind_ok (BitProg.exec_readPart_lsb (by omega) (by simp; omega) _),
    BitProg.exec_bind_ok (BitProg.exec_readPart_lsb (by omega) (hget _) _),
    BitProg.exec_bind_ok (BitProg.exec_readPart_lsb (by omega) (hget _) _),
    BitProg.exec_bind_ok (BitProg.exec_readPart_lsb (by omega) (hget _) _),
    BitProg.exec_bind_ok (BitProg.exec_readPart_lsb (by omega) (hget _) _), clSet]
  have hcl : (readCodeLenLens 0 (k + 4 - 4 + 4 - 4) [cl.getD 0 0, 0, 0, 0, 0, 0, 0, 0, 0, 0, 0, 0, 0,
      0, 0, 0, cl.getD 16 0, cl.getD 17 0, cl.getD 18 0]).exec
      (((clOrder.drop (4 + 0)).take k).flatMap (fun s => lsbBits 3 (cl.getD s 0)) ++
        (body ++ rest)) = .ok cl (body ++ rest) := by
    rw [show k + 4 - 4 + 4 - 4 = k by omega]
    refine (exec_readCodeLenLens (by omega) rfl).2 ⟨c19, fun s _ => hget s, ?_, rfl⟩
    intro s hs
    by_cases h19 : s < 19
    · by_cases hm4 : s ∈ [16, 17, 18, 0]
      · simp only [List.mem_cons, List.not_mem_nil, or_false] at hm4
        rcases hm4 with rfl | rfl | rfl | rfl <;> rfl
      · have hall : s ∈ clOrder := by
          have : ∀ s : Fin 19, s.val ∈ clOrder := by decide
          exact this ⟨s, h19⟩
        rw [← List.take_append_drop (k + 4) clOrder, hsplit] at hall
        have hd : s ∈ clOrder.drop (k + 4) := by
          rcases List.mem_append.1 hall with h | h
          · rcases List.mem_append.1 h with h | h
            · exact absurd h hm4
            · exact absurd h hs
          · exact h
        rw [cz s hd]
        have hs4 : s ∈ clOrder.drop 4 := by
          rw [Nat.add_comm, ← List.drop_drop] at hd
          exact List.mem_of_mem_drop hd
        have : ∀ s ∈ clOrder.drop 4, [cl.getD 0 0, 0, 0, 0, 0, 0, 0, 0, 0, 0, 0, 0, 0, 0, 0, 0,
            cl.getD 16 0, cl.getD 17 0, cl.getD 18 0].getD s 0 = 0 := by
          simp [clOrder]
        exact (this s hs4).symm
    · simp only [List.getD]
      rw [List.getElem?_eq_none (by omega), List.getElem?_eq_none (by simp; omega)]
  rw [BitProg.exec_bind_ok hcl, ht0, BitProg.exec_bind_ok (BitProg.exec_ofExcept_ok _ _)]
  have hL : lit.length - 257 + 257 + (dist.length - 1 + 1) = (lit ++ dist).length := by
    rw [List.length_append]; omega
  have hloop := loop_complete ht (dn := []) (i := 0) (L := (lit ++ dist).length)
    (fuel := 2 * (lit ++ dist).length + 1) (rest := rest) hlb
    (by intro h; rw [List.append_eq_nil_iff] at h; rw [h.1] at h257; simp at h257) rfl
    (by simp) (by omega)
  simp only [Nat.sub_zero, List.nil_append] at hloop
  rw [hL, BitProg.exec_bind_ok hloop, show lit.length - 257 + 257 = lit.length by omega,
    List.take_left, List.drop_left, hlt, BitProg.exec_bind_ok (BitProg.exec_ofExcept_ok _ _), hdt',
    BitProg.exec_bind_ok (BitProg.exec_ofExcept_ok _ _)]
  rfl

end Huffman

end Rezip
