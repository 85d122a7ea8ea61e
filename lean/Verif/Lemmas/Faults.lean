import Verif.Spec.Faults
import Verif.Lemmas.Parse

/-! Every failure of the parser is a fault of the specification, and the other way round. -/

namespace Rezip

open Spec

/-! ### Trees -/

namespace CodeTree

theorem even_iff_dvd {lens : List Nat} (h15 : ∀ l ∈ lens, l ≤ 15) :
    Even lens ↔ kraft lens % 2 ^ 15 = 0 := by
  rw [kraft_eq_weight h15]
  constructor
  · intro he
    rw [← weight_nodesAt 15 he]
    exact Nat.mul_mod_left _ _
  · intro hk
    have he : ∀ j, j ≤ 15 → ∀ i, i ≤ j → (nodesAt lens i).length % 2 = 0 := by
      intro j hj
      induction j with
      | zero => intro i hi; rw [show i = 0 by omega]; rfl
      | succ j ih =>
        intro i hi
        have ihj := ih (by omega)
        by_cases hij : i ≤ j
        · exact ihj i hij
        · rw [show i = j + 1 by omega]
          have h1 := weight_nodesAt j ihj
          obtain ⟨x, hx⟩ := weight_add lens (j + 1) (15 - j)
          have h15 : (2 : Nat) ^ 15 = 2 ^ j * (2 * 2 ^ (14 - j)) := by
            rw [← Nat.pow_succ', ← Nat.pow_add, show j + (14 - j + 1) = 15 by omega]
          obtain ⟨y, hy⟩ := Nat.dvd_of_mod_eq_zero hk
          rw [show j + 1 + (15 - j) = 16 by omega, hy, ← h1, h15,
            Nat.pow_succ, Nat.mul_comm _ (2 ^ j), Nat.mul_assoc, Nat.mul_assoc, Nat.mul_assoc (2 ^ j) 2 x,
            ← Nat.mul_add] at hx
          have := Nat.eq_of_mul_eq_mul_left (Nat.pow_pos (Nat.zero_lt_succ 1)) hx
          omega
    exact fun i hi => he 15 (by omega) i hi

theorem new_refused {lens : List Nat} (hl : lens.length ≤ 65536) (h15 : ∀ l ∈ lens, l ≤ 15)
    (h : ¬ (2 ≤ lens.length ∧ Complete lens)) : CodeTree.new lens = .error (.err (treeError lens)) := by
  unfold CodeTree.new treeError
  by_cases h2 : 2 ≤ lens.length
  · rw [ensure_of (by simpa using h2), Ex.ok_bind, ensure_of (by simp; omega), Ex.ok_bind, if_neg (by omega)]
    by_cases he : Even lens
    · rw [(levels_eq hl _).2 ⟨he, rfl⟩, Ex.ok_bind, if_neg (fun hh => hh ((even_iff_dvd h15).1 he))]
      have hn : (nodesAt lens 16).length ≠ 1 := fun h1 => h ⟨h2, (even_iff_complete h15).1 ⟨he, h1⟩⟩
      have : (1 == (nodesAt lens 16).length) = false := by rw [beq_eq_false_iff_ne]; exact Ne.symm hn
      rw [this, ensure_false, Ex.error_bind]
    · rw [if_pos (fun hh => he ((even_iff_dvd h15).2 hh))]
      cases hx : levelsFrom lens 15 [] with
      | ok out => exact absurd ((levels_eq hl out).1 hx).1 he
      | error e => rw [levelsFrom_error hl _ _ _ hx, Ex.error_bind]
  · have : decide (lens.length ≥ 2) = false := by simpa using h2
    rw [this, ensure_false, Ex.error_bind, if_pos (by omega)]

theorem new_fault {lens : List Nat} (hl : lens.length ≤ 65536) (h15 : ∀ l ∈ lens, l ≤ 15) {e : Fail}
    (h : CodeTree.new lens = .error e) : ¬ (2 ≤ lens.length ∧ Complete lens) ∧ e = .err (treeError lens) := by
  have hn : ¬ (2 ≤ lens.length ∧ Complete lens) := by
    rintro ⟨h2, hc⟩
    obtain ⟨t, ht⟩ := (new_ok_iff_complete h2 hl h15).2 hc
    rw [ht] at h
    cases h
  rw [new_refused hl h15 hn] at h
  exact ⟨hn, (Except.error.inj h).symm⟩

end CodeTree

namespace Huffman

theorem distanceTree_refused {ls : List Nat} (h1 : 1 ≤ ls.length) (h32 : ls.length ≤ 32) (h15 : ∀ l ∈ ls, l ≤ 15)
    (h : ∀ alpha, ¬ DistAlphabet ls alpha) : distanceTree ls = .error (.err (treeError ls)) := by
  have hn : ¬ (2 ≤ ls.length ∧ Complete ls) := fun hh => h _ (.complete ls hh.1 hh.2)
  unfold distanceTree
  by_cases h0 : ls.length = 1 ∧ ls.head? = some 0
  · have hls : ls = [0] := by
      obtain ⟨ha, hb⟩ := h0
      match ls, ha with
      | [x], _ => simpa using hb
    subst hls
    exact absurd .unused (h none)
  · have hc : (ls.length == 1 && ls.head? == some 0) = false := by
      rw [Bool.and_eq_false_iff]
      by_cases ha : ls.length = 1
      · right; simp only [beq_eq_false_iff_ne, ne_eq]; exact fun hb => h0 ⟨ha, hb⟩
      · left; simpa using ha
    simp only [hc, if_false, Bool.false_eq_true]
    by_cases hs : (ls.filter (fun x => x == 1)).length = 1 ∧ (ls.filter (fun x => decide (x > 1))).length = 0
    · have hs' : ((ls.filter (fun x => x == 1)).length == 1 &&
          (ls.filter (fun x => decide (x > 1))).length == 0) = true := by
        rw [hs.1, hs.2]; rfl
      simp only [hs', if_true]
      obtain ⟨a, b, rfl⟩ := single_of_counts hs.1 hs.2
      have hlen : (List.replicate a 0 ++ [1] ++ List.replicate b 0).length = a + 1 + b := by simp; omega
      rw [hlen] at h32
      by_cases ha : a ≤ 30
      · exact absurd (.single a b ha h32) (h _)
      · have ha31 : a = 31 ∧ b = 0 := by omega
        obtain ⟨rfl, rfl⟩ := ha31
        have : (List.replicate 31 0 ++ [1] ++ List.replicate 0 0).take
            (min (List.replicate 31 0 ++ [1] ++ List.replicate 0 0).length 31) ++
            List.replicate (31 - min (List.replicate 31 0 ++ [1] ++ List.replicate 0 0).length 31) 0 ++ [1] =
            List.replicate 31 0 ++ [1] ++ List.replicate 0 0 := by decide
        rw [this, CodeTree.new_refused (by simp) h15 hn]
        rfl
    · have hs' : ((ls.filter (fun x => x == 1)).length == 1 &&
          (ls.filter (fun x => decide (x > 1))).length == 0) = false := by
        rw [Bool.and_eq_false_iff]
        by_cases ha : (ls.filter (fun x => x == 1)).length = 1
        · right; simp only [beq_eq_false_iff_ne, ne_eq]; exact fun hb => hs ⟨ha, hb⟩
        · left; simpa using ha
      simp only [hs', if_false, Bool.false_eq_true]
      rw [CodeTree.new_refused (by omega) h15 hn]
      rfl

theorem distanceTree_fault {ls : List Nat} (h1 : 1 ≤ ls.length) (h32 : ls.length ≤ 32) (h15 : ∀ l ∈ ls, l ≤ 15)
    {e : Fail} (h : distanceTree ls = .error e) : (∀ alpha, ¬ DistAlphabet ls alpha) ∧ e = .err (treeError ls) := by
  have hn : ∀ alpha, ¬ DistAlphabet ls alpha := by
    intro alpha ha
    have hdt : ∃ dt, IsOptTree alpha dt := by
      cases ha with
      | unused => exact ⟨none, trivial⟩
      | single a b ha hb =>
        have hle : ∀ l ∈ List.replicate a 0 ++ [1] ++ List.replicate (30 - a) 0 ++ [1], l ≤ 15 := by
          intro l hl
          simp only [List.mem_append, List.mem_replicate, List.mem_singleton] at hl
          omega
        obtain ⟨t, ht⟩ := (CodeTree.new_ok_iff_complete (by simp; omega) (by simp; omega) hle).2 (complete_single a)
        exact ⟨some t, by simp; omega, hle, ht⟩
      | complete ls h2 hcomp =>
        obtain ⟨t, ht⟩ := (CodeTree.new_ok_iff_complete h2 (by omega) h15).2 hcomp
        exact ⟨some t, by omega, h15, ht⟩
    obtain ⟨dt, hdt⟩ := hdt
    rw [(distanceTree_iff h1 h32 h15 dt).2 ⟨alpha, ha, hdt⟩] at h
    cases h
  rw [distanceTree_refused h1 h32 h15 hn] at h
  exact ⟨hn, (Except.error.inj h).symm⟩

/-! ### The run-length coded lengths -/

/-- `LensFault`, step by step. -/
inductive StepFault (cl : List Nat) : Option Nat → Nat → Err → List Bool → Prop
  | noValue (n : Nat) (c : List Bool) : codeOf cl 16 = some c → StepFault cl none n .noValueToCopy c
  | tooLong (prev : Option Nat) (n k v : Nat) (b : List Bool) : RunBits cl prev k v b → 0 < n → n < k →
      StepFault cl prev n .runExceeds b
  | len (prev : Option Nat) (l n : Nat) (e : Err) (c bs : List Bool) : l ≤ 15 → codeOf cl l = some c → 0 < n →
      StepFault cl (some l) n e bs → StepFault cl prev (1 + n) e (c ++ bs)
  | run (prev : Option Nat) (k v n : Nat) (e : Err) (b bs : List Bool) : RunBits cl prev k v b → 0 < n →
      StepFault cl (some v) n e bs → StepFault cl prev (k + n) e (b ++ bs)

theorem LensBits.run {cl : List Nat} {prev : Option Nat} {k v : Nat} {b : List Bool} (h : RunBits cl prev k v b)
    {ls : List Nat} {bs : List Bool} (h2 : LensBits cl (some v) ls bs) :
    LensBits cl prev (List.replicate k v ++ ls) (b ++ bs) := by
  cases h with
  | copy p v c hv hc => exact .copy _ _ _ _ _ hv hc h2
  | zeros prev v c hv hc => exact .zeros _ _ _ _ _ hv hc h2
  | manyZeros prev v c hv hc => exact .manyZeros _ _ _ _ _ hv hc h2

theorem RunBits.pos {cl : List Nat} {prev : Option Nat} {k v : Nat} {b : List Bool} (h : RunBits cl prev k v b) :
    0 < k := by
  cases h <;> omega

theorem getLast?_or_cons (l : Nat) (ls : List Nat) (prev : Option Nat) :
    ((l :: ls).getLast?).or prev = (ls.getLast?).or (some l) := by
  cases ls with
  | nil => rfl
  | cons a as => rw [List.getLast?_cons_cons, List.getLast?_cons]; rfl

theorem getLast?_or_replicate (k v : Nat) (hk : 0 < k) (ls : List Nat) (prev : Option Nat) :
    ((List.replicate k v ++ ls).getLast?).or prev = (ls.getLast?).or (some v) := by
  cases ls with
  | nil =>
    obtain ⟨k, rfl⟩ : ∃ j, k = j + 1 := ⟨k - 1, by omega⟩
    rw [List.append_nil, List.replicate_succ', List.getLast?_concat]
    rfl
  | cons a as => rw [List.getLast?_append, List.getLast?_cons]; rfl

theorem StepFault.spec {cl : List Nat} {prev : Option Nat} {n : Nat} {e : Err} {bs : List Bool}
    (h : StepFault cl prev n e bs) :
    (prev = none ∧ e = .noValueToCopy ∧ codeOf cl 16 = some bs) ∨
    (e = .runExceeds ∧ ∃ ls k v a b, LensBits cl prev ls a ∧ ls.length < n ∧ RunBits cl (ls.getLast?.or prev) k v b ∧
      n < ls.length + k ∧ bs = a ++ b) := by
  induction h with
  | noValue n c hc => exact .inl ⟨rfl, rfl, hc⟩
  | tooLong prev n k v b hr h0 hk => exact .inr ⟨rfl, [], k, v, [], b, .nil _, h0, hr, by simpa using hk, rfl⟩
  | len prev l n e c bs hl hc h0 hs ih =>
    rcases ih with ⟨h, _⟩ | ⟨he, ls, k, v, a, b, h1, h2, h3, h4, rfl⟩
    · cases h
    · refine .inr ⟨he, l :: ls, k, v, c ++ a, b, .len _ _ _ _ _ hl hc h1, by simp; omega, ?_, by simp; omega,
        by simp⟩
      rw [getLast?_or_cons]; exact h3
  | run prev k v n e b bs hr h0 hs ih =>
    rcases ih with ⟨h, _⟩ | ⟨he, ls, k', v', a, b', h1, h2, h3, h4, rfl⟩
    · cases h
    · refine .inr ⟨he, List.replicate k v ++ ls, k', v', b ++ a, b', LensBits.run hr h1, by simp; omega, ?_,
        by simp; omega, by simp⟩
      rw [getLast?_or_replicate _ _ (RunBits.pos hr)]; exact h3

theorem StepFault.of_lens {cl : List Nat} {prev : Option Nat} {ls : List Nat} {a : List Bool}
    (h : LensBits cl prev ls a) {n k v : Nat} {b : List Bool} (hn : ls.length < n)
    (hr : RunBits cl (ls.getLast?.or prev) k v b) (hk : n < ls.length + k) :
    StepFault cl prev n .runExceeds (a ++ b) := by
  induction h generalizing n with
  | nil prev => exact .tooLong prev n k v b hr (by simpa using hn) (by simpa using hk)
  | len prev l ls c bs hl hc _ ih =>
    rw [getLast?_or_cons] at hr
    simp only [List.length_cons] at hn hk
    obtain ⟨m, rfl⟩ : ∃ m, n = 1 + m := ⟨n - 1, by omega⟩
    rw [List.append_assoc]
    exact .len _ _ _ _ _ _ hl hc (by omega) (ih (by omega) hr (by omega))
  | copy p w ls c bs hv hc _ ih =>
    rw [getLast?_or_replicate _ _ (by omega)] at hr
    simp only [List.length_append, List.length_replicate] at hn hk
    obtain ⟨m, rfl⟩ : ∃ m, n = (3 + w) + m := ⟨n - (3 + w), by omega⟩
    rw [List.append_assoc]
    exact .run _ _ _ _ _ _ _ (.copy p w c hv hc) (by omega) (ih (by omega) hr (by omega))
  | zeros prev w ls c bs hv hc _ ih =>
    rw [getLast?_or_replicate _ _ (by omega)] at hr
    simp only [List.length_append, List.length_replicate] at hn hk
    obtain ⟨m, rfl⟩ : ∃ m, n = (3 + w) + m := ⟨n - (3 + w), by omega⟩
    rw [List.append_assoc]
    exact .run _ _ _ _ _ _ _ (.zeros prev w c hv hc) (by omega) (ih (by omega) hr (by omega))
  | manyZeros prev w ls c bs hv hc _ ih =>
    rw [getLast?_or_replicate _ _ (by omega)] at hr
    simp only [List.length_append, List.length_replicate] at hn hk
    obtain ⟨m, rfl⟩ : ∃ m, n = (11 + w) + m := ⟨n - (11 + w), by omega⟩
    rw [List.append_assoc]
    exact .run _ _ _ _ _ _ _ (.manyZeros prev w c hv hc) (by omega) (ih (by omega) hr (by omega))

theorem stepFault_iff {cl : List Nat} {n : Nat} {e : Err} {bs : List Bool} :
    StepFault cl none n e bs ↔ LensFault cl n e bs := by
  constructor
  · intro h
    rcases h.spec with ⟨_, rfl, hc⟩ | ⟨rfl, ls, k, v, a, b, h1, h2, h3, h4, rfl⟩
    · exact .noValue _ hc
    · rw [Option.or_none] at h3
      exact .tooLong ls k v a b h1 h2 h3 h4
  · intro h
    cases h with
    | noValue c hc => exact .noValue n bs hc
    | tooLong ls k v a b h1 h2 h3 h4 => exact .of_lens h1 h2 (by rw [Option.or_none]; exact h3) h4

section loop

variable {cl : List Nat} {t : CodeTree}

/-- A pending run that is too long. -/
theorem loop_tooLong {L p : Nat} {bs : List Bool} (f : Nat) : ∀ (k i : Nat) (dn : List Nat), L - i < k → L - i ≤ f →
    i < L → dn.length = i →
    (codeLensLoop t L f i (some p) k (dn ++ List.replicate (L - i) 0)).exec bs = .fail (.err .runExceeds) := by
  induction f with
  | zero => intro k i dn h1 h2 h3; omega
  | succ f ih =>
    intro k i dn h1 h2 h3 hd
    obtain ⟨k, rfl⟩ : ∃ k', k = k' + 1 := ⟨k - 1, by omega⟩
    rw [codeLensLoop.eq_def]
    simp only [gt_iff_lt, Nat.zero_lt_succ, if_true, BitProg.bind_eq, BitProg.bind_assoc]
    rw [indexSet_ok (by simp; omega), set_done hd h3, BitProg.exec_bind_ok (BitProg.exec_ofExcept_ok _ _)]
    simp only [BitProg.pure_eq, BitProg.bind, Nat.add_sub_cancel]
    by_cases hend : i + 1 ≥ L
    · rw [if_pos hend]
      have : (k == 0) = false := by simp; omega
      rw [this]
      rfl
    · rw [if_neg hend]
      exact ih k (i + 1) (dn ++ [p]) (by omega) (by omega) (by omega) (by simp [hd])

/-- A run record makes a pending run. -/
theorem loop_record (ht : CodeTree.IsTree cl t) {L fuel i k v : Nat} {rv : Option Nat} {cls : List Nat}
    {b : List Bool} (hr : RunBits cl rv k v b) (hi : i < L) (bs : List Bool) :
    (codeLensLoop t L (fuel + 1) i rv 0 cls).exec (b ++ bs) = (codeLensLoop t L fuel i (some v) k cls).exec bs := by
  cases hr with
  | copy p v c hv hc =>
    rw [List.append_assoc, loop_copy ht hc hi, BitProg.exec_bind_ok (BitProg.exec_readPart_lsb (by omega) hv _),
      Nat.add_comm v 3]
  | zeros prev v c hv hc =>
    rw [List.append_assoc, loop_zeros ht hc hi, BitProg.exec_bind_ok (BitProg.exec_readPart_lsb (by omega) hv _),
      Nat.add_comm v 3]
  | manyZeros prev v c hv hc =>
    rw [List.append_assoc, loop_manyZeros ht hc hi, BitProg.exec_bind_ok (BitProg.exec_readPart_lsb (by omega) hv _),
      Nat.add_comm v 11]

theorem loop_refused (ht : CodeTree.IsTree cl t) {L fuel i n : Nat} {rv : Option Nat} {dn : List Nat}
    {e : Err} {bs : List Bool} (h : StepFault cl rv n e bs) (hd : dn.length = i) (hi : i < L) (hn : L = i + n)
    (hf : 2 * (L - i) ≤ fuel) (rest : List Bool) :
    (codeLensLoop t L fuel i rv 0 (dn ++ List.replicate (L - i) 0)).exec (bs ++ rest) = .fail (.err e) := by
  induction h generalizing fuel i dn with
  | noValue n c hc =>
    obtain ⟨fuel, rfl⟩ : ∃ f, fuel = f + 1 := ⟨fuel - 1, by omega⟩
    exact loop_copy_none ht hc
  | tooLong prev n k v b hr h0 hk =>
    obtain ⟨fuel, rfl⟩ : ∃ f, fuel = f + 1 := ⟨fuel - 1, by omega⟩
    rw [loop_record ht hr hi]
    exact loop_tooLong fuel k i dn (by omega) (by omega) hi hd
  | len prev l n e c bs hl hc h0 _ ih =>
    obtain ⟨fuel, rfl⟩ : ∃ f, fuel = f + 1 := ⟨fuel - 1, by omega⟩
    rw [List.append_assoc, loop_lit ht hl hc (by simp; omega), set_done hd hi, if_neg (by omega)]
    exact ih (by simp [hd]) (by omega) (by omega) (by omega)
  | run prev k v n e b bs hr h0 _ ih =>
    have hk := RunBits.pos hr
    obtain ⟨fuel, rfl⟩ : ∃ f, fuel = f + 1 := ⟨fuel - 1, by omega⟩
    rw [List.append_assoc, loop_record ht hr hi, loop_run hk (by omega) hd hi, if_pos (by omega)]
    have := ih (dn := dn ++ List.replicate k v) (i := i + k) (fuel := fuel - k) (by simp [hd]) (by omega) (by omega)
      (by omega)
    simpa using this

theorem loop_fault (ht : CodeTree.IsTree cl t) (h19 : cl.length = 19) {L fuel i : Nat}
    {rv : Option Nat} {dn : List Nat} {bs : List Bool} {e : Fail}
    (hd : dn.length = i) (hi : i < L) (hf : 2 * (L - i) ≤ fuel)
    (h : (codeLensLoop t L fuel i rv 0 (dn ++ List.replicate (L - i) 0)).exec bs = .fail e) :
    ∃ x u rest, e = .err x ∧ StepFault cl rv (L - i) x u ∧ bs = u ++ rest := by
  induction hm : L - i using Nat.strongRecOn generalizing fuel i rv dn bs with
  | ind m IH =>
  subst hm
  obtain ⟨fuel, rfl⟩ : ∃ f, fuel = f + 1 := ⟨fuel - 1, by omega⟩
  -- what happens once a run has been announced
  have hrun : ∀ (k p : Nat) (b bs : List Bool), RunBits cl rv k p b →
      (codeLensLoop t L (fuel + 1) i rv 0 (dn ++ List.replicate (L - i) 0)).exec (b ++ bs) = .fail e →
      ∃ x u rest, e = .err x ∧ StepFault cl rv (L - i) x u ∧ b ++ bs = u ++ rest := by
    intro k p b bs hr h
    have hk := RunBits.pos hr
    rw [loop_record ht hr hi] at h
    by_cases hlong : L - i < k
    · rw [loop_tooLong fuel k i dn hlong (by omega) hi hd] at h
      cases h
      exact ⟨_, b, bs, rfl, .tooLong rv _ k p b hr (by omega) hlong, rfl⟩
    · rw [loop_run hk (by omega) hd hi] at h
      by_cases h1 : k < L - i
      · rw [if_pos h1] at h
        obtain ⟨x, u, rest, he, hs, hb⟩ := IH (L - (i + k)) (by omega) (fuel := fuel - k) (i := i + k) (rv := some p)
          (dn := dn ++ List.replicate k p) (bs := bs) (by simp [hd]) (by omega) (by omega) h rfl
        refine ⟨x, b ++ u, rest, he, ?_, by rw [hb, List.append_assoc]⟩
        have := StepFault.run rv k p _ x b u hr (by omega) hs
        rwa [show k + (L - (i + k)) = L - i by omega] at this
      · rw [if_neg h1, if_pos (by omega)] at h
        cases h
  cases hdec : t.decodeSymbol.exec bs with
  | fail e => exact absurd hdec CodeTree.IsTree.decode_ne_fail
  | starved =>
    have : (codeLensLoop t L (fuel + 1) i rv 0 (dn ++ List.replicate (L - i) 0)).exec bs = .starved := by
      rw [codeLensLoop.eq_def]
      simp only [gt_iff_lt, Nat.lt_irrefl, if_false, BitProg.bind_eq, BitProg.bind_assoc]
      rw [BitProg.exec_bind, hdec]
    rw [this] at h
    cases h
  | ok s bs1 =>
    obtain ⟨c, hc, rfl⟩ := ht.decode_inv hdec
    obtain ⟨hs, _⟩ := CodeTree.codeOf_lt hc
    by_cases h15 : s ≤ 15
    · rw [loop_lit ht h15 hc (by simp; omega), set_done hd hi] at h
      by_cases hend : i + 1 ≥ L
      · rw [if_pos hend] at h
        cases h
      · rw [if_neg hend] at h
        obtain ⟨x, u, rest, he, hs, hb⟩ := IH (L - (i + 1)) (by omega) (fuel := fuel) (i := i + 1) (rv := some s)
          (dn := dn ++ [s]) (bs := bs1) (by simp [hd]) (by omega) (by omega) h rfl
        refine ⟨x, c ++ u, rest, he, ?_, by rw [hb, List.append_assoc]⟩
        have := StepFault.len rv s _ x c u h15 hc (by omega) hs
        rwa [show 1 + (L - (i + 1)) = L - i by omega] at this
    · have hs' : s = 16 ∨ s = 17 ∨ s = 18 := by omega
      rcases hs' with rfl | rfl | rfl
      · cases rv with
        | none =>
          rw [loop_copy_none ht hc] at h
          cases h
          exact ⟨_, c, bs1, rfl, .noValue _ c hc, rfl⟩
        | some p =>
          have h0 := h
          rw [loop_copy ht hc hi, BitProg.exec_bind] at h
          cases hr : (BitProg.readPart 2).exec bs1 with
          | fail e => exact absurd hr (BitProg.exec_readPart_ne_fail (by omega))
          | starved => rw [hr] at h; cases h
          | ok n bs2 =>
            obtain ⟨hn, rfl⟩ := (BitProg.exec_readPart_eq_ok (by omega)).1 hr
            rw [← List.append_assoc] at h0 ⊢
            exact hrun _ _ _ _ (.copy p n c hn hc) h0
      · have h0 := h
        rw [loop_zeros ht hc hi, BitProg.exec_bind] at h
        cases hr : (BitProg.readPart 3).exec bs1 with
        | fail e => exact absurd hr (BitProg.exec_readPart_ne_fail (by omega))
        | starved => rw [hr] at h; cases h
        | ok n bs2 =>
          obtain ⟨hn, rfl⟩ := (BitProg.exec_readPart_eq_ok (by omega)).1 hr
          rw [← List.append_assoc] at h0 ⊢
          exact hrun _ _ _ _ (.zeros rv n c hn hc) h0
      · have h0 := h
        rw [loop_manyZeros ht hc hi, BitProg.exec_bind] at h
        cases hr : (BitProg.readPart 7).exec bs1 with
        | fail e => exact absurd hr (BitProg.exec_readPart_ne_fail (by omega))
        | starved => rw [hr] at h; cases h
        | ok n bs2 =>
          obtain ⟨hn, rfl⟩ := (BitProg.exec_readPart_eq_ok (by omega)).1 hr
          rw [← List.append_assoc] at h0 ⊢
          exact hrun _ _ _ _ (.manyZeros rv n c hn hc) h0

end loop

/-! ### The whole header -/

/-- The part of `read_codes` before the code length code is built. -/
def readStart : BitProg (Nat × Nat × List Nat) := do
  let hlit ← BitProg.readPart 5
  let hdist ← BitProg.readPart 5
  let hclen ← BitProg.readPart 4
  let l16 ← BitProg.readPart 3
  let l17 ← BitProg.readPart 3
  let l18 ← BitProg.readPart 3
  let l0 ← BitProg.readPart 3
  let cl ← readCodeLenLens 0 (hclen + 4 - 4)
    (((((List.replicate 19 0).set 16 l16).set 17 l17).set 18 l18).set 0 l0)
  pure (hlit, hdist, cl)

/-- The rest of it. -/
def readRest (hlit hdist : Nat) (cl : List Nat) : BitProg (CodeTree × Option CodeTree) := do
  let codeLenCode ← BitProg.ofExcept (CodeTree.new cl)
  let codeLens ← codeLensLoop codeLenCode (hlit + 257 + (hdist + 1)) (2 * (hlit + 257 + (hdist + 1)) + 1) 0 none 0
    (List.replicate (hlit + 257 + (hdist + 1)) 0)
  let litLenCode ← BitProg.ofExcept (CodeTree.new (codeLens.take (hlit + 257)))
  let distTree ← BitProg.ofExcept (distanceTree (codeLens.drop (hlit + 257)))
  pure (litLenCode, distTree)

theorem readCodes_split : readCodes = readStart.bind fun p => readRest p.1 p.2.1 p.2.2 := by
  unfold readCodes readStart readRest
  simp only [BitProg.bind_eq, BitProg.bind_assoc, BitProg.pure_eq, BitProg.bind]

theorem readStart_ne_fail {bs : List Bool} {e : Fail} : readStart.exec bs ≠ .fail e := by
  intro h
  unfold readStart at h
  simp only [BitProg.bind_eq, BitProg.exec_bind_eq_fail] at h
  rcases h with h | ⟨hlit, _, _, h⟩
  · exact BitProg.exec_readPart_ne_fail (by omega) h
  rcases h with h | ⟨hdist, _, _, h⟩
  · exact BitProg.exec_readPart_ne_fail (by omega) h
  rcases h with h | ⟨hclen, _, hc, h⟩
  · exact BitProg.exec_readPart_ne_fail (by omega) h
  rcases h with h | ⟨l16, _, _, h⟩
  · exact BitProg.exec_readPart_ne_fail (by omega) h
  rcases h with h | ⟨l17, _, _, h⟩
  · exact BitProg.exec_readPart_ne_fail (by omega) h
  rcases h with h | ⟨l18, _, _, h⟩
  · exact BitProg.exec_readPart_ne_fail (by omega) h
  rcases h with h | ⟨l0, _, _, h⟩
  · exact BitProg.exec_readPart_ne_fail (by omega) h
  have h16 := ((BitProg.exec_readPart_eq_ok (by omega)).1 hc).1
  simp only [Nat.reducePow] at h16
  rcases h with h | ⟨cl, _, _, h⟩
  · exact exec_readCodeLenLens_ne_fail (by omega) (by simp) h
  · simp at h

theorem exec_readStart {bs rest : List Bool} {hlit hdist : Nat} {cl : List Nat} :
    readStart.exec bs = .ok (hlit, hdist, cl) rest ↔
      ∃ a, StartBits (hlit + 257) (hdist + 1) cl a ∧ bs = a ++ rest := by
  constructor
  · intro h
    unfold readStart at h
    simp only [BitProg.bind_eq, BitProg.exec_bind_eq_ok, BitProg.exec_readPart_eq_ok (show 5 ≤ 16 by omega),
      BitProg.exec_readPart_eq_ok (show 4 ≤ 16 by omega), BitProg.exec_readPart_eq_ok (show 3 ≤ 16 by omega)] at h
    obtain ⟨x1, bs1, ⟨hlit5, e1⟩, x2, bs2, ⟨hdist5, e2⟩, hclen, bs3, ⟨hclen4, e3⟩, l16, bs4, ⟨hl16, e4⟩, l17, bs5,
      ⟨hl17, e5⟩, l18, bs6, ⟨hl18, e6⟩, l0, bs7, ⟨hl0, e7⟩, cl', bs8, h8, h9⟩ := h
    simp only [BitProg.pure_eq, BitProg.exec_done, ExecRes.ok.injEq, Prod.mk.injEq] at h9
    obtain ⟨⟨rfl, rfl, rfl⟩, rfl⟩ := h9
    rw [clSet] at h8
    have hN : 0 + (hclen + 4 - 4) ≤ 15 := by simp at hclen4; omega
    obtain ⟨c19, c8, cz, e8⟩ := (exec_readCodeLenLens hN rfl).1 h8
    rw [Nat.add_sub_cancel] at c8 cz e8
    have c4 : ∀ s ∈ [16, 17, 18, 0], s ∉ (clOrder.drop (4 + 0)).take hclen := by
      intro s hs hm
      have hall : ∀ s ∈ [16, 17, 18, 0], s ∉ clOrder.drop (4 + 0) := by decide
      exact hall s hs (List.mem_of_mem_take hm)
    have g16 : cl'.getD 16 0 = l16 := cz 16 (c4 16 (by simp))
    have g17 : cl'.getD 17 0 = l17 := cz 17 (c4 17 (by simp))
    have g18 : cl'.getD 18 0 = l18 := cz 18 (c4 18 (by simp))
    have g0 : cl'.getD 0 0 = l0 := cz 0 (c4 0 (by simp))
    have hsplit : clOrder.take (hclen + 4) = [16, 17, 18, 0] ++ (clOrder.drop (4 + 0)).take hclen := by
      rw [Nat.add_comm hclen 4, List.take_add]
      rfl
    have hzero : ∀ s ∈ clOrder.drop (hclen + 4), cl'.getD s 0 = 0 := by
      intro s hs
      have hnd : clOrder.Nodup := by decide
      have hni : s ∉ (clOrder.drop (4 + 0)).take hclen := by
        intro hm
        have hm' : s ∈ clOrder.take (hclen + 4) := by rw [hsplit]; exact List.mem_append_right _ hm
        rw [← List.take_append_drop (hclen + 4) clOrder, List.nodup_append] at hnd
        exact hnd.2.2 s hm' s hs rfl
      rw [cz s hni]
      have hs4 : s ∈ clOrder.drop 4 := by
        rw [Nat.add_comm, ← List.drop_drop] at hs
        exact List.mem_of_mem_drop hs
      have : ∀ s ∈ clOrder.drop 4,
          [l0, 0, 0, 0, 0, 0, 0, 0, 0, 0, 0, 0, 0, 0, 0, 0, l16, l17, l18].getD s 0 = 0 := by
        simp [clOrder]
      exact this s hs4
    have hlt8 : ∀ l ∈ cl', l < 8 := by
      intro l hl
      obtain ⟨s, hs, rfl⟩ := List.getElem_of_mem hl
      have hg : cl'[s] = cl'.getD s 0 := by simp [List.getD, hs]
      rw [hg]
      by_cases hm : s ∈ (clOrder.drop (4 + 0)).take hclen
      · exact c8 s hm
      · by_cases hm4 : s ∈ [16, 17, 18, 0]
        · simp only [List.mem_cons, List.not_mem_nil, or_false] at hm4
          rcases hm4 with rfl | rfl | rfl | rfl
          · rw [g16]; exact hl16
          · rw [g17]; exact hl17
          · rw [g18]; exact hl18
          · rw [g0]; exact hl0
        · have hall : s ∈ clOrder := by
            have : ∀ s : Fin 19, s.val ∈ clOrder := by decide
            exact this ⟨s, by omega⟩
          rw [← List.take_append_drop (hclen + 4) clOrder, hsplit] at hall
          rcases List.mem_append.1 hall with h | h
          · rcases List.mem_append.1 h with h | h
            · exact absurd h hm4
            · exact absurd h hm
          · rw [hzero s h]; omega
    simp only [Nat.reducePow] at hlit5 hdist5 hclen4
    refine ⟨_, .mk (hclen + 4) (by omega) (by omega) (by omega) (by omega) (by omega) (by omega) c19 hlt8 hzero, ?_⟩
    rw [hsplit, e1, e2, e3, e4, e5, e6, e7, e8]
    simp only [List.flatMap_append, List.flatMap_cons, List.flatMap_nil, List.append_nil,
      List.append_assoc, g16, g17, g18, g0, Nat.add_sub_cancel]
  · rintro ⟨a, ⟨n, h257, h288, h1, h32, h4, h19, c19, c8, cz⟩, rfl⟩
    obtain ⟨k, rfl⟩ : ∃ k, n = k + 4 := ⟨n - 4, by omega⟩
    have hsplit : clOrder.take (k + 4) = [16, 17, 18, 0] ++ (clOrder.drop (4 + 0)).take k := by
      rw [Nat.add_comm k 4, List.take_add]
      rfl
    have hget : ∀ s, cl.getD s 0 < 8 := by
      intro s
      by_cases hs : s < cl.length
      · have : cl.getD s 0 = cl[s] := by simp [List.getD, hs]
        rw [this]; exact c8 _ (List.getElem_mem hs)
      · simp [List.getD, List.getElem?_eq_none (Nat.not_lt.1 hs)]
    rw [hsplit]
    simp only [List.flatMap_append, List.flatMap_cons, List.flatMap_nil, List.append_nil,
      List.append_assoc, Nat.add_sub_cancel]
    unfold readStart
    simp only [BitProg.bind_eq]
    rw [BitProg.exec_bind_ok (BitProg.exec_readPart_lsb (by omega) (by simp; omega) _),
      BitProg.exec_bind_ok (BitProg.exec_readPart_lsb (by omega) (by simp; omega) _),
      BitProg.exec_bind_ok (BitProg.exec_readPart_lsb (by omega) (by simp; omega) _),
      BitProg.exec_bind_ok (BitProg.exec_readPart_lsb (by omega) (hget _) _),
      BitProg.exec_bind_ok (BitProg.exec_readPart_lsb (by omega) (hget _) _),
      BitProg.exec_bind_ok (BitProg.exec_readPart_lsb (by omega) (hget _) _),
      BitProg.exec_bind_ok (BitProg.exec_readPart_lsb (by omega) (hget _) _), clSet]
    have hcl : (readCodeLenLens 0 (k + 4 - 4) [cl.getD 0 0, 0, 0, 0, 0, 0, 0, 0, 0, 0, 0, 0, 0,
        0, 0, 0, cl.getD 16 0, cl.getD 17 0, cl.getD 18 0]).exec
        (((clOrder.drop (4 + 0)).take k).flatMap (fun s => lsbBits 3 (cl.getD s 0)) ++ rest) = .ok cl rest := by
      rw [show k + 4 - 4 = k by omega]
      refine (exec_readCodeLenLens (by omega) rfl).2 ⟨c19, fun s _ => hget s, ?_, rfl⟩
      intro s hs
      by_cases h19 : s < 19
      · by_cases hm4 : s ∈ [16, 17, 18, 0]
        · simp only [List.mem_cons, List.not_mem_nil, or_false] at hm4
          rcases hm4 with rfl | rfl | rfl | rfl <;> rfl
        · have hall : s ∈ clOrder := by
            have : ∀ s : Fin 19, s.val ∈ clOrder := by decide
            exact this ⟨s, h19⟩
          rw [← List.take_append_drop (k + 4) clOrder, hsplit] at hall
          have hd : s ∈ clOrder.drop (k + 4) := by
            rcases List.mem_append.1 hall with h | h
            · rcases List.mem_append.1 h with h | h
              · exact absurd h hm4
              · exact absurd h hs
            · exact h
          rw [cz s hd]
          have hs4 : s ∈ clOrder.drop 4 := by
            rw [Nat.add_comm, ← List.drop_drop] at hd
            exact List.mem_of_mem_drop hd
          have : ∀ s ∈ clOrder.drop 4, [cl.getD 0 0, 0, 0, 0, 0, 0, 0, 0, 0, 0, 0, 0, 0, 0, 0, 0,
              cl.getD 16 0, cl.getD 17 0, cl.getD 18 0].getD s 0 = 0 := by
            simp [clOrder]
          exact (this s hs4).symm
      · simp only [List.getD]
        rw [List.getElem?_eq_none (by omega), List.getElem?_eq_none (by simp; omega)]
    rw [BitProg.exec_bind_ok hcl]
    rfl

theorem headerBits_start {lit dist : List Nat} {hdr : List Bool} :
    HeaderBits lit dist hdr ↔ ∃ cl a body, StartBits lit.length dist.length cl a ∧ Complete cl ∧
      LensBits cl none (lit ++ dist) body ∧ hdr = a ++ body := by
  constructor
  · rintro ⟨cl, n, body, h257, h288, h1, h32, h4, h19, c19, c8, ccomp, cz, hlb⟩
    exact ⟨cl, _, body, .mk n h257 h288 h1 h32 h4 h19 c19 c8 cz, ccomp, hlb, rfl⟩
  · rintro ⟨cl, _, body, ⟨n, h257, h288, h1, h32, h4, h19, c19, c8, cz⟩, ccomp, hlb, rfl⟩
    exact .mk cl n body h257 h288 h1 h32 h4 h19 c19 c8 ccomp cz hlb

theorem readCodes_fault {bs : List Bool} {e : Fail} (h : readCodes.exec bs = .fail e) :
    ∃ x u rest, e = .err x ∧ HeaderFault x u ∧ bs = u ++ rest := by
  rw [readCodes_split, BitProg.exec_bind_eq_fail] at h
  rcases h with h | ⟨⟨hlit, hdist, cl⟩, bs1, h1, h⟩
  · exact absurd h readStart_ne_fail
  obtain ⟨a, hs, rfl⟩ := exec_readStart.1 h1
  have hs' := hs
  obtain ⟨n, h257, h288, _, h32, h4, h19, c19, c8, cz⟩ := hs'
  have hcl15 : ∀ l ∈ cl, l ≤ 15 := fun l hl => by have := c8 l hl; omega
  dsimp only [readRest] at h
  simp only [BitProg.bind_eq] at h
  rw [BitProg.exec_bind_eq_fail] at h
  rcases h with h | ⟨t, bs2, ht1, h⟩
  · rw [BitProg.exec_ofExcept_eq_fail] at h
    obtain ⟨h1, rfl⟩ := CodeTree.new_fault (by omega) hcl15 h
    exact ⟨_, _, bs1, rfl, .lengthCode _ _ cl _ hs (fun hc => h1 ⟨by omega, hc⟩), rfl⟩
  obtain ⟨ht0, rfl⟩ := BitProg.exec_ofExcept_eq_ok.1 ht1
  have ht : CodeTree.IsTree cl t := ⟨by omega, hcl15, ht0⟩
  have hcomp := (CodeTree.new_ok_iff_complete (by omega) (by omega) hcl15).1 ⟨t, ht0⟩
  rw [BitProg.exec_bind_eq_fail] at h
  rcases h with h | ⟨lens, bs3, hl0, h⟩
  · have := loop_fault ht c19 (L := hlit + 257 + (hdist + 1)) (fuel := 2 * (hlit + 257 + (hdist + 1)) + 1) (i := 0)
      (rv := none) (dn := []) (bs := bs1) (e := e) rfl (by omega) (by omega) (by simpa using h)
    obtain ⟨x, u, rest, rfl, hf, rfl⟩ := this
    exact ⟨x, _, rest, rfl, .lens _ _ cl x _ u hs hcomp (stepFault_iff.1 hf), (List.append_assoc _ _ _).symm⟩
  have hloop := loop_sound ht c19 (L := hlit + 257 + (hdist + 1))
    (fuel := 2 * (hlit + 257 + (hdist + 1)) + 1) (i := 0) (rv := none) (dn := []) (bs := bs1) rfl
    (by omega) (by omega)
  simp only [Nat.sub_zero, List.nil_append] at hloop
  rw [hl0] at hloop
  obtain ⟨ls, body, hlb, rfl, rfl, hlen⟩ := hloop
  have hl15 := LensBits.le15 hlb (by simp)
  have hlitlen : (lens.take (hlit + 257)).length = hlit + 257 := by
    rw [List.length_take, hlen]; omega
  have hdistlen : (lens.drop (hlit + 257)).length = hdist + 1 := by
    rw [List.length_drop, hlen]; omega
  have hlit15 : ∀ l ∈ lens.take (hlit + 257), l ≤ 15 := fun l hl => hl15 l (List.mem_of_mem_take hl)
  have hdist15 : ∀ l ∈ lens.drop (hlit + 257), l ≤ 15 := fun l hl => hl15 l (List.mem_of_mem_drop hl)
  have hhdr : HeaderBits (lens.take (hlit + 257)) (lens.drop (hlit + 257)) (_ ++ body) :=
    headerBits_start.2 ⟨cl, _, body, by rw [hlitlen, hdistlen]; exact hs, hcomp,
      by rw [List.take_append_drop]; exact hlb, rfl⟩
  rw [BitProg.exec_bind_eq_fail] at h
  rcases h with h | ⟨lt, bs4, hlt1, h⟩
  · rw [BitProg.exec_ofExcept_eq_fail] at h
    obtain ⟨h1, rfl⟩ := CodeTree.new_fault (by omega) hlit15 h
    exact ⟨_, _, bs3, rfl, .literals _ _ _ hhdr (fun hc => h1 ⟨by omega, hc⟩), (List.append_assoc _ _ _).symm⟩
  obtain ⟨hlt, rfl⟩ := BitProg.exec_ofExcept_eq_ok.1 hlt1
  have hlc := (CodeTree.new_ok_iff_complete (by omega) (by omega) hlit15).1 ⟨lt, hlt⟩
  rw [BitProg.exec_bind_eq_fail] at h
  rcases h with h | ⟨dt, bs5, hdt, h⟩
  · rw [BitProg.exec_ofExcept_eq_fail] at h
    obtain ⟨h1, rfl⟩ := distanceTree_fault (by omega) (by omega) hdist15 h
    exact ⟨_, _, bs3, rfl, .distances _ _ _ hhdr hlc h1, (List.append_assoc _ _ _).symm⟩
  · simp at h

theorem readCodes_refused {x : Err} {u : List Bool} (h : HeaderFault x u) (rest : List Bool) :
    readCodes.exec (u ++ rest) = .fail (.err x) := by
  -- the beginning
  have start : ∀ {nl nd : Nat} {cl : List Nat} {a : List Bool}, StartBits nl nd cl a → ∀ bs,
      (readCodes.exec (a ++ bs) = (readRest (nl - 257) (nd - 1) cl).exec bs) ∧ cl.length = 19 ∧
      (∀ l ∈ cl, l ≤ 15) ∧ 257 ≤ nl ∧ 1 ≤ nd ∧ nl ≤ 288 ∧ nd ≤ 32 := by
    intro nl nd cl a hs bs
    have hs' := hs
    obtain ⟨n, h257, h288, h1, h32, h4, h19, c19, c8, cz⟩ := hs'
    have e1 : nl - 257 + 257 = nl := by omega
    have e2 : nd - 1 + 1 = nd := by omega
    refine ⟨?_, c19, fun l hl => by have := c8 l hl; omega, h257, h1, h288, h32⟩
    have h0 := (exec_readStart (hlit := nl - 257) (hdist := nd - 1) (cl := cl) (rest := bs)).2
      ⟨_, by rw [e1, e2]; exact hs, rfl⟩
    rw [readCodes_split, BitProg.exec_bind_ok h0]
  -- up to the lengths
  have body : ∀ {lit dist : List Nat} {hdr : List Bool}, HeaderBits lit dist hdr →
      readCodes.exec (hdr ++ rest) = ((do
        let litLenCode ← BitProg.ofExcept (CodeTree.new lit)
        let distTree ← BitProg.ofExcept (distanceTree dist)
        pure (litLenCode, distTree) : BitProg (CodeTree × Option CodeTree))).exec rest ∧
      (∀ l ∈ lit ++ dist, l ≤ 15) ∧ 257 ≤ lit.length ∧ lit.length ≤ 288 ∧ 1 ≤ dist.length ∧ dist.length ≤ 32 := by
    intro lit dist hdr hh
    obtain ⟨cl, a, body, hs, hc, hlb, rfl⟩ := headerBits_start.1 hh
    obtain ⟨e, c19, c15, h257, h1, h288, h32⟩ := start hs (body ++ rest)
    refine ⟨?_, LensBits.le15 hlb (by simp), h257, h288, h1, h32⟩
    obtain ⟨t, ht0⟩ := (CodeTree.new_ok_iff_complete (by omega) (by omega) c15).2 hc
    have ht : CodeTree.IsTree cl t := ⟨by omega, c15, ht0⟩
    have hL : lit.length - 257 + 257 + (dist.length - 1 + 1) = (lit ++ dist).length := by
      rw [List.length_append]; omega
    have hloop := loop_complete ht (dn := []) (i := 0) (L := (lit ++ dist).length)
      (fuel := 2 * (lit ++ dist).length + 1) (rest := rest) hlb
      (by intro h; rw [List.append_eq_nil_iff] at h; rw [h.1] at h257; simp at h257) rfl
      (by simp) (by omega)
    simp only [Nat.sub_zero, List.nil_append] at hloop
    rw [List.append_assoc, e, readRest]
    simp only [BitProg.bind_eq]
    rw [ht0, BitProg.exec_bind_ok (BitProg.exec_ofExcept_ok _ _), hL, BitProg.exec_bind_ok hloop,
      show lit.length - 257 + 257 = lit.length by omega, List.take_left, List.drop_left]
  cases h with
  | lengthCode nl nd cl a hs hc =>
    obtain ⟨e, c19, c15, _⟩ := start hs rest
    rw [e, readRest, CodeTree.new_refused (by omega) c15 (fun h => hc h.2)]
    rfl
  | lens nl nd cl e a b hs hc hf =>
    obtain ⟨e, c19, c15, h257, h1, _⟩ := start hs (b ++ rest)
    obtain ⟨t, ht0⟩ := (CodeTree.new_ok_iff_complete (by omega) (by omega) c15).2 hc
    have ht : CodeTree.IsTree cl t := ⟨by omega, c15, ht0⟩
    have hloop := loop_refused ht (stepFault_iff.2 hf) (L := nl - 257 + 257 + (nd - 1 + 1)) (i := 0) (dn := [])
      (fuel := 2 * (nl - 257 + 257 + (nd - 1 + 1)) + 1) rfl (by omega) (by omega) (by omega) rest
    simp only [Nat.sub_zero, List.nil_append] at hloop
    rw [List.append_assoc, e, readRest]
    simp only [BitProg.bind_eq]
    rw [ht0, BitProg.exec_bind_ok (BitProg.exec_ofExcept_ok _ _)]
    exact BitProg.exec_bind_eq_fail.2 (.inl hloop)
  | literals lit dist _ hh hc =>
    obtain ⟨e, c15, h257, h288, h1, h32⟩ := body hh
    rw [e, CodeTree.new_refused (by omega) (fun l hl => c15 l (by simp [hl])) (fun h => hc h.2)]
    rfl
  | distances lit dist _ hh hc hd =>
    obtain ⟨e, c15, h257, h288, h1, h32⟩ := body hh
    obtain ⟨lt, hlt⟩ := (CodeTree.new_ok_iff_complete (by omega) (by omega) (fun l hl => c15 l (by simp [hl]))).2 hc
    rw [e, hlt, distanceTree_refused h1 h32 (fun l hl => c15 l (by simp [hl])) hd]
    rfl

end Huffman

namespace Parse

open Huffman

/-! ### Codes -/

section codes

variable {lit : List Nat} {lt : CodeTree} {alpha : Option (List Nat)} {dt : Option CodeTree}

theorem exec_scanCode_fault (hl : CodeTree.IsTree lit lt) (hd : IsOptTree alpha dt) (h288 : lit.length ≤ 288)
    (h32 : ∀ dl, alpha = some dl → dl.length ≤ 32) {bs : List Bool} {e : Fail}
    (h : (scanCode lt dt).exec bs = .fail e) :
    ∃ x u rest, e = .err x ∧ CodeFault lit alpha x u ∧ bs = u ++ rest := by
  unfold scanCode at h
  rw [BitProg.bind_eq, BitProg.exec_bind] at h
  cases hs : lt.decodeSymbol.exec bs with
  | fail e => exact absurd hs CodeTree.IsTree.decode_ne_fail
  | starved => rw [hs] at h; cases h
  | ok s bs1 =>
  rw [hs] at h
  obtain ⟨c, hc, rfl⟩ := hl.decode_inv hs
  obtain ⟨hs288, _⟩ := CodeTree.codeOf_lt hc
  dsimp only at h
  by_cases h256 : s = 256
  · subst h256
    cases h
  have h1 : (s == 256) = false := by simpa using h256
  simp only [h1, Bool.false_eq_true, if_false] at h
  by_cases hlt : s < 256
  · simp [hlt] at h
  simp only [hlt, if_false, BitProg.bind_eq] at h
  rw [BitProg.exec_bind] at h
  cases hr : (decodeRunLength s).exec bs1 with
  | starved => rw [hr] at h; cases h
  | fail e' =>
    rw [hr] at h
    dsimp only at h
    cases h
    obtain ⟨i, rfl⟩ : ∃ i, s = 257 + i := ⟨s - 257, by omega⟩
    have hi : i = 29 ∨ i = 30 := by
      apply Classical.byContradiction
      intro hi
      unfold decodeRunLength at hr
      rw [BitProg.bind_eq, ensure_of (by simp; omega), BitProg.exec_bind_ok (BitProg.exec_ofExcept_ok _ _)] at hr
      split at hr
      · simp at hr
      · split at hr
        · have h6 : (257 + i - 261) / 4 % 256 < 6 := by omega
          simp only [BitProg.bind_eq] at hr
          rw [assert_of (by simpa using h6), BitProg.exec_bind_ok (BitProg.exec_ofExcept_ok _ _),
            BitProg.exec_bind_eq_fail] at hr
          rcases hr with h | ⟨_, _, _, h⟩
          · exact absurd h (BitProg.exec_readPart_ne_fail (by omega))
          · simp at h
        · split at hr
          · simp at hr
          · next h285 => simp at h285; omega
    have hx : e = .err .reservedRunSymbol := by
      rcases hi with rfl | rfl
      · exact (ExecRes.fail.inj hr).symm
      · exact (ExecRes.fail.inj hr).symm
    subst hx
    exact ⟨_, c, bs1, rfl, .length i c hi hc, rfl⟩
  | ok run bs2 =>
  rw [hr] at h
  obtain ⟨i, v, rfl, hls, rfl⟩ := exec_decodeRunLength_inv hr
  dsimp only at h
  cases dt with
  | none =>
    cases alpha with
    | some dl => cases hd
    | none =>
      cases h
      exact ⟨_, _, bs2, rfl, .noDistances run i v c rfl hls hc, by rw [List.append_assoc]⟩
  | some d =>
  cases alpha with
  | none => cases hd
  | some dl =>
  have hd' : CodeTree.IsTree dl d := hd
  dsimp only at h
  rw [BitProg.exec_bind] at h
  cases hds : d.decodeSymbol.exec bs2 with
  | fail e => exact absurd hds CodeTree.IsTree.decode_ne_fail
  | starved => rw [hds] at h; cases h
  | ok ds bs3 =>
  rw [hds] at h
  obtain ⟨dc, hdc, rfl⟩ := hd'.decode_inv hds
  obtain ⟨hds32, _⟩ := CodeTree.codeOf_lt hdc
  have h32' := h32 dl rfl
  dsimp only at h
  rw [BitProg.exec_bind] at h
  cases hdd : (decodeDistance ds).exec bs3 with
  | starved => rw [hdd] at h; cases h
  | fail e' =>
    rw [hdd] at h
    dsimp only at h
    cases h
    have hj : ds = 30 ∨ ds = 31 := by
      apply Classical.byContradiction
      intro hj
      unfold decodeDistance at hdd
      split at hdd
      · simp at hdd
      · split at hdd
        · simp only [BitProg.bind_eq] at hdd
          rw [BitProg.exec_bind_eq_fail] at hdd
          rcases hdd with h | ⟨_, _, _, h⟩
          · exact absurd h (BitProg.exec_readPart_ne_fail (by omega))
          · simp at h
        · omega
    have hx : e = .err .reservedDistSymbol := by
      rcases hj with rfl | rfl
      · exact (ExecRes.fail.inj hdd).symm
      · exact (ExecRes.fail.inj hdd).symm
    subst hx
    exact ⟨_, _, bs3, rfl, .distance run i v ds dl c dc rfl hls hc hj hdc, by simp only [List.append_assoc]⟩
  | ok dist bs4 =>
  rw [hdd] at h
  obtain ⟨w, hds', rfl⟩ := exec_decodeDistance_inv hdd
  obtain ⟨r1, r2⟩ := DistSym.range hds'
  obtain ⟨q1, q2⟩ := LengthSym.range hls
  obtain ⟨r, hr⟩ := Ref.new_total r1 r2 q1 q2
  dsimp only at h
  rw [ensure_of (by simp; omega), BitProg.exec_bind_ok (BitProg.exec_ofExcept_ok _ _), hr,
    BitProg.exec_bind_ok (BitProg.exec_ofExcept_ok _ _)] at h
  simp at h

/-- Reading a distance symbol, if there are any. -/
def distSymbol : Option CodeTree → BitProg Nat
  | some distCode => distCode.decodeSymbol
  | none => BitProg.fail (.err .noDistanceTable)

theorem exec_scanCode_refused (hl : CodeTree.IsTree lit lt) (hd : IsOptTree alpha dt) {x : Err} {u : List Bool}
    (h : CodeFault lit alpha x u) (rest : List Bool) : (scanCode lt dt).exec (u ++ rest) = .fail (.err x) := by
  have hlen : ∀ {i : Nat} {c : List Bool}, codeOf lit (257 + i) = some c → ∀ bs,
      (scanCode lt dt).exec (c ++ bs) = ((decodeRunLength (257 + i)).bind fun run =>
        (distSymbol dt).bind fun distSym =>
        (decodeDistance distSym).bind fun dist =>
        (BitProg.ofExcept (ensure (dist ≥ 1 && dist ≤ 32786) .invalidDistance)).bind fun _ =>
        (BitProg.ofExcept (Ref.new dist run)).bind fun r => BitProg.done (some (.reference r))).exec bs := by
    intro i c hc bs
    have h1 : (257 + i == 256) = false := by rw [beq_eq_false_iff_ne]; omega
    have h2 : ¬ (257 + i < 256) := by omega
    unfold scanCode
    rw [BitProg.bind_eq, BitProg.exec_bind_ok (hl.decode hc _)]
    simp only [h1, Bool.false_eq_true, if_false, h2, BitProg.bind_eq, BitProg.pure_eq]
    cases dt <;> rfl
  cases h with
  | length i c hi hc =>
    rw [hlen hc]
    rcases hi with rfl | rfl <;> rfl
  | noDistances len i v c ha hls hc =>
    subst ha
    cases dt with
    | some d => cases hd
    | none =>
    rw [List.append_assoc, hlen hc, BitProg.exec_bind_ok (exec_decodeRunLength hls _)]
    rfl
  | distance len i v j dl c dc ha hls hc hj hdc =>
    subst ha
    cases dt with
    | none => cases hd
    | some d =>
    have hd' : CodeTree.IsTree dl d := hd
    simp only [List.append_assoc]
    rw [hlen hc, BitProg.exec_bind_ok (exec_decodeRunLength hls _), distSymbol,
      BitProg.exec_bind_ok (hd'.decode hdc _)]
    rcases hj with rfl | rfl <;> rfl

theorem CodesFault.exists {e : Err} {bs : List Bool} (h : CodesFault lit alpha e bs) :
    ∃ n, n < bs.length + 1 ∧ ∀ {lt : CodeTree} {dt : Option CodeTree}, CodeTree.IsTree lit lt → IsOptTree alpha dt →
      ∀ fuel acc rest, n < fuel → (scanLoop lt dt fuel acc).exec (bs ++ rest) = .fail (.err e) := by
  induction h with
  | here e a ha =>
    refine ⟨0, by omega, ?_⟩
    intro lt dt hl hd fuel acc rest hf
    obtain ⟨fuel, rfl⟩ : ∃ f, fuel = f + 1 := ⟨fuel - 1, by omega⟩
    rw [scanLoop, BitProg.bind_eq]
    exact BitProg.exec_bind_eq_fail.2 (.inl (exec_scanCode_refused hl hd ha rest))
  | after c e a b ha _ ih =>
    obtain ⟨n, h1, h2⟩ := ih
    have hp := CodeBits.pos ha
    refine ⟨n + 1, by simp only [List.length_append]; omega, ?_⟩
    intro lt dt hl hd fuel acc rest hf
    obtain ⟨fuel, rfl⟩ : ∃ f, fuel = f + 1 := ⟨fuel - 1, by omega⟩
    rw [scanLoop, BitProg.bind_eq, List.append_assoc, BitProg.exec_bind_ok (exec_scanCode hl hd ha (b ++ rest))]
    exact h2 hl hd fuel _ rest (by omega)

theorem exec_scanLoop_fault (hl : CodeTree.IsTree lit lt) (hd : IsOptTree alpha dt) (h288 : lit.length ≤ 288)
    (h32 : ∀ dl, alpha = some dl → dl.length ≤ 32) (fuel : Nat) (acc : List Code) (bs : List Bool)
    (hf : bs.length < fuel) {e : Fail} (h : (scanLoop lt dt fuel acc).exec bs = .fail e) :
    ∃ x u rest, e = .err x ∧ CodesFault lit alpha x u ∧ bs = u ++ rest := by
  induction fuel generalizing acc bs with
  | zero => omega
  | succ fuel ih =>
    rw [scanLoop, BitProg.bind_eq, BitProg.exec_bind_eq_fail] at h
    rcases h with h | ⟨o, bs1, ho, h⟩
    · obtain ⟨x, u, rest, he, hf, hb⟩ := exec_scanCode_fault hl hd h288 h32 h
      exact ⟨x, u, rest, he, .here x u hf, hb⟩
    · have hs := exec_scanCode_sound hl hd bs
      rw [ho] at hs
      cases o with
      | none => cases h
      | some c =>
        obtain ⟨u, hu, rfl⟩ := hs
        have hp := CodeBits.pos hu
        simp only [List.length_append] at hf
        obtain ⟨x, u', rest, he, hf', rfl⟩ := ih _ bs1 (by omega) h
        exact ⟨x, u ++ u', rest, he, .after c x u u' hu hf', (List.append_assoc _ _ _).symm⟩

theorem scanHuffmanData_refused (hl : CodeTree.IsTree lit lt) (hd : IsOptTree alpha dt) {r : BitReader} (hw : r.WF)
    {x : Err} {u rest : List Bool} (h : CodesFault lit alpha x u) (hb : r.bits = u ++ rest) :
    ∃ r', scanHuffmanData lt dt r = .error (.err x) r' ∧ r'.WF := by
  obtain ⟨n, h1, h2⟩ := CodesFault.exists h
  refine BitReader.run_fail hw ?_
  rw [hb]
  refine h2 hl hd _ _ _ ?_
  rw [bitsLeft_eq hw, hb, List.length_append]
  omega

theorem scanHuffmanData_fault (hl : CodeTree.IsTree lit lt) (hd : IsOptTree alpha dt) (h288 : lit.length ≤ 288)
    (h32 : ∀ dl, alpha = some dl → dl.length ≤ 32) {r r' : BitReader} (hw : r.WF) {e : Fail}
    (h : scanHuffmanData lt dt r = .error e r') :
    e = .err .eof ∨ ∃ x u rest, e = .err x ∧ CodesFault lit alpha x u ∧ r.bits = u ++ rest := by
  unfold scanHuffmanData at h
  rcases (BitReader.exec_of_run_error hw h).1 with hx | ⟨_, rfl⟩
  · exact .inr (exec_scanLoop_fault hl hd h288 h32 _ _ _ (by rw [bitsLeft_eq hw]; omega) hx)
  · exact .inl rfl

end codes

/-! ### Blocks -/

theorem HeaderBits.lengths {lit dist : List Nat} {hdr : List Bool} (h : HeaderBits lit dist hdr)
    {alpha : Option (List Nat)} (ha : DistAlphabet dist alpha) :
    lit.length ≤ 288 ∧ ∀ dl, alpha = some dl → dl.length ≤ 32 := by
  obtain ⟨_, _, _, h257, h288, h1, h32, _⟩ := h
  refine ⟨h288, ?_⟩
  intro dl hdl
  cases ha with
  | unused => cases hdl
  | single a b ha hb => cases hdl; simp; omega
  | complete ls h2 hc => cases hdl; exact h32

theorem first_true {bs : List Bool} (n : Nat) (h : ¬ ∀ b ∈ bs.take n, b = false) :
    ∃ k rest, k < n ∧ bs = List.replicate k false ++ [true] ++ rest := by
  induction n generalizing bs with
  | zero => simp at h
  | succ n ih =>
    cases bs with
    | nil => simp at h
    | cons b bs =>
      cases b with
      | true => exact ⟨0, bs, by omega, rfl⟩
      | false =>
        obtain ⟨k, rest, hk, hb⟩ := ih (bs := bs) (by
          intro hh
          apply h
          intro b hb
          rw [List.take_succ_cons, List.mem_cons] at hb
          rcases hb with rfl | hb
          · rfl
          · exact hh b hb)
        exact ⟨k + 1, rest, by omega, by rw [hb]; rfl⟩

theorem not_padding {bs rest : List Bool} {k n : Nat} (hk : k < n)
    (hb : bs = List.replicate k false ++ [true] ++ rest) : ¬ ∀ b ∈ bs.take n, b = false := by
  intro h
  have hm : true ∈ bs.take n := by
    rw [hb, List.append_assoc, List.take_append, List.mem_append]
    right
    obtain ⟨m, hm⟩ : ∃ m, n - (List.replicate k false).length = m + 1 :=
      ⟨n - k - 1, by rw [List.length_replicate]; omega⟩
    rw [hm]
    simp
  cases h true hm

theorem xor_ne {a b : Nat} (ha : a ≤ 65535) : a ^^^ 0xFFFF ≠ b ↔ a + b ≠ 65535 := by
  rw [xor_ffff ha]
  omega

theorem readBlock_refused {r : BitReader} (hw : r.WF) {off : Nat} (hoff : (off + r.bits.length) % 8 = 0)
    {x : Err} {u rest : List Bool} (h : BlockFault off x u) (hb : r.bits = u ++ rest) :
    ∃ r', readBlock r = .error (.err x) r' ∧ r'.WF := by
  have kind : ∀ (v : Nat) (bs : List Bool), v < 4 → r.bits = lsbBits 2 v ++ bs →
      ∃ r1, BitReader.readPart 2 r = .ok v r1 ∧ r1.WF ∧ r1.bits = bs ∧ padLen (off + 2) = r1.bits.length % 8 := by
    intro v bs hv hbs
    obtain ⟨r1, h1, w1, b1⟩ := BitReader.run_ok hw (p := BitProg.readPart 2) (by
      rw [hbs]; exact BitProg.exec_readPart_lsb (by omega) hv _)
    have hlen : r.bits.length = 2 + r1.bits.length := by rw [hbs, b1]; simp
    exact ⟨r1, h1, w1, b1, padLen_eq (by omega)⟩
  cases h with
  | reserved =>
    obtain ⟨r1, h1, w1, _⟩ := kind 3 rest (by omega) hb
    exact ⟨r1, readBlock_3 h1, w1⟩
  | padding k hk =>
    rw [List.append_assoc] at hb
    obtain ⟨r1, h1, w1, b1, hp⟩ := kind 0 _ (by omega) hb
    obtain ⟨r2, h2, w2⟩ := BitReader.align_err w1 (by rw [← hp]; exact not_padding hk b1)
    exact ⟨r2, by rw [readBlock_0 h1, ES.bind_err h2], w2⟩
  | storedLength a b c d hne =>
    rw [List.append_assoc, List.append_assoc] at hb
    obtain ⟨r1, h1, w1, b1, hp⟩ := kind 0 _ (by omega) hb
    have htake : r1.bits.take (r1.bits.length % 8) = List.replicate (padLen (off + 2)) false := by
      rw [← hp, b1, List.take_left' (by simp)]
    obtain ⟨r2, h2, w2, b2⟩ := BitReader.align_ok w1 (by
      rw [htake]; intro b hb; exact List.eq_of_mem_replicate hb)
    rw [← hp, b1, List.drop_left' (by simp), BitReader.bits_aligned w2] at b2
    obtain ⟨tail, h3, _⟩ := bytesBits_split b2
    have ha := a.toNat_lt
    have hb' := b.toNat_lt
    have := (BitReader.readLengthPrefixed_eq w2).2.2.1 a b c d tail h3 ((xor_ne (by omega)).2 hne)
    exact ⟨_, by rw [readBlock_0 h1, ES.bind_ok h2, ES.bind_err this], by simp [BitReader.WF, w2]⟩
  | fixed e bs hc =>
    rw [List.append_assoc] at hb
    obtain ⟨r1, h1, w1, b1, _⟩ := kind 1 _ (by omega) hb
    obtain ⟨lt, hlt, hl⟩ := fixedLengthTree_ok
    obtain ⟨dt, hdt, hd⟩ := fixedDistanceTree_ok
    obtain ⟨r2, h2, w2⟩ := scanHuffmanData_refused hl (dt := some dt) (alpha := some fixedDist) hd w1 hc b1
    exact ⟨r2, by rw [readBlock_1 h1, hlt, hdt, ES.liftE_bind_ok, ES.liftE_bind_ok, ES.bind_err h2], w2⟩
  | header e bs hh =>
    rw [List.append_assoc] at hb
    obtain ⟨r1, h1, w1, b1, _⟩ := kind 2 _ (by omega) hb
    have hcol := BitProg.exec_collect_fail (d := []) (readCodes_refused hh rest)
    rw [BitVector.ofBits_nil, ← b1] at hcol
    obtain ⟨r2, h2, w2⟩ := BitReader.run_fail w1 hcol
    exact ⟨r2, by rw [readBlock_2 h1, ES.bind_err h2], w2⟩
  | dynamic lit dist alpha e hdr bs hh hc ha hcs =>
    rw [List.append_assoc, List.append_assoc] at hb
    obtain ⟨r1, h1, w1, b1, _⟩ := kind 2 _ (by omega) hb
    obtain ⟨lt, dt, hr, hl, hd⟩ := readCodes_complete hh hc ha (bs ++ rest)
    have hcol := BitProg.exec_collect_ok (d := []) hr
    obtain ⟨r2, h2, w2, b2⟩ := BitReader.run_ok w1 (by rw [b1]; exact hcol)
    obtain ⟨r3, h3, w3⟩ := scanHuffmanData_refused hl hd w2 hcs b2
    refine ⟨r3, ?_, w3⟩
    rw [BitVector.ofBits_nil] at h2
    rw [readBlock_2 h1, ES.bind_ok h2]
    dsimp only
    rw [ES.bind_err h3]

theorem readBlock_fault {r r' : BitReader} (hw : r.WF) {off : Nat} (hoff : (off + r.bits.length) % 8 = 0) {e : Fail}
    (h : readBlock r = .error e r') :
    e = .err .eof ∨ ∃ x u rest, e = .err x ∧ BlockFault off x u ∧ r.bits = u ++ rest := by
  rcases readPart2 hw with ⟨v, r1, h1, hv, b1, w1⟩ | ⟨r1, h1, w1⟩
  · have hlen : r.bits.length = 2 + r1.bits.length := by rw [b1]; simp
    have hp : padLen (off + 2) = r1.bits.length % 8 := padLen_eq (by omega)
    have hv' : v = 0 ∨ v = 1 ∨ v = 2 ∨ v = 3 := by omega
    rcases hv' with rfl | rfl | rfl | rfl
    · rw [readBlock_0 h1] at h
      by_cases hz : ∀ b ∈ r1.bits.take (r1.bits.length % 8), b = false
      · obtain ⟨r2, h2, w2, b2⟩ := BitReader.align_ok w1 hz
        rw [ES.bind_ok h2] at h
        obtain ⟨a1, a2, a3, a4⟩ := BitReader.readLengthPrefixed_eq w2
        have htake : r1.bits.take (r1.bits.length % 8) = List.replicate (padLen (off + 2)) false := by
          rw [hp]
          apply List.eq_replicate_iff.2
          refine ⟨?_, hz⟩
          rw [List.length_take, Nat.min_eq_left (Nat.mod_le _ _)]
        by_cases h4 : r2.inner.length < 4
        · rw [ES.bind_err (a4 h4)] at h
          cases h
          exact .inl rfl
        · match hi : r2.inner with
          | l0 :: l1 :: n0 :: n1 :: tail =>
            have hl0 := l0.toNat_lt
            have hl1 := l1.toNat_lt
            by_cases hx : (l0.toNat + 256 * l1.toNat) ^^^ 0xFFFF = n0.toNat + 256 * n1.toNat
            · by_cases hlen : l0.toNat + 256 * l1.toNat ≤ tail.length
              · rw [ES.bind_ok (a1 _ _ _ _ _ hi hx hlen)] at h
                cases h
              · rw [ES.bind_err (a2 _ _ _ _ _ hi hx (by omega))] at h
                cases h
                exact .inl rfl
            · rw [ES.bind_err (a3 _ _ _ _ _ hi hx)] at h
              cases h
              refine .inr ⟨_, _, bytesBits tail, rfl, .storedLength l0 l1 n0 n1 ((xor_ne (by omega)).1 hx), ?_⟩
              rw [BitReader.bits_aligned w2, hi] at b2
              rw [b1, List.append_assoc, List.append_assoc, ← htake, ← bytesBits_append]
              simp only [List.cons_append, List.nil_append]
              rw [b2, List.take_append_drop]
          | [] => rw [hi] at h4; simp at h4
          | [_] => rw [hi] at h4; simp at h4
          | [_, _] => rw [hi] at h4; simp at h4
          | [_, _, _] => rw [hi] at h4; simp at h4
      · obtain ⟨r2, h2, w2⟩ := BitReader.align_err w1 hz
        rw [ES.bind_err h2] at h
        cases h
        obtain ⟨k, rest, hk, hbk⟩ := first_true _ hz
        exact .inr ⟨_, _, rest, rfl, .padding k (by omega), by rw [b1, hbk]; simp only [List.append_assoc]⟩
    · rw [readBlock_1 h1] at h
      obtain ⟨lt, hlt, hl⟩ := fixedLengthTree_ok
      obtain ⟨dt, hdt, hd⟩ := fixedDistanceTree_ok
      rw [hlt, hdt, ES.liftE_bind_ok, ES.liftE_bind_ok] at h
      cases hsc : scanHuffmanData lt (some dt) r1 with
      | ok cs r2 => rw [ES.bind_ok hsc] at h; cases h
      | error e2 r2 =>
        rw [ES.bind_err hsc] at h
        cases h
        rcases scanHuffmanData_fault hl (dt := some dt) (alpha := some fixedDist) hd (by decide +kernel)
          (by intro dl hdl; cases hdl; decide +kernel) w1 hsc with rfl | ⟨x, u, rest, rfl, hf, hb⟩
        · exact .inl rfl
        · exact .inr ⟨x, _, rest, rfl, .fixed x u hf, by rw [b1, hb, List.append_assoc]⟩
    · rw [readBlock_2 h1] at h
      have hs := readCodes_sound r1.bits
      cases hr : readCodes.exec r1.bits with
      | ok p rest =>
        obtain ⟨lt, dt⟩ := p
        rw [hr] at hs
        obtain ⟨lit, dist, alpha, hdr, g1, g2, g3, g4, g5, g6⟩ := hs
        have hcol := BitProg.exec_collect_ok (d := []) (by rw [← g4]; exact hr)
        obtain ⟨r2, h2, w2, b2⟩ := BitReader.run_ok w1 (by rw [g4]; exact hcol)
        rw [BitVector.ofBits_nil] at h2
        rw [ES.bind_ok h2] at h
        dsimp only at h
        cases hsc : scanHuffmanData lt dt r2 with
        | ok cs r3 => rw [ES.bind_ok hsc] at h; cases h
        | error e2 r3 =>
          rw [ES.bind_err hsc] at h
          cases h
          obtain ⟨h288, h32⟩ := HeaderBits.lengths g1 g3
          rcases scanHuffmanData_fault g5 g6 h288 h32 w2 hsc with rfl | ⟨x, u, tail, rfl, hf, hb⟩
          · exact .inl rfl
          · exact .inr ⟨x, _, tail, rfl, .dynamic lit dist alpha x hdr u g1 g2 g3 hf,
              by rw [b1, g4, ← b2, hb]; simp only [List.append_assoc]⟩
      | fail e2 =>
        have hcol := BitProg.exec_collect_fail (d := []) hr
        rw [BitVector.ofBits_nil] at hcol
        obtain ⟨r2, h2, w2⟩ := BitReader.run_fail w1 hcol
        rw [ES.bind_err h2] at h
        cases h
        obtain ⟨x, u, rest, rfl, hf, hb⟩ := readCodes_fault hr
        exact .inr ⟨x, _, rest, rfl, .header x u hf, by rw [b1, hb, List.append_assoc]⟩
      | starved =>
        have hcol := BitProg.exec_collect_starved (d := []) hr
        rw [BitVector.ofBits_nil] at hcol
        obtain ⟨r2, h2, w2⟩ := BitReader.run_starved w1 hcol
        rw [ES.bind_err h2] at h
        cases h
        exact .inl rfl
    · rw [readBlock_3 h1] at h
      cases h
      exact .inr ⟨_, _, _, rfl, .reserved, b1⟩
  · unfold readBlock at h
    rw [ES.bind_err h1] at h
    cases h
    exact .inl rfl

/-! ### Streams -/

theorem next_padding {it : BlockIter} (hw : it.inner.WF) (he : it.ended = true)
    (hz : ¬ ∀ b ∈ it.inner.bits.take (it.inner.bits.length % 8), b = false) :
    ∃ r, it.next = (some (.error (.err .padding)), ⟨r, true⟩) := by
  obtain ⟨r, h1, _⟩ := BitReader.align_err hw hz
  exact ⟨r, by unfold BlockIter.next; simp [he, h1]⟩

theorem collectLoop_refused {off : Nat} {blocks : List Block} {x : Err} {bits : List Bool}
    (h : StreamFault off blocks x bits) {it : BlockIter} (hw : it.inner.WF) (he : it.ended = false)
    (hoff : (off + it.inner.bits.length) % 8 = 0) {rest : List Bool} (hb : it.inner.bits = bits ++ rest)
    {fuel : Nat} (hf : blocks.length < fuel) (acc : List Block) :
    ∃ it', collectLoop fuel it acc = (.error (.err x), acc ++ blocks, it') := by
  induction h generalizing it fuel acc with
  | block off f e bs hbf =>
    obtain ⟨fuel, rfl⟩ : ∃ f, fuel = f + 1 := ⟨fuel - 1, by simp at hf; omega⟩
    rw [List.cons_append] at hb
    obtain ⟨r1, h1, w1, b1⟩ := BitReader.readBit_cons hw hb
    rw [hb, List.length_cons] at hoff
    obtain ⟨r2, h2, w2⟩ := readBlock_refused w1 (off := off + 1) (by rw [b1]; omega) hbf b1
    have hn : it.next = (some (.error (.err e)), ⟨r2, f⟩) := by
      unfold BlockIter.next; simp [he, h1, h2]
    exact ⟨_, by rw [collectLoop, hn, List.append_nil]⟩
  | padding off k b bs hbb hk =>
    obtain ⟨fuel, rfl⟩ : ∃ f, fuel = f + 2 := ⟨fuel - 2, by simp at hf; omega⟩
    rw [List.cons_append, List.append_assoc] at hb
    obtain ⟨r, h1, w1, b1⟩ := next_block hw he hoff hb hbb
    have hl : it.inner.bits.length = 1 + bs.length + r.bits.length := by
      rw [hb, b1]; simp; omega
    have hp : padLen (off + 1 + bs.length) = r.bits.length % 8 := padLen_eq (by omega)
    obtain ⟨r2, h2⟩ := next_padding (it := ⟨r, true⟩) w1 rfl (by
      dsimp only
      rw [← hp]
      exact not_padding hk b1)
    refine ⟨⟨r2, true⟩, ?_⟩
    rw [collectLoop, h1]
    dsimp only
    rw [collectLoop, h2]
  | after off b blocks e bs rs hbb _ ih =>
    obtain ⟨fuel, rfl⟩ : ∃ f, fuel = f + 1 := ⟨fuel - 1, by simp at hf; omega⟩
    rw [List.cons_append, List.append_assoc] at hb
    obtain ⟨r, h1, w1, b1⟩ := next_block hw he hoff hb hbb
    have hl : it.inner.bits.length = 1 + bs.length + r.bits.length := by
      rw [hb, b1]; simp; omega
    obtain ⟨it', h2⟩ := ih (it := ⟨r, false⟩) w1 rfl (by dsimp only; omega) b1
      (fuel := fuel) (by simp at hf; omega) (acc ++ [b])
    refine ⟨it', ?_⟩
    rw [collectLoop, h1]
    dsimp only
    rw [h2]
    simp

theorem collectLoop_fault (fuel : Nat) {off : Nat} {it : BlockIter} (hw : it.inner.WF)
    (he : it.ended = false) (hoff : (off + it.inner.bits.length) % 8 = 0)
    (hf : it.inner.bits.length < fuel) (acc : List Block) {e : Fail} {out : List Block} {it' : BlockIter}
    (h : collectLoop fuel it acc = (.error e, out, it')) :
    e = .err .eof ∨ ∃ x blocks bits rest, e = .err x ∧ out = acc ++ blocks ∧ StreamFault off blocks x bits ∧
      it.inner.bits = bits ++ rest := by
  induction fuel generalizing it off acc with
  | zero => omega
  | succ fuel ih =>
    cases hb : it.inner.bits with
    | nil =>
      obtain ⟨r, h1, h2⟩ := BitReader.readBit_nil hw hb
      have hn : it.next = (some (.error (.err .eof)), ⟨r, false⟩) := by
        unfold BlockIter.next; simp [he, h1]
      rw [collectLoop, hn] at h
      cases h
      exact .inl rfl
    | cons f tail =>
      obtain ⟨r1, h1, w1, b1⟩ := BitReader.readBit_cons hw hb
      rw [hb, List.length_cons] at hoff hf
      have hoff1 : (off + 1 + r1.bits.length) % 8 = 0 := by rw [b1]; omega
      rcases readBlock_sound w1 hoff1 with ⟨b, bs, r2, h2, hbb, b2, w2⟩ | ⟨e2, r2, h2, w2⟩
      · have hn : it.next = (some (.ok b), ⟨r2, f⟩) := by unfold BlockIter.next; simp [he, h1, h2]
        have hl : tail.length = bs.length + r2.bits.length := by rw [← b1, b2]; simp
        rw [collectLoop, hn] at h
        dsimp only at h
        cases f with
        | true =>
          obtain ⟨fuel, rfl⟩ : ∃ f, fuel = f + 1 := ⟨fuel - 1, by omega⟩
          by_cases hz : ∀ b ∈ r2.bits.take (r2.bits.length % 8), b = false
          · rcases next_ended (it := ⟨r2, true⟩) w2 rfl with ⟨r3, h3, _⟩ | ⟨_, _, _, _, _, hn⟩
            · rw [collectLoop, h3] at h
              cases h
            · exact absurd hz hn
          · obtain ⟨r3, h3⟩ := next_padding (it := ⟨r2, true⟩) w2 rfl hz
            rw [collectLoop, h3] at h
            cases h
            obtain ⟨k, rest, hk, hbk⟩ := first_true _ hz
            have hp : padLen (off + 1 + bs.length) = r2.bits.length % 8 := padLen_eq (by omega)
            refine .inr ⟨_, [b], _, rest, rfl, rfl, .padding off k b bs hbb (by omega), ?_⟩
            rw [← b1, b2, hbk]
            simp only [List.cons_append, List.append_assoc]
        | false =>
          rcases ih (it := ⟨r2, false⟩) (off := off + 1 + bs.length) w2 rfl (by dsimp only; omega)
            (by dsimp only; omega) (acc ++ [b]) h with rfl | ⟨x, blocks, bits, rest, rfl, ho, hs, hr⟩
          · exact .inl rfl
          · refine .inr ⟨x, b :: blocks, _, rest, rfl, by rw [ho]; simp, .after off b blocks x bs bits hbb hs, ?_⟩
            dsimp only at hr
            rw [← b1, b2, hr]
            simp only [List.cons_append, List.append_assoc]
      · have hn : it.next = (some (.error (.err e2)), ⟨r2, f⟩) := by unfold BlockIter.next; simp [he, h1, h2]
        rw [collectLoop, hn] at h
        dsimp only at h
        cases h
        rcases readBlock_fault w1 hoff1 h2 with he | ⟨x, u, rest, he, hf, hb⟩
        · exact .inl he
        · refine .inr ⟨x, [], _, rest, he, by simp, .block off f x u hf, ?_⟩
          rw [← b1, hb]
          rfl

end Parse

namespace Spec

theorem treeError_ne (lens : List Nat) : treeError lens ≠ .eof := by
  unfold treeError
  split
  · simp
  · split <;> simp

theorem CodeFault.ne_eof {lit : List Nat} {dist : Option (List Nat)} {e : Err} {bs : List Bool}
    (h : CodeFault lit dist e bs) : e ≠ .eof := by
  cases h <;> simp

theorem CodesFault.ne_eof {lit : List Nat} {dist : Option (List Nat)} {e : Err} {bs : List Bool}
    (h : CodesFault lit dist e bs) : e ≠ .eof := by
  induction h with
  | here _ _ h => exact h.ne_eof
  | after _ _ _ _ _ _ ih => exact ih

theorem HeaderFault.ne_eof {e : Err} {bs : List Bool} (h : HeaderFault e bs) : e ≠ .eof := by
  cases h with
  | lengthCode => exact treeError_ne _
  | lens _ _ _ _ _ _ _ _ h => cases h <;> simp
  | literals => exact treeError_ne _
  | distances => exact treeError_ne _

theorem BlockFault.ne_eof {off : Nat} {e : Err} {bs : List Bool} (h : BlockFault off e bs) : e ≠ .eof := by
  cases h with
  | reserved => simp
  | padding => simp
  | storedLength => simp
  | fixed _ _ h => exact h.ne_eof
  | header _ _ h => exact h.ne_eof
  | dynamic _ _ _ _ _ _ _ _ _ h => exact h.ne_eof

theorem StreamFault.ne_eof {off : Nat} {blocks : List Block} {e : Err} {bs : List Bool}
    (h : StreamFault off blocks e bs) : e ≠ .eof := by
  induction h with
  | block _ _ _ _ h => exact h.ne_eof
  | padding => simp
  | after _ _ _ _ _ _ _ _ ih => exact ih

end Spec

end Rezip
