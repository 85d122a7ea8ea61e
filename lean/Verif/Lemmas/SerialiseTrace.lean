import Verif.Lemmas.Parse
import Verif.Model.SerialiseTrace

/-! Equations of the trace serialiser, run by run. -/

namespace Rezip

namespace SerialiseTrace

theorem bind_pure_map {α β : Type} (x : Except Fail α) (f : α → β) :
    (x >>= fun a => pure (f a)) = x.map f := by cases x <;> rfl

theorem bind_ok_map {α β : Type} (x : Except Fail α) (f : α → β) :
    (x >>= fun a => .ok (f a)) = x.map f := by cases x <;> rfl

/-! ### Reading -/

theorem readLoop_two (f : Nat) (b0 b1 : UInt8) (rest : List UInt8) :
    readLoop (f + 1) (b0 :: b1 :: rest) =
      if b0.toNat + 256 * b1.toNat = 0 then (readLoop f rest).map (.actuallyLiteral :: ·)
      else if b0.toNat + 256 * b1.toNat ≤ 32768 then
        match rest with
        | [] => .error (.err .eof)
        | r :: rest => Ref.new (b0.toNat + 256 * b1.toNat) (r.toNat + 3) >>= fun x =>
            (readLoop f rest).map (.actually x :: ·)
      else (readLoop f rest).map
        (List.replicate (b0.toNat + 256 * b1.toNat - 32768) .correct ++ ·) := by
  simp only [readLoop, bind_pure_map]
  rfl

theorem readLoop_fuel (data : List UInt8) (f₁ f₂ : Nat) (h₁ : data.length < f₁)
    (h₂ : data.length < f₂) : readLoop f₁ data = readLoop f₂ data := by
  induction hn : data.length using Nat.strongRecOn generalizing data f₁ f₂ with
  | ind n ih =>
    subst hn
    cases f₁ with
    | zero => omega
    | succ f₁ =>
      cases f₂ with
      | zero => omega
      | succ f₂ =>
        match data, h₁, h₂, ih with
        | [], _, _, _ => rfl
        | [_], _, _, _ => rfl
        | b0 :: b1 :: rest, h₁, h₂, ih =>
          simp only [List.length_cons] at h₁ h₂ ih
          rw [readLoop_two, readLoop_two]
          have e := ih rest.length (by omega) rest f₁ f₂ (by omega) (by omega) rfl
          rw [e]
          match rest, h₁, h₂, ih with
          | [], _, _, _ => rfl
          | r :: rest, h₁, h₂, ih =>
            simp only [List.length_cons] at h₁ h₂ ih
            dsimp only
            rw [ih rest.length (by omega) rest f₁ f₂ (by omega) (by omega) rfl]

theorem read_eq (data : List UInt8) (f : Nat) (h : data.length < f) :
    readLoop f data = read data := readLoop_fuel _ _ _ h (Nat.lt_succ_self _)

theorem read_nil : read [] = .ok [] := rfl

theorem read_one (b : UInt8) : read [b] = .ok [] := rfl

theorem read_two (b0 b1 : UInt8) (rest : List UInt8) :
    read (b0 :: b1 :: rest) =
      if b0.toNat + 256 * b1.toNat = 0 then (read rest).map (.actuallyLiteral :: ·)
      else if b0.toNat + 256 * b1.toNat ≤ 32768 then
        match rest with
        | [] => .error (.err .eof)
        | r :: rest => (read rest).map
            (.actually ⟨(b0.toNat + 256 * b1.toNat).toUInt16, r⟩ :: ·)
      else (read rest).map
        (List.replicate (b0.toNat + 256 * b1.toNat - 32768) .correct ++ ·) := by
  conv => lhs; unfold read
  rw [readLoop_two, read_eq rest _ (by simp only [List.length_cons]; omega)]
  split
  · rfl
  · rename_i h0
    split
    · rename_i h1
      cases rest with
      | nil => rfl
      | cons r rest =>
        dsimp only
        have hr := UInt8.toNat_lt r
        have hd : (b0.toNat + 256 * b1.toNat).toUInt16.toNat = b0.toNat + 256 * b1.toNat := by
          rw [Nat.toUInt16_eq, UInt16.toNat_ofNat']; omega
        have e := Ref.new_eq ⟨(b0.toNat + 256 * b1.toNat).toUInt16, r⟩ (by rw [hd]; omega)
          (by rw [hd]; omega)
        rw [hd] at e
        rw [show r.toNat + 3 = Ref.run ⟨(b0.toNat + 256 * b1.toNat).toUInt16, r⟩ from rfl, e,
          Ex.ok_bind, read_eq rest _ (by simp only [List.length_cons]; omega)]
    · rfl

theorem u16le_val {v : Nat} (h : v < 65536) :
    ∃ b0 b1 : UInt8, u16le v = [b0, b1] ∧ b0.toNat + 256 * b1.toNat = v := by
  refine ⟨_, _, rfl, ?_⟩
  simp only [Nat.toUInt8_eq, UInt8.toNat_ofNat']
  omega

theorem u16le_length (v : Nat) : (u16le v).length = 2 := rfl

theorem read_lit (rest : List UInt8) :
    read (u16le 0 ++ rest) = (read rest).map (.actuallyLiteral :: ·) := by
  rw [show u16le 0 ++ rest = 0 :: 0 :: rest from rfl, read_two, if_pos (by decide)]

theorem read_ref {r : Ref} (h1 : 1 ≤ r.dist.toNat) (h2 : r.dist.toNat ≤ 32768)
    (rest : List UInt8) :
    read (u16le r.dist.toNat ++ [r.runMinus3] ++ rest) = (read rest).map (.actually r :: ·) := by
  obtain ⟨b0, b1, e, ev⟩ := u16le_val (v := r.dist.toNat) (by omega)
  rw [e, show [b0, b1] ++ [r.runMinus3] ++ rest = b0 :: b1 :: r.runMinus3 :: rest from rfl,
    read_two, ev, if_neg (by omega), if_pos h2]
  dsimp only
  congr 1
  funext l
  congr 2
  cases r with
  | mk d m => simp

theorem read_ref_cut {r : Ref} (h1 : 1 ≤ r.dist.toNat) (h2 : r.dist.toNat ≤ 32768) :
    read (u16le r.dist.toNat) = .error (.err .eof) := by
  obtain ⟨b0, b1, e, ev⟩ := u16le_val (v := r.dist.toNat) (by omega)
  rw [e, read_two, ev, if_neg (by omega), if_pos h2]

theorem read_run {n : Nat} (h1 : 1 ≤ n) (h2 : n ≤ 32767) (rest : List UInt8) :
    read (u16le (32768 + n) ++ rest) = (read rest).map (List.replicate n .correct ++ ·) := by
  obtain ⟨b0, b1, e, ev⟩ := u16le_val (v := 32768 + n) (by omega)
  rw [e, show [b0, b1] ++ rest = b0 :: b1 :: rest from rfl, read_two, ev, if_neg (by omega),
    if_neg (by omega), show 32768 + n - 32768 = n by omega]

/-- The bytes of `n` correct guesses. -/
def runBytes (n : Nat) : List UInt8 :=
  if _h : n > 32767 then u16le (32768 + 32767) ++ runBytes (n - 32767)
  else u16le (32768 + n)
termination_by n
decreasing_by omega

theorem writeCorrects_ok {n : Nat} (h : 1 ≤ n) : writeCorrects n = .ok (runBytes n) := by
  induction n using Nat.strongRecOn with
  | ind n ih =>
    rw [writeCorrects, runBytes]
    by_cases hn : n > 32767
    · rw [dif_pos hn, dif_pos hn, ih (n - 32767) (by omega) (by omega)]; rfl
    · rw [dif_neg hn, dif_neg hn, if_neg (by omega)]; rfl

theorem runBytes_length {n : Nat} (h : 1 ≤ n) :
    (runBytes n).length = 2 * ((n + 32766) / 32767) := by
  induction n using Nat.strongRecOn with
  | ind n ih =>
    rw [runBytes]
    by_cases hn : n > 32767
    · rw [dif_pos hn, List.length_append, ih (n - 32767) (by omega) (by omega), u16le_length]
      omega
    · rw [dif_neg hn, u16le_length]; omega

theorem map_map {α β γ : Type} (x : Except Fail α) (f : α → β) (g : β → γ) :
    (x.map f).map g = x.map (fun a => g (f a)) := by cases x <;> rfl

theorem read_runBytes {n : Nat} (h : 1 ≤ n) (rest : List UInt8) :
    read (runBytes n ++ rest) = (read rest).map (List.replicate n .correct ++ ·) := by
  induction n using Nat.strongRecOn with
  | ind n ih =>
    rw [runBytes]
    by_cases hn : n > 32767
    · rw [dif_pos hn, List.append_assoc, read_run (by omega) (by omega),
        ih (n - 32767) (by omega) (by omega), map_map]
      congr 1
      funext l
      rw [← List.append_assoc, List.replicate_append_replicate,
        show 32767 + (n - 32767) = n by omega]
    · rw [dif_neg hn, read_run h (by omega)]

/-- A cut within a run loses some of it. -/
theorem read_take_runBytes {n : Nat} (h : 1 ≤ n) (k : Nat) (hk : k < (runBytes n).length) :
    ∃ m, m < n ∧ read ((runBytes n).take k) = .ok (List.replicate m .correct) := by
  induction n using Nat.strongRecOn generalizing k with
  | ind n ih =>
    rw [runBytes] at hk ⊢
    by_cases hn : n > 32767
    · rw [dif_pos hn] at hk ⊢
      match k, hk with
      | 0, _ => exact ⟨0, by omega, rfl⟩
      | 1, _ => exact ⟨0, by omega, rfl⟩
      | k + 2, hk =>
        rw [List.length_append, u16le_length] at hk
        obtain ⟨m, hm, e⟩ := ih (n - 32767) (by omega) (by omega) k (by omega)
        refine ⟨32767 + m, by omega, ?_⟩
        rw [List.take_append, u16le_length, List.take_of_length_le (by rw [u16le_length]; omega),
          show k + 2 - 2 = k by omega, read_run (by omega) (by omega), e]
        simp only [Except.map]
        rw [List.replicate_append_replicate]
    · rw [dif_neg hn] at hk ⊢
      rw [u16le_length] at hk
      match k, hk with
      | 0, _ => exact ⟨0, by omega, rfl⟩
      | 1, _ => exact ⟨0, by omega, rfl⟩

/-! ### Writing -/

/-- The list does not begin with a correct guess. -/
def NoRun (t : List Trace) : Prop := t.head? ≠ some .correct

theorem takeCorrects_run (n : Nat) {t : List Trace} (h : NoRun t) :
    takeCorrects (List.replicate n .correct ++ t) = (n, t) := by
  induction n with
  | zero =>
    rw [List.replicate_zero, List.nil_append]
    match t, h with
    | [], _ => rfl
    | .correct :: _, h => exact absurd rfl h
    | .actuallyLiteral :: _, _ => rfl
    | .actually _ :: _, _ => rfl
  | succ n ih => rw [List.replicate_succ, List.cons_append, takeCorrects, ih]

theorem run_split (t : List Trace) :
    ∃ n rest, t = List.replicate n .correct ++ rest ∧ NoRun rest := by
  induction t with
  | nil => exact ⟨0, [], rfl, by simp [NoRun]⟩
  | cons x t ih =>
    cases x with
    | correct =>
      obtain ⟨n, rest, h1, h2⟩ := ih
      exact ⟨n + 1, rest, by rw [List.replicate_succ, List.cons_append, ← h1], h2⟩
    | actuallyLiteral => exact ⟨0, .actuallyLiteral :: t, rfl, by simp [NoRun]⟩
    | actually r => exact ⟨0, .actually r :: t, rfl, by simp [NoRun]⟩

/-- Induction over a list of trace entries by maximal runs of correct guesses. -/
theorem runs_induction {P : List Trace → Prop} (nil : P [])
    (lit : ∀ t, P t → P (.actuallyLiteral :: t)) (ref : ∀ r t, P t → P (.actually r :: t))
    (run : ∀ n t, NoRun t → P t → P (List.replicate (n + 1) .correct ++ t)) (t : List Trace) :
    P t := by
  induction hn : t.length using Nat.strongRecOn generalizing t with
  | ind n ih =>
    subst hn
    match t, ih with
    | [], _ => exact nil
    | .actuallyLiteral :: t, ih => exact lit t (ih t.length (by simp) t rfl)
    | .actually r :: t, ih => exact ref r t (ih t.length (by simp) t rfl)
    | .correct :: t, ih =>
      obtain ⟨n, rest, h1, h2⟩ := run_split t
      have : Trace.correct :: t = List.replicate (n + 1) .correct ++ rest := by
        rw [h1]; rfl
      rw [this]
      exact run n rest h2 (ih rest.length (by rw [h1]; simp; omega) rest rfl)

theorem writeLoop_lit (f : Nat) (t : List Trace) :
    writeLoop (f + 1) (.actuallyLiteral :: t) = (writeLoop f t).map (u16le 0 ++ ·) := by
  rw [writeLoop]; exact bind_pure_map _ _

theorem writeLoop_ref (f : Nat) (r : Ref) (t : List Trace) :
    writeLoop (f + 1) (.actually r :: t) =
      (writeLoop f t).map (u16le r.dist.toNat ++ [r.runMinus3] ++ ·) := by
  rw [writeLoop]
  have : (r.run - 3).toUInt8 = r.runMinus3 := by simp [Ref.run]
  rw [this]
  exact bind_pure_map _ _

theorem writeLoop_run (f n : Nat) {t : List Trace} (h : NoRun t) :
    writeLoop (f + 1) (List.replicate (n + 1) .correct ++ t) =
      (writeLoop f t).map (runBytes (n + 1) ++ ·) := by
  have e := takeCorrects_run (n + 1) h
  rw [List.replicate_succ, List.cons_append] at e ⊢
  rw [writeLoop, e]
  dsimp only
  rw [writeCorrects_ok (by omega), Ex.ok_bind]
  exact bind_pure_map _ _

theorem writeLoop_fuel (t : List Trace) :
    ∃ w, ∀ f, t.length ≤ f → writeLoop f t = .ok w := by
  induction t using runs_induction with
  | nil => exact ⟨[], fun f _ => by cases f <;> rfl⟩
  | lit t ih =>
    obtain ⟨w, h⟩ := ih
    refine ⟨u16le 0 ++ w, fun f hf => ?_⟩
    cases f with
    | zero => simp at hf
    | succ f => rw [writeLoop_lit, h f (by simpa using hf)]; rfl
  | ref r t ih =>
    obtain ⟨w, h⟩ := ih
    refine ⟨u16le r.dist.toNat ++ [r.runMinus3] ++ w, fun f hf => ?_⟩
    cases f with
    | zero => simp at hf
    | succ f => rw [writeLoop_ref, h f (by simpa using hf)]; rfl
  | run n t hr ih =>
    obtain ⟨w, h⟩ := ih
    refine ⟨runBytes (n + 1) ++ w, fun f hf => ?_⟩
    rw [List.length_append, List.length_replicate] at hf
    cases f with
    | zero => omega
    | succ f => rw [writeLoop_run _ _ hr, h f (by omega)]; rfl

/-- The serialisation. -/
def bytesOf (t : List Trace) : List UInt8 :=
  match write t with
  | .ok w => w
  | .error _ => []

theorem writeLoop_eq (t : List Trace) (f : Nat) (hf : t.length ≤ f) :
    writeLoop f t = .ok (bytesOf t) := by
  obtain ⟨w, h⟩ := writeLoop_fuel t
  rw [h f hf, bytesOf, write, h _ (Nat.le_refl _)]

theorem write_eq (t : List Trace) : write t = .ok (bytesOf t) := writeLoop_eq t _ (Nat.le_refl _)

theorem bytesOf_nil : bytesOf [] = [] := rfl

theorem bytesOf_lit (t : List Trace) : bytesOf (.actuallyLiteral :: t) = u16le 0 ++ bytesOf t := by
  have := writeLoop_eq (.actuallyLiteral :: t) (t.length + 1) (by simp)
  rw [writeLoop_lit, writeLoop_eq t _ (Nat.le_refl _)] at this
  exact (Except.ok.inj this).symm

theorem bytesOf_ref (r : Ref) (t : List Trace) :
    bytesOf (.actually r :: t) = u16le r.dist.toNat ++ [r.runMinus3] ++ bytesOf t := by
  have := writeLoop_eq (.actually r :: t) (t.length + 1) (by simp)
  rw [writeLoop_ref, writeLoop_eq t _ (Nat.le_refl _)] at this
  exact (Except.ok.inj this).symm

theorem bytesOf_run (n : Nat) {t : List Trace} (h : NoRun t) :
    bytesOf (List.replicate (n + 1) .correct ++ t) = runBytes (n + 1) ++ bytesOf t := by
  have := writeLoop_eq (List.replicate (n + 1) .correct ++ t) (t.length + (n + 1))
    (by rw [List.length_append, List.length_replicate]; omega)
  rw [← Nat.add_assoc, writeLoop_run _ _ h, writeLoop_eq t _ (by omega)] at this
  exact (Except.ok.inj this).symm

/-- The serialisation of a concatenation, unless it joins two runs of correct guesses. -/
theorem bytesOf_append (a b : List Trace)
    (h : a.getLast? ≠ some .correct ∨ b.head? ≠ some .correct) :
    bytesOf (a ++ b) = bytesOf a ++ bytesOf b := by
  induction a using runs_induction with
  | nil => rfl
  | lit t ih =>
    rw [List.cons_append, bytesOf_lit, bytesOf_lit, List.append_assoc]
    congr 1
    apply ih
    rcases h with h | h
    · left
      intro h'
      apply h
      rw [List.getLast?_cons, h']
      rfl
    · exact .inr h
  | ref r t ih =>
    rw [List.cons_append, bytesOf_ref, bytesOf_ref, List.append_assoc _ _ (bytesOf b)]
    congr 1
    apply ih
    rcases h with h | h
    · left
      intro h'
      apply h
      rw [List.getLast?_cons, h']
      rfl
    · exact .inr h
  | run n t hr ih =>
    cases t with
    | nil =>
      have hb : NoRun b := by
        rcases h with h | h
        · rw [List.append_nil, List.replicate_succ', List.getLast?_append] at h
          simp at h
        · exact h
      rw [List.append_nil, bytesOf_run n hb]
      have := bytesOf_run n (t := []) (by simp [NoRun])
      rw [List.append_nil, bytesOf_nil, List.append_nil] at this
      rw [this]
    | cons x t =>
      rw [List.append_assoc, bytesOf_run n hr, bytesOf_run n (t := x :: t ++ b) hr, ih,
        List.append_assoc]
      rcases h with h | h
      · left
        rw [List.getLast?_append] at h
        intro h'
        rw [h'] at h
        exact h rfl
      · exact .inr h

end SerialiseTrace

end Rezip
