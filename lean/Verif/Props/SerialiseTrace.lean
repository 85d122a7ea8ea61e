import Verif.Lemmas.SerialiseTrace
import Verif.Spec.Iter

/-!
# C36-C40: the serialised form of a trace
-/

namespace Rezip

open Rezip.Spec SerialiseTrace

/-- All references of a trace are within the ranges of the format. -/
def TraceOk (t : List Trace) : Prop := ∀ r, Trace.actually r ∈ t → RefOk r

theorem TraceOk.tail {x : Trace} {t : List Trace} (h : TraceOk (x :: t)) : TraceOk t :=
  fun r hr => h r (List.mem_cons_of_mem _ hr)

theorem TraceOk.right {a t : List Trace} (h : TraceOk (a ++ t)) : TraceOk t :=
  fun r hr => h r (List.mem_append_right _ hr)

theorem read_bytesOf {t : List Trace} (h : TraceOk t) : read (bytesOf t) = .ok t := by
  induction t using runs_induction with
  | nil => rfl
  | lit t ih => rw [bytesOf_lit, read_lit, ih h.tail]; rfl
  | ref r t ih =>
    have hr := h r (by simp)
    rw [bytesOf_ref, read_ref hr.1 hr.2.1, ih h.tail]; rfl
  | run n t hn ih => rw [bytesOf_run n hn, read_runBytes (by omega), ih h.right]; rfl

/-! ### C36 -/

/-- C36. Every trace with well formed references is serialised without a panic, reading the bytes
gives it back, and so the serialiser's self-check passes. -/
theorem C36_roundtrip (t : List Trace) (h : TraceOk t) :
    ∃ bytes, write t = .ok bytes ∧ read bytes = .ok t ∧ verify t = .ok bytes := by
  refine ⟨_, write_eq t, read_bytesOf h, ?_⟩
  unfold verify
  rw [write_eq, Ex.ok_bind, read_bytesOf h]
  dsimp only
  rw [assert_of (by simp)]
  rfl

/-- Without the hypothesis: a reference with distance 0 (which `Ref::new` refuses, but the field is
public) makes the self-check panic. -/
example : verify [.actually ⟨0, 0⟩] = .error (.panic .assertion) := by decide

example : TraceOk [.correct, .correct, .actually ⟨300, 5⟩, .actuallyLiteral] := by
  intro r hr
  simp at hr
  subst hr
  unfold RefOk Ref.run
  decide

example : write [.correct, .correct, .actually ⟨300, 5⟩, .actuallyLiteral] =
    .ok [2, 128, 44, 1, 5, 0, 0] := by
  decide +kernel

/-! ### C37 -/

/-- C37. Reading any bytes as a trace gives a list whose references are all well formed, or the error
of an unexpected end of input; never a panic, and it terminates. -/
theorem C37_read_total (data : List UInt8) :
    (∃ t, read data = .ok t ∧ TraceOk t) ∨ read data = .error (.err .eof) := by
  induction hn : data.length using Nat.strongRecOn generalizing data with
  | ind n ih =>
    subst hn
    match data, ih with
    | [], _ => exact .inl ⟨[], rfl, by intro r hr; cases hr⟩
    | [_], _ => exact .inl ⟨[], rfl, by intro r hr; cases hr⟩
    | b0 :: b1 :: rest, ih =>
      simp only [List.length_cons] at ih
      rw [read_two]
      split
      · rcases ih rest.length (by omega) rest rfl with ⟨t, h1, h2⟩ | h1
        · rw [h1]
          exact .inl ⟨_, rfl, fun r hr => by
            rcases List.mem_cons.1 hr with hr | hr
            · cases hr
            · exact h2 r hr⟩
        · rw [h1]; exact .inr rfl
      · rename_i h0
        split
        · rename_i hle
          match rest, ih with
          | [], _ => exact .inr rfl
          | r :: rest, ih =>
            simp only [List.length_cons] at ih
            dsimp only
            rcases ih rest.length (by omega) rest rfl with ⟨t, h1, h2⟩ | h1
            · rw [h1]
              refine .inl ⟨_, rfl, fun x hx => ?_⟩
              rcases List.mem_cons.1 hx with hx | hx
              · cases hx
                have hr := UInt8.toNat_lt r
                have hd : (b0.toNat + 256 * b1.toNat).toUInt16.toNat =
                    b0.toNat + 256 * b1.toNat := by
                  rw [Nat.toUInt16_eq, UInt16.toNat_ofNat']; omega
                refine ⟨?_, ?_, ?_, ?_⟩ <;> simp only [hd, Ref.run] <;> omega
              · exact h2 x hx
            · rw [h1]; exact .inr rfl
        · rcases ih rest.length (by omega) rest rfl with ⟨t, h1, h2⟩ | h1
          · rw [h1]
            refine .inl ⟨_, rfl, fun x hx => ?_⟩
            rcases List.mem_append.1 hx with hx | hx
            · exact absurd (List.eq_of_mem_replicate hx) (by simp)
            · exact h2 x hx
          · rw [h1]; exact .inr rfl

/-- Two bytes of a reference and no third: the error occurs. -/
example : read [1, 0] = .error (.err .eof) ∧ read [1, 0, 255] = .ok [.actually ⟨1, 255⟩] := by
  decide

/-! ### C38, C39 -/

theorem read_take_lt_two (x : List UInt8) (k : Nat) (h : k < 2) : read (x.take k) = .ok [] := by
  match k, h, x with
  | 0, _, _ => rfl
  | 1, _, [] => rfl
  | 1, _, _ :: _ => rfl

/-- Reading a prefix: what can come out. -/
theorem read_take {t : List Trace} (h : TraceOk t) (k : Nat) :
    (∃ t', t' <+: t ∧ read ((bytesOf t).take k) = .ok t') ∨
    (read ((bytesOf t).take k) = .error (.err .eof) ∧
      ∃ t₁ r t₂, t = t₁ ++ .actually r :: t₂ ∧ k = (bytesOf t₁).length + 2) := by
  induction t using runs_induction generalizing k with
  | nil => exact .inl ⟨[], List.prefix_rfl, by rw [bytesOf_nil, List.take_nil]; rfl⟩
  | lit t ih =>
    rw [bytesOf_lit]
    by_cases hk : k < 2
    · exact .inl ⟨[], List.nil_prefix, read_take_lt_two _ _ hk⟩
    · obtain ⟨k, rfl⟩ : ∃ j, k = j + 2 := ⟨k - 2, by omega⟩
      rw [List.take_append, u16le_length, Nat.add_sub_cancel,
        List.take_of_length_le (by rw [u16le_length]; omega), read_lit]
      rcases ih h.tail k with ⟨t', h1, h2⟩ | ⟨h1, t₁, r, t₂, h2, h3⟩
      · exact .inl ⟨.actuallyLiteral :: t', List.cons_prefix_cons.2 ⟨rfl, h1⟩, by rw [h2]; rfl⟩
      · refine .inr ⟨by rw [h1]; rfl, .actuallyLiteral :: t₁, r, t₂, by rw [h2]; rfl, ?_⟩
        rw [bytesOf_lit, List.length_append, u16le_length, h3]; omega
  | ref r t ih =>
    have hr := h r (by simp)
    rw [bytesOf_ref]
    by_cases hk : k < 2
    · exact .inl ⟨[], List.nil_prefix, read_take_lt_two _ _ hk⟩
    · by_cases hk2 : k = 2
      · subst hk2
        refine .inr ⟨?_, [], r, t, rfl, rfl⟩
        rw [List.append_assoc, List.take_left' (u16le_length _), read_ref_cut hr.1 hr.2.1]
      · obtain ⟨k, rfl⟩ : ∃ j, k = j + 3 := ⟨k - 3, by omega⟩
        have hl : (u16le r.dist.toNat ++ [r.runMinus3]).length = 3 := rfl
        rw [List.take_append, hl, Nat.add_sub_cancel,
          List.take_of_length_le (by rw [hl]; omega), read_ref hr.1 hr.2.1]
        rcases ih h.tail k with ⟨t', h1, h2⟩ | ⟨h1, t₁, r', t₂, h2, h3⟩
        · exact .inl ⟨.actually r :: t', List.cons_prefix_cons.2 ⟨rfl, h1⟩, by rw [h2]; rfl⟩
        · refine .inr ⟨by rw [h1]; rfl, .actually r :: t₁, r', t₂, by rw [h2]; rfl, ?_⟩
          rw [bytesOf_ref, List.length_append, hl, h3]; omega
  | run n t hn ih =>
    rw [bytesOf_run n hn]
    by_cases hk : k < (runBytes (n + 1)).length
    · obtain ⟨m, hm, e⟩ := read_take_runBytes (n := n + 1) (by omega) k hk
      refine .inl ⟨List.replicate m .correct, ?_, ?_⟩
      · rw [show n + 1 = m + (n + 1 - m) by omega, ← List.replicate_append_replicate,
          List.append_assoc]
        exact List.prefix_append _ _
      · rw [List.take_append_of_le_length (by omega)]; exact e
    · obtain ⟨j, rfl⟩ : ∃ j, k = (runBytes (n + 1)).length + j :=
        ⟨k - (runBytes (n + 1)).length, by omega⟩
      rw [List.take_append, Nat.add_sub_cancel_left, List.take_of_length_le (by omega),
        read_runBytes (by omega)]
      rcases ih h.right j with ⟨t', h1, h2⟩ | ⟨h1, t₁, r', t₂, h2, h3⟩
      · exact .inl ⟨_, (List.prefix_append_right_inj _).2 h1, by rw [h2]; rfl⟩
      · refine .inr ⟨by rw [h1]; rfl, List.replicate (n + 1) .correct ++ t₁, r', t₂,
          by rw [h2, List.append_assoc], ?_⟩
        have hn1 : NoRun t₁ := by
          cases t₁ with
          | nil => simp [NoRun]
          | cons x t₁ =>
            subst h2
            exact hn
        rw [bytesOf_run n hn1, List.length_append, h3]
        omega

/-- C38. Reading any prefix of a serialised trace fails, or gives a prefix of the trace. -/
theorem C38_prefix (t : List Trace) (h : TraceOk t) (bytes : List UInt8) (hw : write t = .ok bytes)
    (p : List UInt8) (hp : p <+: bytes) :
    read p = .error (.err .eof) ∨ ∃ t', t' <+: t ∧ read p = .ok t' := by
  rw [write_eq] at hw
  cases hw
  rw [List.prefix_iff_eq_take] at hp
  rw [hp]
  rcases read_take h p.length with h1 | ⟨h1, _⟩
  · exact .inr h1
  · exact .inl h1

/-- A prefix that cuts a reference, and one that cuts a run. -/
example : read ([2, 128, 44, 1].take 4) = .error (.err .eof) ∧
    read ([2, 128, 44, 1, 5].take 3) = .ok [.correct, .correct] := by decide

/-- C39 (`_partial`): a truncation is detected exactly when it leaves just the two distance bytes of a
reference. Missing: all other truncations, which are not detected (`C39_truncation_false`). -/
theorem C39_detected_partial (t : List Trace) (h : TraceOk t) (bytes : List UInt8)
    (hw : write t = .ok bytes) (k : Nat) :
    (∃ e, read (bytes.take k) = .error e) ↔
      ∃ t₁ r t₂ b₁, t = t₁ ++ .actually r :: t₂ ∧ write t₁ = .ok b₁ ∧ k = b₁.length + 2 := by
  rw [write_eq] at hw
  cases hw
  constructor
  · rintro ⟨e, he⟩
    rcases read_take h k with ⟨t', _, h2⟩ | ⟨_, t₁, r, t₂, h2, h3⟩
    · rw [h2] at he; cases he
    · exact ⟨t₁, r, t₂, _, h2, write_eq t₁, h3⟩
  · rintro ⟨t₁, r, t₂, b₁, rfl, hw, rfl⟩
    rw [write_eq] at hw
    cases hw
    have hr := h r (by simp)
    rw [bytesOf_append _ _ (.inr (by simp)), bytesOf_ref, List.append_assoc, ← List.append_assoc,
      List.take_left' (by simp [u16le_length])]
    -- reading the first part, then the two bytes
    have key : ∀ (t : List Trace) (tail : List UInt8), TraceOk t →
        read (bytesOf t ++ tail) = (read tail).map (t ++ ·) := by
      intro t tail ht
      induction t using runs_induction with
      | nil => rw [bytesOf_nil, List.nil_append]; cases read tail <;> rfl
      | lit t ih => rw [bytesOf_lit, List.append_assoc, read_lit, ih ht.tail, map_map]; rfl
      | ref r t ih =>
        have hr := ht r (by simp)
        rw [bytesOf_ref, List.append_assoc, read_ref hr.1 hr.2.1, ih ht.tail, map_map]; rfl
      | run n t hn ih =>
        rw [bytesOf_run n hn, List.append_assoc, read_runBytes (by omega), ih ht.right, map_map]
        congr 1
        funext l
        rw [List.append_assoc]
    rw [key _ _ (fun r hr => h r (List.mem_append_left _ hr)), read_ref_cut hr.1 hr.2.1]
    exact ⟨_, rfl⟩

/-- C39 fails: cutting a serialised trace to half of it goes unnoticed. -/
theorem C39_truncation_false : ¬ ∀ (t : List Trace) (bytes p : List UInt8), TraceOk t →
    write t = .ok bytes → p <+: bytes → p ≠ bytes → ∃ e, read p = .error e := by
  intro h
  obtain ⟨e, he⟩ := h [.actuallyLiteral, .actuallyLiteral] [0, 0, 0, 0] [0, 0, 0]
    (by intro r hr; simp at hr) (by decide) ⟨[0], rfl⟩ (by decide)
  rw [show read [0, 0, 0] = .ok [.actuallyLiteral] from by decide] at he
  cases he

/-! ### C40 -/

/-- C40. A serialised trace takes at most 3 bytes per entry. -/
theorem C40_size (t : List Trace) : ∃ bytes, write t = .ok bytes ∧ bytes.length ≤ 3 * t.length := by
  refine ⟨_, write_eq t, ?_⟩
  induction t using runs_induction with
  | nil => simp [bytesOf_nil]
  | lit t ih => rw [bytesOf_lit, List.length_append, u16le_length, List.length_cons]; omega
  | ref r t ih =>
    rw [bytesOf_ref, List.length_append, List.length_append, u16le_length, List.length_singleton,
      List.length_cons]
    omega
  | run n t hn ih =>
    rw [bytesOf_run n hn, List.length_append, runBytes_length (by omega), List.length_append,
      List.length_replicate]
    omega

/-- C40. `n` consecutive correct guesses, between entries that are not, take `2 * ⌈n / 32767⌉`
bytes. -/
theorem C40_run (a b : List Trace) (n : Nat) (ha : a.getLast? ≠ some .correct)
    (hb : b.head? ≠ some .correct) :
    ∃ wa wb w, write a = .ok wa ∧ write b = .ok wb ∧
      write (a ++ List.replicate n .correct ++ b) = .ok w ∧
      w.length = wa.length + 2 * ((n + 32766) / 32767) + wb.length := by
  refine ⟨_, _, _, write_eq a, write_eq b, write_eq _, ?_⟩
  rw [List.append_assoc, bytesOf_append _ _ (.inl ha)]
  cases n with
  | zero => simp
  | succ n => rw [bytesOf_run n hb, List.length_append, List.length_append,
      runBytes_length (by omega)]; omega

/-- The size of the rest: two bytes for a literal, three for a reference. -/
theorem C40_entries (r : Ref) : (∃ w, write [.actuallyLiteral] = .ok w ∧ w.length = 2) ∧
    (∃ w, write [.actually r] = .ok w ∧ w.length = 3) :=
  ⟨⟨_, write_eq _, rfl⟩, ⟨_, write_eq _, rfl⟩⟩

example : (2 * ((100000 + 32766) / 32767) = 8) ∧
    ([Trace.actuallyLiteral].getLast? ≠ some .correct) := by decide

end Rezip
