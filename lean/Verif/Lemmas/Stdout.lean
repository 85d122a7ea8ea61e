import Verif.Model.Stdout
import Verif.Lemmas.WriterOn

/-!
# What standard output does with a sequence of writes
-/

namespace Rezip

/-- A descriptor with this room takes `n` bytes. -/
def Fits (room : Option Nat) (n : Nat) : Prop := ∀ r, room = some r → n ≤ r

theorem Fits.mono {room : Option Nat} {m n : Nat} (h : Fits room n) (hm : m ≤ n) : Fits room m :=
  fun r hr => Nat.le_trans hm (h r hr)

theorem not_fits {room : Option Nat} {n : Nat} (h : ¬ Fits room n) : ∃ r, room = some r ∧ r < n := by
  cases room with
  | none => exact absurd (fun r hr => by cases hr) h
  | some r => exact ⟨r, rfl, Nat.lt_of_not_le fun hn => h fun r' hr => by cases hr; exact hn⟩

/-- What a descriptor with this room gets of `x`. -/
def taken (room : Option Nat) (x : List UInt8) : List UInt8 :=
  match room with
  | none => x
  | some n => x.take n

namespace LineWriter

/-- The descriptor after it has got `sent`. -/
def fd (o : List UInt8) (room : Option Nat) (sent : List UInt8) : Sink := ⟨o ++ sent, room.map (· - sent.length)⟩

/-- Standard output after `sent` has gone out and `kept` has been held back. -/
def mid (cap : Nat) (o : List UInt8) (room : Option Nat) (sent kept : List UInt8) : LineWriter :=
  ⟨kept, cap, fd o room sent⟩

/-- The descriptor is full, with the first bytes of `x`. -/
def Full (o : List UInt8) (room : Option Nat) (x : List UInt8) (w : LineWriter) : Prop :=
  ∃ r, room = some r ∧ r < x.length ∧ w.inner = ⟨o ++ x.take r, some 0⟩

theorem Full.mono {o : List UInt8} {room : Option Nat} {x : List UInt8} {w : LineWriter} (h : Full o room x w)
    (y : List UInt8) : Full o room (x ++ y) w := by
  obtain ⟨r, h1, h2, h3⟩ := h
  refine ⟨r, h1, by rw [List.length_append]; omega, ?_⟩
  rw [h3, List.take_append_of_le_length (by omega)]

/-- `f` sends `d` and then holds back `kept'`, or fails because the descriptor is full. -/
def Does (cap : Nat) (f : EStateM Fail LineWriter Unit) (kept d kept' : List UInt8) : Prop :=
  ∀ o room sent, Fits room sent.length →
    (Fits room (sent ++ d).length → f (mid cap o room sent kept) = .ok () (mid cap o room (sent ++ d) kept')) ∧
    (¬ Fits room (sent ++ d).length →
      ∃ w, f (mid cap o room sent kept) = .error (.err .sink) w ∧ Full o room (sent ++ d) w)

theorem Does.bind {cap : Nat} {f g : EStateM Fail LineWriter Unit} {k k' k'' d d' : List UInt8}
    (hf : Does cap f k d k') (hg : Does cap g k' d' k'') : Does cap (f >>= fun _ => g) k (d ++ d') k'' := by
  intro o room sent hs
  obtain ⟨h1, h2⟩ := hf o room sent hs
  rw [← List.append_assoc]
  by_cases hd : Fits room (sent ++ d).length
  · obtain ⟨h3, h4⟩ := hg o room (sent ++ d) hd
    rw [ES.bind_ok (h1 hd)]
    exact ⟨h3, h4⟩
  · obtain ⟨w, h5, h6⟩ := h2 hd
    refine ⟨fun h => absurd (h.mono (by simp only [List.length_append]; omega)) hd, fun _ => ⟨w, ?_, h6.mono _⟩⟩
    exact ES.bind_err h5

theorem Does.pure (cap : Nat) (k : List UInt8) : Does cap (Pure.pure ()) k [] k := by
  intro o room sent hs
  rw [List.append_nil]
  exact ⟨fun _ => rfl, fun h => absurd hs h⟩

theorem writeAll_fd (o : List UInt8) (room : Option Nat) (sent d : List UInt8) (hs : Fits room sent.length) :
    (Fits room (sent ++ d).length → writeAll d (fd o room sent) = .ok () (fd o room (sent ++ d))) ∧
    (¬ Fits room (sent ++ d).length → ∃ r, room = some r ∧ r < (sent ++ d).length ∧
      writeAll d (fd o room sent) = .error (.err .sink) ⟨o ++ (sent ++ d).take r, some 0⟩) := by
  unfold fd writeAll
  cases room with
  | none => exact ⟨fun _ => by simp, fun h => absurd (fun r hr => by cases hr) h⟩
  | some r =>
    have hs := hs r rfl
    dsimp only [Option.map_some]
    constructor
    · intro h
      have h := h r rfl
      rw [List.length_append] at h
      rw [if_pos (by omega), List.append_assoc, List.length_append, Nat.sub_sub]
    · intro h
      obtain ⟨r', hr, h⟩ := not_fits h
      cases hr
      refine ⟨r, rfl, h, ?_⟩
      rw [List.length_append] at h
      rw [if_neg (by omega), List.take_append, List.take_of_length_le hs, List.append_assoc]

theorem does_writeInner (cap : Nat) (d : List UInt8) : Does cap (writeInner d) [] d [] := by
  intro o room sent hs
  obtain ⟨h1, h2⟩ := writeAll_fd o room sent d hs
  unfold writeInner mid
  dsimp only
  refine ⟨fun h => by rw [h1 h], fun h => ?_⟩
  obtain ⟨r, h3, h4, h5⟩ := h2 h
  rw [h5]
  exact ⟨_, rfl, r, h3, h4, rfl⟩

theorem does_flush (cap : Nat) (k : List UInt8) : Does cap flushBuf k k [] := by
  intro o room sent hs
  obtain ⟨h1, h2⟩ := writeAll_fd o room sent k hs
  unfold flushBuf mid
  dsimp only
  refine ⟨fun h => by rw [h1 h], fun h => ?_⟩
  obtain ⟨r, h3, h4, h5⟩ := h2 h
  rw [h5]
  exact ⟨_, rfl, r, h3, h4, rfl⟩

/-- The buffer: it holds back the end of what it has got. -/
theorem does_buf (cap : Nat) (k p : List UInt8) (hk : k.length ≤ cap) :
    ∃ d k', d ++ k' = k ++ p ∧ k'.length ≤ cap ∧ ((k ++ p).length < cap → d = []) ∧ Does cap (bufWriteAll p) k d k' := by
  by_cases h1 : p.length < cap - k.length
  · refine ⟨[], k ++ p, rfl, by rw [List.length_append]; omega, fun _ => rfl, fun o room sent hs => ?_⟩
    rw [List.append_nil]
    refine ⟨fun _ => ?_, fun h => absurd hs h⟩
    show (if p.length < cap - k.length then _ else _ : EStateM Fail LineWriter Unit) _ = _
    rw [if_pos h1]
    rfl
  · by_cases h2 : p.length > cap - k.length
    · have h3 := does_flush cap k
      by_cases h4 : p.length ≥ cap
      · refine ⟨k ++ p, [], List.append_nil _, Nat.zero_le _, fun h => by rw [List.length_append] at h; omega, fun o room sent hs => ?_⟩
        have := h3.bind (does_writeInner cap p) o room sent hs
        have e : bufWriteAll p (mid cap o room sent k) = (flushBuf >>= fun _ => writeInner p) (mid cap o room sent k) := by
          show (if p.length < cap - k.length then _ else _ : EStateM Fail LineWriter Unit) _ = _
          rw [if_neg h1]
          show (if p.length > cap - k.length then _ else _ : EStateM Fail LineWriter Unit) _ = _
          rw [if_pos h2]
          cases hx : flushBuf (mid cap o room sent k) with
          | error e w => rw [ES.bind_err hx, ES.bind_err hx]
          | ok u w =>
            rw [ES.bind_ok hx, ES.bind_ok hx]
            have hc : w.cap = cap := by
              unfold flushBuf at hx
              split at hx
              · cases hx; rfl
              · cases hx
            show (if p.length ≥ w.cap then _ else _ : EStateM Fail LineWriter Unit) _ = _
            rw [hc, if_pos h4]
        rw [e]
        exact this
      · refine ⟨k, p, rfl, by omega, fun h => by rw [List.length_append] at h; omega, fun o room sent hs => ?_⟩
        obtain ⟨h5, h6⟩ := h3 o room sent hs
        have e : bufWriteAll p (mid cap o room sent k) = (flushBuf >>= fun _ => (get >>= fun s =>
            if p.length ≥ s.cap then writeInner p else set { s with buf := s.buf ++ p })) (mid cap o room sent k) := by
          show (if p.length < cap - k.length then _ else _ : EStateM Fail LineWriter Unit) _ = _
          rw [if_neg h1]
          show (if p.length > cap - k.length then _ else _ : EStateM Fail LineWriter Unit) _ = _
          rw [if_pos h2]
        rw [e]
        constructor
        · intro h
          rw [ES.bind_ok (h5 h)]
          show (if p.length ≥ cap then _ else _ : EStateM Fail LineWriter Unit) _ = _
          rw [if_neg h4]
          rfl
        · intro h
          obtain ⟨w, h7, h8⟩ := h6 h
          exact ⟨w, ES.bind_err h7, h8⟩
    · -- it fits exactly
      have e : ∀ o room sent, bufWriteAll p (mid cap o room sent k) =
          (if p.length ≥ cap then writeInner p else set { mid cap o room sent k with buf := k ++ p } :
            EStateM Fail LineWriter Unit) (mid cap o room sent k) := by
        intro o room sent
        show (if p.length < cap - k.length then _ else _ : EStateM Fail LineWriter Unit) _ = _
        rw [if_neg h1]
        show (if p.length > cap - k.length then _ else _ : EStateM Fail LineWriter Unit) _ = _
        rw [if_neg h2]
        rfl
      by_cases h4 : p.length ≥ cap
      · have hk0 : k = [] := List.eq_nil_of_length_eq_zero (by omega)
        subst hk0
        refine ⟨p, [], by simp, Nat.zero_le _, fun h => by rw [List.length_append] at h; omega, fun o room sent hs => ?_⟩
        rw [e, if_pos h4]
        exact does_writeInner cap p o room sent hs
      · refine ⟨[], k ++ p, rfl, by rw [List.length_append]; omega, fun _ => rfl, fun o room sent hs => ?_⟩
        rw [List.append_nil, e, if_neg h4]
        exact ⟨fun _ => rfl, fun h => absurd hs h⟩

theorem tailOf_suffix (p : List UInt8) : ∃ l, p = l ++ tailOf p := by
  refine ⟨(p.reverse.dropWhile (· != 10)).reverse, ?_⟩
  rw [tailOf, ← List.reverse_append, List.takeWhile_append_dropWhile, List.reverse_reverse]

theorem tailOf_newline (p : List UInt8) : 10 ∉ tailOf p := by
  intro h
  rw [tailOf, List.mem_reverse] at h
  have : ∀ l : List UInt8, 10 ∉ l.takeWhile (· != 10) := by
    intro l
    induction l with
    | nil => simp
    | cons a l ih =>
      rw [List.takeWhile_cons]
      split
      · rename_i ha
        intro hm
        rcases List.mem_cons.1 hm with rfl | hm
        · simp at ha
        · exact ih hm
      · simp
  exact this _ h

theorem tailOf_of_not_mem {p : List UInt8} (h : 10 ∉ p) : tailOf p = p := by
  have : ∀ l : List UInt8, 10 ∉ l → l.takeWhile (· != 10) = l := by
    intro l
    induction l with
    | nil => intro _; rfl
    | cons a l ih =>
      intro hl
      have ha : (a != 10) = true := by
        simp only [bne_iff_ne, ne_eq]
        exact fun hh => hl (hh ▸ List.mem_cons_self)
      rw [List.takeWhile_cons, if_pos ha, ih fun h => hl (List.mem_cons_of_mem _ h)]
  rw [tailOf, this _ (by rwa [List.mem_reverse]), List.reverse_reverse]

theorem tailOf_append (a p : List UInt8) (h : 10 ∈ p) : tailOf (a ++ p) = tailOf p := by
  have : ∀ l m : List UInt8, 10 ∈ l → (l ++ m).takeWhile (· != 10) = l.takeWhile (· != 10) := by
    intro l m
    induction l with
    | nil => intro h; cases h
    | cons x l ih =>
      intro h
      rw [List.cons_append, List.takeWhile_cons, List.takeWhile_cons]
      split
      · rename_i hx
        rcases List.mem_cons.1 h with rfl | h
        · simp at hx
        · rw [ih h]
      · rfl
  rw [tailOf, tailOf, List.reverse_append, this _ _ (List.mem_reverse.2 h)]

theorem tailOf_append' (a p : List UInt8) (h : 10 ∉ p) : tailOf (a ++ p) = tailOf a ++ p := by
  rw [tailOf, tailOf, List.reverse_append]
  have : ∀ x ∈ p.reverse, (x != 10) = true := by
    intro x hx
    simp only [bne_iff_ne, ne_eq]
    exact fun hh => h (by rw [← hh]; exact List.mem_reverse.1 hx)
  rw [List.takeWhile_append_of_pos this, List.reverse_append, List.reverse_reverse]

/-- One `write_all`. -/
theorem does_write (cap : Nat) (k p : List UInt8) (hk : k.length ≤ cap) (hn : 10 ∉ k) :
    ∃ d k', d ++ k' = k ++ p ∧ k'.length ≤ cap ∧ 10 ∉ k' ∧ ((tailOf (k ++ p)).length < cap → k' = tailOf (k ++ p)) ∧
      Does cap (writeAllLines p) k d k' := by
  by_cases hp : p.contains 10
  · obtain ⟨l, hl⟩ := tailOf_suffix p
    have hlen : p.take (p.length - (tailOf p).length) = l := by
      conv => lhs; arg 2; rw [hl]
      rw [show p.length - (tailOf p).length = l.length by
        have := congrArg List.length hl; rw [List.length_append] at this; omega]
      exact List.take_left' rfl
    obtain ⟨d, k', h1, h2, h0, h3⟩ := does_buf cap [] (tailOf p) (Nat.zero_le _)
    rw [List.nil_append] at h1 h0
    have hn' : 10 ∉ k' := fun h => tailOf_newline p (by rw [← h1]; exact List.mem_append_right _ h)
    have hfirst : Does cap (if k.isEmpty then writeInner l else do bufWriteAll l; flushBuf) k (k ++ l) [] := by
      cases k with
      | nil => exact does_writeInner cap l
      | cons a k =>
        obtain ⟨d₁, k₁, e1, _, _, e3⟩ := does_buf cap (a :: k) l hk
        have := e3.bind (does_flush cap k₁)
        rw [e1] at this
        exact this
    refine ⟨(k ++ l) ++ d, k', ?_, h2, hn', fun ht => ?_, ?_⟩
    · rw [List.append_assoc, h1, List.append_assoc, ← hl]
    · rw [tailOf_append _ _ (List.contains_iff_mem.1 hp)] at ht ⊢
      rw [← h1, h0 ht, List.nil_append]
    · have := hfirst.bind h3
      intro o room sent hs
      have e : writeAllLines p (mid cap o room sent k) =
          ((if k.isEmpty then writeInner l else do bufWriteAll l; flushBuf) >>= fun _ => bufWriteAll (tailOf p))
            (mid cap o room sent k) := by
        unfold writeAllLines
        rw [if_pos hp]
        dsimp only
        rw [hlen]
        show (if k.isEmpty then _ else _ : EStateM Fail LineWriter Unit) _ = _
        cases k with
        | nil => rfl
        | cons a k => exact (ES.bind_assoc_apply (bufWriteAll l) (fun _ => flushBuf) _ _).symm
      rw [e]
      exact this o room sent hs
  · obtain ⟨d, k', h1, h2, h0, h3⟩ := does_buf cap k p hk
    have hp' : 10 ∉ p := fun h => hp (List.contains_iff_mem.2 h)
    have hn' : 10 ∉ k' := by
      intro h
      have hm : 10 ∈ k ++ p := by rw [← h1]; exact List.mem_append_right _ h
      rcases List.mem_append.1 hm with hm | hm
      · exact hn hm
      · exact hp (List.contains_iff_mem.2 hm)
    have ht : tailOf (k ++ p) = k ++ p := by rw [tailOf_append' _ _ hp', tailOf_of_not_mem hn]
    refine ⟨d, k', h1, h2, hn', fun h => by rw [ht] at h ⊢; rw [← h1, h0 h, List.nil_append], fun o room sent hs => ?_⟩
    have hlast : k.getLast? ≠ some 10 := fun h => hn (List.mem_of_getLast? h)
    have e : writeAllLines p (mid cap o room sent k) = bufWriteAll p (mid cap o room sent k) := by
      unfold writeAllLines
      rw [if_neg hp]
      show ((if k.getLast? = some 10 then flushBuf else Pure.pure ()) >>= fun _ => bufWriteAll p) _ = _
      rw [if_neg hlast]
      rfl
    rw [e]
    exact h3 o room sent hs

/-- A sequence of `write_all`. -/
theorem does_each (cap : Nat) (ps : List (List UInt8)) (k : List UInt8) (hk : k.length ≤ cap) (hn : 10 ∉ k) :
    ∃ d k', d ++ k' = k ++ ps.flatten ∧ k'.length ≤ cap ∧ 10 ∉ k' ∧
      ((tailOf (k ++ ps.flatten)).length < cap → k' = tailOf (k ++ ps.flatten)) ∧
      Does cap (writer.writeEach ps) k d k' := by
  induction ps generalizing k with
  | nil => exact ⟨[], k, by simp, hk, hn, fun _ => by simp [tailOf_of_not_mem hn], Does.pure cap k⟩
  | cons p ps ih =>
    obtain ⟨d, k', h1, h2, h3, h0, h4⟩ := does_write cap k p hk hn
    obtain ⟨d', k'', g1, g2, g3, g0, g4⟩ := ih k' h2 h3
    refine ⟨d ++ d', k'', ?_, g2, g3, fun h => ?_, h4.bind g4⟩
    · rw [List.append_assoc, g1, ← List.append_assoc, h1, List.flatten_cons, List.append_assoc]
    · rw [List.flatten_cons, ← List.append_assoc] at h ⊢
      by_cases hm : 10 ∈ ps.flatten
      · rw [tailOf_append _ _ hm] at h ⊢ g0
        exact g0 h
      · rw [tailOf_append' _ _ hm] at h ⊢ g0
        have hk' := h0 (by rw [List.length_append] at h; omega)
        rw [tailOf_of_not_mem h3, hk'] at g0
        exact g0 h

theorem taken_fits {room : Option Nat} {x : List UInt8} (h : Fits room x.length) : taken room x = x := by
  cases room with
  | none => rfl
  | some r => exact List.take_of_length_le (h r rfl)

theorem Full.out {o : List UInt8} {room : Option Nat} {x : List UInt8} {w : LineWriter} (h : Full o room x w)
    (y : List UInt8) : w.inner = ⟨o ++ taken room (x ++ y), some 0⟩ := by
  obtain ⟨r, h1, h2, h3⟩ := h.mono y
  rw [h1]
  exact h3

theorem Full.atExit {o : List UInt8} {room : Option Nat} {x : List UInt8} {w : LineWriter} (h : Full o room x w)
    (y : List UInt8) : w.atExit.out = o ++ taken room (x ++ y) := by
  have h := h.out y
  obtain ⟨buf, cap, inner⟩ := w
  cases h
  unfold LineWriter.atExit flushBuf writeAll
  dsimp only
  cases buf with
  | nil => simp
  | cons a buf => simp

theorem mid_atExit {cap : Nat} {o : List UInt8} {room : Option Nat} {sent kept : List UInt8}
    (hs : Fits room sent.length) : (mid cap o room sent kept).atExit.out = o ++ taken room (sent ++ kept) := by
  obtain ⟨h1, h2⟩ := does_flush cap kept o room sent hs
  by_cases h : Fits room (sent ++ kept).length
  · unfold LineWriter.atExit
    rw [h1 h, taken_fits h]
    rfl
  · obtain ⟨w, h3, h4⟩ := h2 h
    unfold LineWriter.atExit
    rw [h3]
    dsimp only
    have := h4.out []
    rw [List.append_nil] at this
    rw [this]

end LineWriter

/-! ### Programs that only write -/

/-- The program writes the pieces `ps` one after the other, and then ends with `r`. -/
def Writes {α : Type} (f : ∀ ω : Type, Writer ω → EStateM Fail ω α) (ps : List (List UInt8)) (r : Except Fail α) :
    Prop :=
  ∀ (ω : Type) (W : Writer ω) (w : ω), f ω W w = (W.writeEach ps >>= fun _ => liftE r) w

theorem writeEach_append {ω : Type} (W : Writer ω) (ps qs : List (List UInt8)) (w : ω) :
    W.writeEach (ps ++ qs) w = (W.writeEach ps >>= fun _ => W.writeEach qs) w := by
  induction ps generalizing w with
  | nil => rfl
  | cons p ps ih =>
    show (W.writeAll p >>= fun _ => W.writeEach (ps ++ qs)) w = ((W.writeAll p >>= fun _ => W.writeEach ps) >>= _) w
    rw [ES.bind_assoc_apply]
    cases hx : W.writeAll p w with
    | error e w' => rw [ES.bind_err hx, ES.bind_err hx]
    | ok u w' => rw [ES.bind_ok hx, ES.bind_ok hx]; exact ih w'

namespace Writes

theorem bind_ok {α β : Type} {f : ∀ ω : Type, Writer ω → EStateM Fail ω α}
    {g : α → ∀ ω : Type, Writer ω → EStateM Fail ω β} {ps qs : List (List UInt8)} {a : α} {r : Except Fail β}
    (hf : Writes f ps (.ok a)) (hg : Writes (g a) qs r) :
    Writes (fun ω W => f ω W >>= fun a => g a ω W) (ps ++ qs) r := by
  intro ω W w
  have h := hf ω W w
  show (f ω W >>= fun a => g a ω W) w = _
  cases hx : W.writeEach ps w with
  | error e w' =>
    rw [ES.bind_err hx] at h
    rw [ES.bind_err h, ES.bind_err]
    rw [writeEach_append, ES.bind_err hx]
  | ok u w' =>
    rw [ES.bind_ok hx] at h
    rw [ES.bind_ok h, hg ω W w']
    cases hy : W.writeEach qs w' with
    | error e w'' =>
      rw [ES.bind_err hy, ES.bind_err]
      rw [writeEach_append, ES.bind_ok hx, hy]
    | ok u w'' =>
      rw [ES.bind_ok hy, ES.bind_ok]
      rw [writeEach_append, ES.bind_ok hx, hy]

theorem bind_error {α β : Type} {f : ∀ ω : Type, Writer ω → EStateM Fail ω α}
    {g : α → ∀ ω : Type, Writer ω → EStateM Fail ω β} {ps : List (List UInt8)} {e : Fail}
    (hf : Writes f ps (.error e)) : Writes (fun ω W => f ω W >>= fun a => g a ω W) ps (.error e) := by
  intro ω W w
  have h := hf ω W w
  show (f ω W >>= fun a => g a ω W) w = _
  cases hx : W.writeEach ps w with
  | error e w' =>
    rw [ES.bind_err hx] at h
    rw [ES.bind_err h, ES.bind_err hx]
  | ok u w' =>
    rw [ES.bind_ok hx] at h
    rw [ES.bind_err h, ES.bind_ok hx]
    rfl

theorem bind {α β : Type} {f : ∀ ω : Type, Writer ω → EStateM Fail ω α}
    {g : α → ∀ ω : Type, Writer ω → EStateM Fail ω β} (hf : ∃ ps r, Writes f ps r)
    (hg : ∀ a, ∃ ps r, Writes (g a) ps r) :
    ∃ ps r, Writes (fun ω W => f ω W >>= fun a => g a ω W) ps r := by
  obtain ⟨ps, r, hf⟩ := hf
  cases r with
  | error e => exact ⟨ps, .error e, bind_error hf⟩
  | ok a =>
    obtain ⟨qs, r, hg⟩ := hg a
    exact ⟨ps ++ qs, r, bind_ok hf hg⟩

theorem liftE {α : Type} (x : Except Fail α) : ∃ ps r, Writes (fun _ _ => Rezip.liftE x) ps r :=
  ⟨[], x, fun _ _ _ => rfl⟩

theorem pure {α : Type} (a : α) : ∃ ps r, Writes (fun _ _ => Pure.pure a) ps r := ⟨[], .ok a, fun _ _ _ => rfl⟩

theorem writeAll (p : List UInt8) : ∃ ps r, Writes (fun _ W => W.writeAll p) ps r := by
  refine ⟨[p], .ok (), fun ω W w => ?_⟩
  show W.writeAll p w = ((W.writeAll p >>= fun _ => Pure.pure ()) >>= fun _ => Rezip.liftE (.ok ())) w
  cases hx : W.writeAll p w with
  | error e w' => rw [ES.bind_assoc_apply, ES.bind_err hx]
  | ok u w' => rw [ES.bind_assoc_apply, ES.bind_ok hx]; rfl

end Writes

/-- What remains of standard output after a program that only writes: what it has sent before the end, `d`, what it
holds back, `k`, and what happens for any room. -/
theorem stdout_writes {f : ∀ ω : Type, Writer ω → EStateM Fail ω Unit} {ps : List (List UInt8)} {r : Except Fail Unit}
    (hf : Writes f ps r) :
    ∃ d k, d ++ k = ps.flatten ∧ k.length ≤ 1024 ∧ 10 ∉ k ∧
      ((LineWriter.tailOf ps.flatten).length < 1024 → k = LineWriter.tailOf ps.flatten) ∧ ∀ o room,
      (Fits room d.length → (Stdout.finish (f _ LineWriter.writer (.new ⟨o, room⟩))).1 = r) ∧
      (¬ Fits room d.length → (Stdout.finish (f _ LineWriter.writer (.new ⟨o, room⟩))).1 = .error (.err .sink)) ∧
      (Stdout.finish (f _ LineWriter.writer (.new ⟨o, room⟩))).2.out = o ++ taken room ps.flatten := by
  obtain ⟨d, k, h1, h2, h3, h0, h4⟩ := LineWriter.does_each 1024 ps [] (Nat.zero_le _) (by simp)
  rw [List.nil_append] at h1 h0
  refine ⟨d, k, h1, h2, h3, h0, fun o room => ?_⟩
  have hnew : LineWriter.new ⟨o, room⟩ = LineWriter.mid 1024 o room [] [] := by
    unfold LineWriter.new LineWriter.mid LineWriter.fd
    cases room <;> simp
  obtain ⟨h5, h6⟩ := h4 o room [] (fun _ _ => Nat.zero_le _)
  rw [List.nil_append] at h5 h6
  rw [hf _ LineWriter.writer, hnew]
  by_cases hd : Fits room d.length
  · rw [ES.bind_ok (h5 hd)]
    have he := LineWriter.mid_atExit (cap := 1024) (o := o) (kept := k) hd
    rw [h1] at he
    cases r with
    | ok a => exact ⟨fun _ => rfl, fun h => absurd hd h, he⟩
    | error e => exact ⟨fun _ => rfl, fun h => absurd hd h, he⟩
  · obtain ⟨w, h7, h8⟩ := h6 hd
    rw [ES.bind_err h7]
    have he := h8.atExit k
    rw [h1] at he
    exact ⟨fun h => absurd h hd, fun _ => rfl, he⟩

/-! ### zero -/

theorem writes_zeroLoop (take : EStateM Fail Zero.Source (List UInt8)) (fuel : Nat) (src : Zero.Source) (len : Nat)
    (all : List UInt8) : ∃ ps r, Writes (fun _ W => Zero.loopOn W take fuel src len all) ps r := by
  induction fuel generalizing src len all with
  | zero => exact Writes.liftE _
  | succ fuel ih =>
    simp only [Zero.loopOn]
    cases take src with
    | error e s => exact Writes.liftE _
    | ok buf src' =>
      dsimp only
      split
      · exact Writes.pure _
      · exact Writes.bind (f := fun _ W => Zero.writeChunkOn W src'.isEmpty buf)
          (Writes.bind (Writes.writeAll _) fun _ => Writes.bind (Writes.writeAll _) fun _ =>
            Writes.bind (Writes.writeAll _) fun _ => Writes.writeAll _) fun _ => ih _ _ _

theorem writes_zero (crc : List UInt8 → Nat) (inflate : List UInt8 → Zero.Source) (input : List UInt8) :
    ∃ ps r, Writes (fun _ W => Zero.toolOn W crc inflate input) ps r := by
  unfold Zero.toolOn
  cases Gzip.discardHeader input with
  | error e s => exact Writes.liftE _
  | ok header rest =>
    exact Writes.bind (Writes.liftE _) fun _ => Writes.bind (Writes.writeAll _) fun _ =>
      Writes.bind (writes_zeroLoop _ _ _ _ _) fun p => Writes.bind (Writes.writeAll _) fun _ => Writes.writeAll _

/-! ### cat -/

/-- The result and the dictionary, and the writer. -/
def strip {ω α : Type} : EStateM.Result Fail (DecStateOn ω) α → Except Fail (α × CircularBuffer) × ω
  | .ok a s => (.ok (a, s.dict), s.into)
  | .error e s => (.error e, s.into)

/-- After the pieces `ps` have been written, `r`. -/
def after {ω β : Type} (W : Writer ω) (ps : List (List UInt8)) (r : Except Fail β) (w : ω) : Except Fail β × ω :=
  match W.writeEach ps w with
  | .ok _ w => (r, w)
  | .error e w => (.error e, w)

theorem after_append {ω β : Type} (W : Writer ω) (ps qs : List (List UInt8)) (r : Except Fail β) (w : ω) :
    after W (ps ++ qs) r w = match W.writeEach ps w with
      | .ok _ w => after W qs r w
      | .error e w => (.error e, w) := by
  unfold after
  rw [writeEach_append]
  cases hx : W.writeEach ps w with
  | ok u w' => rw [ES.bind_ok hx]
  | error e w' => rw [ES.bind_err hx]

/-- From this dictionary, the program writes some pieces and then ends in some way, whatever the writer. -/
def EmitsAt {α : Type} (f : ∀ ω : Type, Writer ω → EStateM Fail (DecStateOn ω) α) (dict : CircularBuffer) : Prop :=
  ∃ ps r, ∀ (ω : Type) (W : Writer ω) (w : ω), strip (f ω W ⟨dict, w⟩) = after W ps r w

namespace EmitsAt

theorem bind {α β : Type} {f : ∀ ω : Type, Writer ω → EStateM Fail (DecStateOn ω) α}
    {g : α → ∀ ω : Type, Writer ω → EStateM Fail (DecStateOn ω) β} {dict : CircularBuffer} (hf : EmitsAt f dict)
    (hg : ∀ a d, EmitsAt (g a) d) : EmitsAt (fun ω W => f ω W >>= fun a => g a ω W) dict := by
  obtain ⟨ps, r, hf⟩ := hf
  cases r with
  | error e =>
    refine ⟨ps, .error e, fun ω W w => ?_⟩
    have h := hf ω W w
    show strip ((f ω W >>= fun a => g a ω W) ⟨dict, w⟩) = _
    unfold after at h ⊢
    cases hx : f ω W ⟨dict, w⟩ with
    | ok a s =>
      rw [hx] at h
      cases hw : W.writeEach ps w <;> (rw [hw] at h; cases h)
    | error e' s =>
      rw [ES.bind_err hx]
      rw [hx] at h
      cases hw : W.writeEach ps w with
      | ok u w' => rw [hw] at h; cases h; rfl
      | error e' w' => rw [hw] at h; cases h; rfl
  | ok p =>
    obtain ⟨a, d⟩ := p
    obtain ⟨qs, r, hg⟩ := hg a d
    refine ⟨ps ++ qs, r, fun ω W w => ?_⟩
    have h := hf ω W w
    show strip ((f ω W >>= fun a => g a ω W) ⟨dict, w⟩) = _
    rw [after_append]
    unfold after at h
    cases hx : f ω W ⟨dict, w⟩ with
    | ok a' s =>
      rw [ES.bind_ok hx]
      rw [hx] at h
      cases hw : W.writeEach ps w with
      | ok u w' =>
        rw [hw] at h
        obtain ⟨d', i'⟩ := s
        cases h
        exact hg ω W _
      | error e' w' => rw [hw] at h; cases h
    | error e' s =>
      rw [ES.bind_err hx]
      rw [hx] at h
      cases hw : W.writeEach ps w with
      | ok u w' => rw [hw] at h; cases h
      | error e' w' => rw [hw] at h; cases h; rfl

theorem pure {α : Type} (a : α) (dict : CircularBuffer) : EmitsAt (fun _ _ => Pure.pure a) dict :=
  ⟨[], .ok (a, dict), fun _ _ _ => rfl⟩

theorem liftE {α : Type} (x : Except Fail α) (dict : CircularBuffer) : EmitsAt (fun _ _ => Rezip.liftE x) dict := by
  cases x with
  | ok a => exact pure a dict
  | error e => exact ⟨[], .error e, fun _ _ _ => rfl⟩

theorem get {β : Type} {g : CircularBuffer → ∀ ω : Type, Writer ω → EStateM Fail (DecStateOn ω) β}
    {dict : CircularBuffer} (h : EmitsAt (g dict) dict) :
    EmitsAt (fun ω W => MonadState.get >>= fun s : DecStateOn ω => g s.dict ω W) dict := h

theorem push (b : UInt8) (dict : CircularBuffer) : EmitsAt (fun _ _ => DecStateOn.push b) dict := by
  cases hx : dict.push b with
  | ok d => exact ⟨[], .ok ((), d), fun ω W w => by unfold DecStateOn.push; dsimp only; rw [hx]; rfl⟩
  | error e => exact ⟨[], .error e, fun ω W w => by unfold DecStateOn.push; dsimp only; rw [hx]; rfl⟩

theorem extend (xs : List UInt8) (dict : CircularBuffer) : EmitsAt (fun _ _ => DecStateOn.extend xs) dict := by
  cases hx : dict.extend xs with
  | ok d => exact ⟨[], .ok ((), d), fun ω W w => by unfold DecStateOn.extend; dsimp only; rw [hx]; rfl⟩
  | error e => exact ⟨[], .error e, fun ω W w => by unfold DecStateOn.extend; dsimp only; rw [hx]; rfl⟩

theorem write (p : List UInt8) (dict : CircularBuffer) : EmitsAt (fun _ W => DecStateOn.write W p) dict := by
  refine ⟨[p], .ok ((), dict), fun ω W w => ?_⟩
  unfold DecStateOn.write after
  dsimp only
  have : W.writeEach [p] w = W.writeAll p w := by
    show (W.writeAll p >>= fun _ => Pure.pure ()) w = _
    cases hx : W.writeAll p w with
    | error e w' => rw [ES.bind_err hx]
    | ok u w' => rw [ES.bind_ok hx]; rfl
  rw [this]
  cases W.writeAll p w <;> rfl

theorem copyLoop (n i : Nat) (dict : CircularBuffer) : EmitsAt (fun _ W => DecStateOn.copyLoop W n i) dict := by
  induction n generalizing i dict with
  | zero => exact pure _ _
  | succ n ih =>
    refine get (g := fun d ω W => Rezip.liftE (index d.data i) >>= fun b =>
      DecStateOn.write W [b] >>= fun _ => DecStateOn.push b >>= fun _ => DecStateOn.copyLoop W n ((i + 1) % d.data.length)) ?_
    exact bind (liftE _ _) fun b d => bind (write _ _) fun _ _ => bind (push _ _) fun _ _ => ih _ _

theorem code (c : Code) (dict : CircularBuffer) : EmitsAt (fun _ W => Serialise.decompressedCodeOn W c) dict := by
  cases c with
  | literal b => exact bind (push _ _) fun _ _ => write _ _
  | reference r =>
    refine get (g := fun d ω W => Rezip.liftE (ensure (r.dist.toNat > 0 && r.dist.toNat ≤ d.validCap) .distMustFit) >>=
      fun _ => DecStateOn.copyLoop W r.run (CircularBuffer.wrappingAdd
        (CircularBuffer.wrappingSub d.idx r.dist.toNat) d.data.length % d.data.length)) ?_
    exact bind (liftE _ _) fun _ _ => copyLoop _ _ _

theorem codes (cs : List Code) (dict : CircularBuffer) : EmitsAt (fun _ W => Serialise.decompressedCodesOn W cs) dict := by
  induction cs generalizing dict with
  | nil => exact pure _ _
  | cons c cs ih => exact bind (code _ _) fun _ _ => ih _

theorem block (b : Block) (dict : CircularBuffer) : EmitsAt (fun _ W => Serialise.decompressedBlockOn W b) dict := by
  cases b with
  | uncompressed data => exact bind (extend _ _) fun _ _ => write _ _
  | fixedHuffman cs => exact codes _ _
  | dynamicHuffman _ cs => exact codes _ _

end EmitsAt

theorem emits_catLoop {ρ : Type} (R : Reader ρ) (fuel : Nat) (it : Parse.BlockIterOn ρ) (dict : CircularBuffer) :
    ∃ ps r, ∀ (ω : Type) (W : Writer ω) (w : ω),
      ((Cat.loopIO R W fuel it ⟨dict, w⟩).1, (Cat.loopIO R W fuel it ⟨dict, w⟩).2.into) = after W ps r w := by
  induction fuel generalizing it dict with
  | zero => exact ⟨[], .error .diverge, fun _ _ _ => rfl⟩
  | succ fuel ih =>
    simp only [Cat.loopIO]
    cases hn : it.next R with
    | mk o it1 =>
      match o with
      | none => exact ⟨[], .ok (), fun _ _ _ => rfl⟩
      | some (.error e) => exact ⟨[], .error e, fun _ _ _ => rfl⟩
      | some (.ok b) =>
        dsimp only
        obtain ⟨ps, r, h⟩ := EmitsAt.block b dict
        cases r with
        | error e =>
          refine ⟨ps, .error e, fun ω W w => ?_⟩
          have h := h ω W w
          dsimp only at h
          unfold after at h ⊢
          cases hx : Serialise.decompressedBlockOn W b ⟨dict, w⟩ with
          | ok a s =>
            rw [hx] at h
            cases hw : W.writeEach ps w <;> (rw [hw] at h; cases h)
          | error e' s =>
            rw [hx] at h
            cases hw : W.writeEach ps w with
            | ok u w' => rw [hw] at h; cases h; rfl
            | error e' w' => rw [hw] at h; cases h; rfl
        | ok p =>
          obtain ⟨⟨⟩, d⟩ := p
          obtain ⟨qs, r, hg⟩ := ih it1 d
          refine ⟨ps ++ qs, r, fun ω W w => ?_⟩
          have h := h ω W w
          dsimp only at h
          rw [after_append]
          unfold after at h
          cases hx : Serialise.decompressedBlockOn W b ⟨dict, w⟩ with
          | ok a' s =>
            rw [hx] at h
            cases hw : W.writeEach ps w with
            | ok u w' =>
              rw [hw] at h
              obtain ⟨d', i'⟩ := s
              cases h
              exact hg ω W _
            | error e' w' => rw [hw] at h; cases h
          | error e' s =>
            rw [hx] at h
            cases hw : W.writeEach ps w with
            | ok u w' => rw [hw] at h; cases h
            | error e' w' => rw [hw] at h; cases h; rfl

theorem emits_cat {ρ : Type} (R : Reader ρ) (input : ρ) :
    ∃ ps r, ∀ (ω : Type) (W : Writer ω) (w : ω), Cat.runIO R W input w = after W ps r w := by
  unfold Cat.runIO
  cases Gzip.discardHeaderOn R input with
  | error e s => exact ⟨[], .error e, fun _ _ _ => rfl⟩
  | ok _ rest =>
    cases CircularBuffer.new with
    | error e => exact ⟨[], .error e, fun _ _ _ => rfl⟩
    | ok dict =>
      obtain ⟨ps, r, h⟩ := emits_catLoop R (8 * R.size rest + 2) (Parse.parseDeflateOn rest) dict
      exact ⟨ps, r, fun ω W w => h ω W w⟩

/-- The same, as a program. -/
theorem writes_cat {ρ : Type} (R : Reader ρ) (input : ρ) :
    ∃ ps r, Writes (fun _ W w => match Cat.runIO R W input w with
      | (.ok u, w) => .ok u w
      | (.error e, w) => .error e w) ps r := by
  obtain ⟨ps, r, h⟩ := emits_cat R input
  refine ⟨ps, r, fun ω W w => ?_⟩
  dsimp only
  rw [h]
  unfold after
  cases hx : W.writeEach ps w with
  | ok u w' => rw [ES.bind_ok hx]; cases r <;> rfl
  | error e w' => rw [ES.bind_err hx]

end Rezip
