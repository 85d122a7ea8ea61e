import Verif.Lemmas.Stable
import Verif.Lemmas.HeaderErrors
import Verif.Props.Cat
import Verif.Props.Dump

/-!
# C117: errors tell a cut input from an invalid one
-/

namespace Rezip

open Spec Parse Serialise

/-! ### The header -/

/-- C117. Each error of reading a gzip header says what is the case: the end was reached exactly if there are less
than ten bytes or if what is there is the beginning of a header; another error is given exactly if there are ten
bytes of which the first two, the third or the fourth are not those of a header. -/
theorem C117_header (input : List UInt8) :
    ((∃ s, Gzip.discardHeader input = .error (.err .eof) s) ↔
      input.length < 10 ∨ ∃ (hd : GzHeader) (more : List UInt8), hd.Valid ∧ more ≠ [] ∧ input ++ more = hd.bytes) ∧
    ((∃ s, Gzip.discardHeader input = .error (.err .gzipMagic) s) ↔
      10 ≤ input.length ∧ ¬ [0x1f, 0x8b] <+: input) ∧
    ((∃ s, Gzip.discardHeader input = .error (.err .gzipMethod) s) ↔
      10 ≤ input.length ∧ [0x1f, 0x8b] <+: input ∧ ¬ [0x1f, 0x8b, 8] <+: input) ∧
    ((∃ s, Gzip.discardHeader input = .error (.err .gzipFlags) s) ↔
      10 ≤ input.length ∧ [0x1f, 0x8b, 8] <+: input ∧ ∃ f, input[3]? = some f ∧ 32 ≤ f.toNat) ∧
    (∀ e s, Gzip.discardHeader input = .error e s →
      e = .err .eof ∨ e = .err .gzipMagic ∨ e = .err .gzipMethod ∨ e = .err .gzipFlags) := by
  by_cases hl : input.length < 10
  · obtain ⟨t, ht⟩ := Gzip.discardHeader_short hl
    rw [ht]
    refine ⟨⟨fun _ => .inl hl, fun _ => ⟨t, rfl⟩⟩, ⟨?_, fun h => absurd h.1 (by omega)⟩,
      ⟨?_, fun h => absurd h.1 (by omega)⟩, ⟨?_, fun h => absurd h.1 (by omega)⟩, ?_⟩
    · rintro ⟨s, h⟩; cases h
    · rintro ⟨s, h⟩; cases h
    · rintro ⟨s, h⟩; cases h
    · intro e s h; cases h; exact .inl rfl
  · have hl' : 10 ≤ input.length := by omega
    obtain ⟨b0, b1, b2, fl, m0, m1, m2, m3, x, os, t, hi⟩ := Gzip.ten_of_length hl'
    have hten := Gzip.discardHeader_ten b0 b1 b2 fl m0 m1 m2 m3 x os
    have p2 : [0x1f, 0x8b] <+: input ↔ b0 = 0x1f ∧ b1 = 0x8b := by
      rw [hi]
      simp only [List.cons_append, List.cons_prefix_cons, List.nil_prefix, and_true]
      exact ⟨fun h => ⟨h.1.symm, h.2.symm⟩, fun h => ⟨h.1.symm, h.2.symm⟩⟩
    have p3 : [0x1f, 0x8b, 8] <+: input ↔ (b0 = 0x1f ∧ b1 = 0x8b) ∧ b2 = 8 := by
      rw [hi]
      simp only [List.cons_append, List.cons_prefix_cons, List.nil_prefix, and_true]
      exact ⟨fun h => ⟨⟨h.1.symm, h.2.1.symm⟩, h.2.2.symm⟩, fun h => ⟨h.1.1.symm, h.1.2.symm, h.2.symm⟩⟩
    have p4 : (∃ f, input[3]? = some f ∧ 32 ≤ f.toNat) ↔ 32 ≤ fl.toNat := by
      rw [hi]
      exact ⟨fun ⟨f, h1, h2⟩ => by cases h1; exact h2, fun h => ⟨fl, rfl, h⟩⟩
    -- a header is not the continuation of anything refused for its first bytes
    have pre : ∀ more (hd : GzHeader), hd.Valid → input ++ more = hd.bytes →
        (b0 = 0x1f ∧ b1 = 0x8b) ∧ b2 = 8 ∧ ¬ 32 ≤ fl.toNat := by
      intro more hd hv he
      have ha := C57_accepted hd hv []
      rw [List.append_nil, ← he, hi, List.append_assoc, hten] at ha
      split at ha
      · cases ha
      · next c1 =>
        split at ha
        · cases ha
        · next c2 =>
          split at ha
          · cases ha
          · next c3 => exact ⟨Decidable.of_not_not c1, Decidable.of_not_not c2, c3⟩
    rw [p2, p3, p4]
    have hd0 := hten t
    rw [← hi] at hd0
    by_cases c1 : b0 = 0x1f ∧ b1 = 0x8b
    · rw [if_neg (fun h => h c1)] at hd0
      by_cases c2 : b2 = 8
      · rw [if_neg (fun h => h c2)] at hd0
        by_cases c3 : 32 ≤ fl.toNat
        · rw [if_pos c3] at hd0
          rw [hd0]
          refine ⟨⟨?_, ?_⟩, ⟨?_, fun h => absurd c1 h.2⟩, ⟨?_, fun h => absurd ⟨c1, c2⟩ h.2.2⟩,
            ⟨fun _ => ⟨hl', ⟨c1, c2⟩, c3⟩, fun _ => ⟨t, rfl⟩⟩, ?_⟩
          · rintro ⟨s, h⟩; cases h
          · rintro (h | ⟨hd, more, hv, _, he⟩)
            · exact absurd h hl
            · exact absurd c3 (pre more hd hv he).2.2
          · rintro ⟨s, h⟩; cases h
          · rintro ⟨s, h⟩; cases h
          · intro e s h; cases h; exact .inr (.inr (.inr rfl))
        · rw [if_neg c3] at hd0
          have hf := Gzip.fed_fields fl [b0, b1, b2, fl, m0, m1, m2, m3, x, os]
          have only : ∀ e s, Gzip.discardHeader input = .error e s → e = .err .eof := by
            intro e s h
            rw [hd0] at h
            exact hf.1 _ _ _ h
          refine ⟨⟨?_, ?_⟩, ⟨?_, fun h => absurd c1 h.2⟩, ⟨?_, fun h => absurd ⟨c1, c2⟩ h.2.2⟩,
            ⟨?_, fun h => absurd h.2.2 c3⟩, fun e s h => .inl (only e s h)⟩
          · rintro ⟨s, he⟩
            obtain ⟨out, u, k, h1, _⟩ := hf.2 t 65541 (Nat.le_refl _)
            have h2 : Gzip.discardHeader (input ++ List.replicate 65541 0) = .ok out (u ++ List.replicate k 0) := by
              rw [hi, List.append_assoc, hten, if_neg (fun h => h c1), if_neg (fun h => h c2), if_neg c3, h1]
            obtain ⟨h3, hd, hv, hb⟩ := C56_header _ _ _ h2
            generalize List.replicate 65541 (0 : UInt8) = z at h3
            generalize u ++ List.replicate k 0 = y at h3
            rcases List.append_eq_append_iff.1 h3 with ⟨w, h4, h5⟩ | ⟨w, h4, h5⟩
            · by_cases hw : w = []
              · rw [hw, List.append_nil] at h4
                have ha := C57_accepted hd hv []
                rw [List.append_nil, hb, h4, he] at ha
                cases ha
              · exact .inr ⟨hd, w, hv, hw, by rw [hb, h4]⟩
            · have ha := C57_accepted hd hv w
              rw [hb, ← h4, he] at ha
              cases ha
          · rintro (h | ⟨hd, more, hv, hm, he⟩)
            · exact absurd h hl
            · cases hr : Gzip.discardHeader input with
              | error e s => exact ⟨s, by rw [only e s hr]⟩
              | ok out rest =>
                obtain ⟨h1, hd', hv', hb⟩ := C56_header _ _ _ hr
                have ha := C57_accepted hd hv []
                have hb' := C57_accepted hd' hv' (rest ++ more)
                rw [List.append_nil, ← he, h1, List.append_assoc] at ha
                rw [hb, ha] at hb'
                injection hb' with _ h2
                exact absurd (List.append_eq_nil_iff.1 h2.symm).2 hm
          · rintro ⟨s, h⟩; cases only _ _ h
          · rintro ⟨s, h⟩; cases only _ _ h
          · rintro ⟨s, h⟩; cases only _ _ h
      · rw [if_pos c2] at hd0
        rw [hd0]
        refine ⟨⟨?_, ?_⟩, ⟨?_, fun h => absurd c1 h.2⟩, ⟨fun _ => ⟨hl', c1, fun h => c2 h.2⟩, fun _ => ⟨t, rfl⟩⟩,
          ⟨?_, fun h => absurd h.2.1.2 c2⟩, ?_⟩
        · rintro ⟨s, h⟩; cases h
        · rintro (h | ⟨hd, more, hv, _, he⟩)
          · exact absurd h hl
          · exact absurd (pre more hd hv he).2.1 c2
        · rintro ⟨s, h⟩; cases h
        · rintro ⟨s, h⟩; cases h
        · intro e s h; cases h; exact .inr (.inr (.inl rfl))
    · rw [if_pos c1] at hd0
      rw [hd0]
      refine ⟨⟨?_, ?_⟩, ⟨fun _ => ⟨hl', c1⟩, fun _ => ⟨t, rfl⟩⟩, ⟨?_, fun h => absurd h.2.1 c1⟩,
        ⟨?_, fun h => absurd h.2.1.1 c1⟩, ?_⟩
      · rintro ⟨s, h⟩; cases h
      · rintro (h | ⟨hd, more, hv, _, he⟩)
        · exact absurd h hl
        · exact absurd (pre more hd hv he).1 c1
      · rintro ⟨s, h⟩; cases h
      · rintro ⟨s, h⟩; cases h
      · intro e s h; cases h; exact .inr (.inl rfl)

/-- A name without its end, other bytes, a zlib stream made longer, and reserved flags. -/
example :
    Gzip.discardHeader [0x1f, 0x8b, 8, 8, 0, 0, 0, 0, 0, 3, 97] = .error (.err .eof) [] ∧
    Gzip.discardHeader [0x78, 0x9c, 8, 8, 0, 0, 0, 0, 0, 3, 97] = .error (.err .gzipMagic) [97] ∧
    Gzip.discardHeader [0x1f, 0x8b, 7, 8, 0, 0, 0, 0, 0, 3, 97] = .error (.err .gzipMethod) [97] ∧
    Gzip.discardHeader [0x1f, 0x8b, 8, 40, 0, 0, 0, 0, 0, 3, 97] = .error (.err .gzipFlags) [97] := by decide +kernel

/-! ### The blocks -/

namespace Parse

theorem next_not_diverge (bytes : List UInt8) (n : Nat) : item n (parseDeflate bytes) ≠ some (.error .diverge) := by
  intro h
  rcases C17_total bytes n with h' | ⟨b, h'⟩ | ⟨e, h'⟩ <;> · rw [h] at h'; cases h'

theorem after_succ (n : Nat) (it : BlockIter) : after (n + 1) it = (after n it).next.2 := by
  induction n generalizing it with
  | zero => rfl
  | succ n ih => exact ih it.next.2

theorem after_ext (bytes more : List UInt8) (n : Nat)
    (h : ∀ k < n, item k (parseDeflate bytes) ≠ some (.error (.err .eof))) :
    after n (parseDeflate (bytes ++ more)) = (after n (parseDeflate bytes)).ext more := by
  induction n with
  | zero => rfl
  | succ n ih =>
    rw [after_succ, after_succ, ih fun k hk => h k (by omega),
      next_ext _ _ (h n (by omega)) (next_not_diverge bytes n)]

theorem collectLoop_fuel_ext (f k : Nat) (more : List UInt8) (it : BlockIter) (acc : List Block)
    (h1 : (collectLoop f it acc).1 ≠ .error (.err .eof)) (h2 : (collectLoop f it acc).1 ≠ .error .diverge) :
    collectLoop (f + k) (it.ext more) acc =
      ((collectLoop f it acc).1, (collectLoop f it acc).2.1, (collectLoop f it acc).2.2.ext more) := by
  induction f generalizing it acc with
  | zero => exact absurd rfl h2
  | succ f ih =>
    have e : f + 1 + k = (f + k) + 1 := by omega
    rw [e]
    rw [collectLoop] at h1 h2
    rw [collectLoop, collectLoop]
    have hn := next_ext it more
    cases hx : it.next with
    | mk x it' =>
      rw [hx] at h1 h2 hn
      cases x with
      | none =>
        rw [hn (by simp) (by simp)]
      | some x =>
        cases x with
        | error e =>
          dsimp only at h1 h2
          rw [hn (fun h => h1 (by cases h; rfl)) (fun h => h2 (by cases h; rfl))]
        | ok b =>
          dsimp only at h1 h2
          rw [hn (by simp) (by simp)]
          exact ih it' _ h1 h2

end Parse

/-- C117. What the block iterator gives before it meets the end of its input does not change when more bytes follow:
blocks, the end of the stream, and errors. -/
theorem C117_items (bytes more : List UInt8) (n : Nat)
    (h : ∀ k ≤ n, item k (parseDeflate bytes) ≠ some (.error (.err .eof))) :
    item n (parseDeflate (bytes ++ more)) = item n (parseDeflate bytes) := by
  unfold item
  rw [after_ext bytes more n fun k hk => h k (by omega),
    next_ext _ _ (h n (Nat.le_refl _)) (next_not_diverge bytes n)]

/-- C117. A stream refused for another reason than its end is refused for that reason whatever follows. -/
theorem C117_invalid (bytes more : List UInt8) (e : Fail) (h : parseAll bytes = .error e) (he : e ≠ .err .eof) :
    parseAll (bytes ++ more) = .error e := by
  obtain ⟨x, rfl⟩ := parseAll_error h
  unfold parseAll collect at h ⊢
  have h1 : (collectLoop (8 * bytes.length + 2) (parseDeflate bytes) []).1 = .error (.err x) := by
    cases hc : collectLoop (8 * bytes.length + 2) (parseDeflate bytes) [] with
    | mk r p =>
      rw [hc] at h
      cases r with
      | ok u => cases h
      | error y => cases h; rfl
  have hk := collectLoop_fuel_ext (8 * bytes.length + 2) (8 * more.length) more (parseDeflate bytes) []
    (by rw [h1]; intro h; exact he (by cases h; rfl)) (by rw [h1]; intro h; cases h)
  have e1 : 8 * (bytes ++ more).length + 2 = 8 * bytes.length + 2 + 8 * more.length := by
    rw [List.length_append]; omega
  rw [e1]
  have e2 : parseDeflate (bytes ++ more) = (parseDeflate bytes).ext more := rfl
  rw [e2, hk, h1]

/-- C117. A stream that is cut gives the error for the end of the input, and no other. -/
theorem C117_cut (pre suf : List UInt8) (blocks : List Block)
    (h : parseAll (pre ++ suf) = .ok (blocks, [])) (hs : suf ≠ []) : parseAll pre = .error (.err .eof) := by
  obtain ⟨e, he⟩ := C20_truncation pre suf blocks h hs
  by_cases hx : e = .eof
  · rw [he, hx]
  · have := C117_invalid pre suf _ he (fun h => hx (by cases h; rfl))
    rw [this] at h
    cases h

/-- Cut, and invalid: a reserved kind of block, whatever follows. -/
example : parseAll (exampleStream.take 2) = .error (.err .eof) ∧ parseAll [7] = .error (.err .reservedBlock) ∧
    parseAll [7, 1, 2, 3] = .error (.err .reservedBlock) := by decide +kernel

/-! ### The tools -/

theorem Gzip.discardHeader_more (input more : List UInt8) (h : ∀ s, Gzip.discardHeader input ≠ .error (.err .eof) s) :
    (∃ e s s', Gzip.discardHeader input = .error e s ∧ Gzip.discardHeader (input ++ more) = .error e s') ∨
    ∃ out rest, Gzip.discardHeader input = .ok out rest ∧ Gzip.discardHeader (input ++ more) = .ok out (rest ++ more) := by
  cases hr : Gzip.discardHeader input with
  | ok out rest =>
    obtain ⟨h1, hd, hv, hb⟩ := C56_header _ _ _ hr
    refine .inr ⟨out, rest, rfl, ?_⟩
    rw [h1, List.append_assoc, ← hb]
    exact C57_accepted hd hv _
  | error e s =>
    left
    have hl : 10 ≤ input.length := by
      apply Classical.byContradiction
      intro hl
      obtain ⟨t, ht⟩ := Gzip.discardHeader_short (Nat.lt_of_not_le hl)
      exact h t ht
    obtain ⟨b0, b1, b2, fl, m0, m1, m2, m3, x, os, t, rfl⟩ := Gzip.ten_of_length hl
    have hne : e ≠ .err .eof := fun hh => h s (by rw [hr, hh])
    rw [List.append_assoc, Gzip.discardHeader_ten]
    rw [Gzip.discardHeader_ten] at hr
    split at hr
    · next c1 => cases hr; rw [if_pos c1]; exact ⟨_, _, _, rfl, rfl⟩
    · next c1 =>
      rw [if_neg c1]
      split at hr
      · next c2 => cases hr; rw [if_pos c2]; exact ⟨_, _, _, rfl, rfl⟩
      · next c2 =>
        rw [if_neg c2]
        split at hr
        · next c3 => cases hr; rw [if_pos c3]; exact ⟨_, _, _, rfl, rfl⟩
        · exact absurd ((Gzip.fed_fields _ _).1 _ _ _ hr) hne

theorem Cat.loop_ext (f k : Nat) (more : List UInt8) (it : BlockIter) (s : DecState)
    (h1 : (Cat.loop f it s).1 ≠ .error (.err .eof)) (h2 : (Cat.loop f it s).1 ≠ .error .diverge) :
    (Cat.loop (f + k) (it.ext more) s).1 = (Cat.loop f it s).1 ∧
    (Cat.loop (f + k) (it.ext more) s).2.1 = (Cat.loop f it s).2.1 := by
  induction f generalizing it s with
  | zero => exact absurd rfl h2
  | succ f ih =>
    have e : f + 1 + k = (f + k) + 1 := by omega
    rw [e]
    rw [Cat.loop] at h1 h2
    rw [Cat.loop, Cat.loop]
    have hn := next_ext it more
    cases hx : it.next with
    | mk x it' =>
      rw [hx] at h1 h2 hn
      cases x with
      | none =>
        rw [hn (by simp) (by simp)]
        exact ⟨rfl, rfl⟩
      | some x =>
        cases x with
        | error e =>
          dsimp only at h1 h2
          rw [hn (fun h => h1 (by cases h; rfl)) (fun h => h2 (by cases h; rfl))]
          exact ⟨rfl, rfl⟩
        | ok b =>
          dsimp only at h1 h2
          rw [hn (by simp) (by simp)]
          dsimp only
          cases hd : decompressedBlock b s with
          | error e s' => exact ⟨rfl, rfl⟩
          | ok u s' =>
            rw [hd] at h1 h2
            exact ih it' s' h1 h2

theorem Dump.loop_ext (dbg : UInt8 → List Char) (f k : Nat) (more : List UInt8) (it : BlockIter) (id : Nat)
    (h1 : (Dump.loop dbg f it id).1 ≠ .error (.err .eof)) (h2 : (Dump.loop dbg f it id).1 ≠ .error .diverge) :
    Dump.loop dbg (f + k) (it.ext more) id = Dump.loop dbg f it id := by
  induction f generalizing it id with
  | zero => exact absurd rfl h2
  | succ f ih =>
    have e : f + 1 + k = (f + k) + 1 := by omega
    rw [e]
    rw [Dump.loop] at h1 h2
    rw [Dump.loop, Dump.loop]
    have hn := next_ext it more
    cases hx : it.next with
    | mk x it' =>
      rw [hx] at h1 h2 hn
      cases x with
      | none => rw [hn (by simp) (by simp)]
      | some x =>
        cases x with
        | error e =>
          dsimp only at h1 h2
          rw [hn (fun h => h1 (by cases h; rfl)) (fun h => h2 (by cases h; rfl))]
        | ok b =>
          dsimp only at h1 h2
          rw [hn (by simp) (by simp)]
          dsimp only
          cases hd : Dump.blockLines dbg id b with
          | error e => rfl
          | ok lines =>
            rw [hd] at h1 h2
            dsimp only at h1 h2 ⊢
            rw [ih it' (id + 1) h1 h2]

/-- Cat ends normally or with an error. -/
theorem Cat.run_not_diverge (input : List UInt8) (stdout : Sink) : (Cat.run input stdout).1 ≠ .error .diverge := by
  cases hh : Gzip.discardHeader input with
  | error e s =>
    obtain ⟨x, rfl⟩ := Gzip.onlyErrs_discardHeader _ _ _ hh
    rw [Cat.run, hh]
    intro h
    cases h
  | ok out rest =>
    obtain ⟨h1, hd, hv, rfl⟩ := C56_header _ _ _ hh
    subst h1
    obtain ⟨o, room⟩ := stdout
    obtain ⟨_, _, _, _, h | ⟨e, h⟩⟩ := C62_errors hd hv rest o room <;> · rw [h]; intro h; cases h

/-- C117. What cat says and writes does not change when more bytes follow, unless it met the end of its input. -/
theorem C117_cat (input more : List UInt8) (stdout : Sink)
    (h : (Cat.run input stdout).1 ≠ .error (.err .eof)) :
    Cat.run (input ++ more) stdout = Cat.run input stdout := by
  have hd := Cat.run_not_diverge input stdout
  have hx : ∀ s, Gzip.discardHeader input ≠ .error (.err .eof) s := by
    intro s hs
    apply h
    rw [Cat.run, hs]
  rcases Gzip.discardHeader_more input more hx with ⟨e, s, s', h1, h2⟩ | ⟨out, rest, h1, h2⟩
  · rw [Cat.run, Cat.run, h1, h2]
  · rw [Cat.run, h1, Cat.new_eq] at h hd
    rw [Cat.run, Cat.run, h1, h2, Cat.new_eq]
    dsimp only at h hd ⊢
    have e1 : 8 * (rest ++ more).length + 2 = 8 * rest.length + 2 + 8 * more.length := by
      rw [List.length_append]; omega
    have e2 : parseDeflate (rest ++ more) = (parseDeflate rest).ext more := rfl
    have key := Cat.loop_ext (8 * rest.length + 2) (8 * more.length) more (parseDeflate rest)
      { dict := CircularBuffer.ofHist 32768 [], into := stdout } h hd
    rw [e1, e2, key.1, key.2]

/-- C117. The same for dump. -/
theorem C117_dump (dbg : UInt8 → List Char) (input more : List UInt8)
    (h : (Dump.run dbg input).1 ≠ .error (.err .eof)) :
    Dump.run dbg (input ++ more) = Dump.run dbg input := by
  have hx : ∀ s, Gzip.discardHeader input ≠ .error (.err .eof) s := by
    intro s hs
    apply h
    rw [Dump.run, hs]
  rcases Gzip.discardHeader_more input more hx with ⟨e, s, s', h1, h2⟩ | ⟨out, rest, h1, h2⟩
  · rw [Dump.run, Dump.run, h1, h2]
  · have hd : (Dump.run dbg input).1 ≠ .error .diverge := by
      obtain ⟨h3, hdr, hv, rfl⟩ := C56_header _ _ _ h1
      subst h3
      obtain ⟨_, _, _, ⟨_, h⟩ | ⟨e, _, h⟩⟩ := C75_errors dbg hdr hv rest <;> · rw [h]; intro h; cases h
    rw [Dump.run, h1] at h hd
    rw [Dump.run, Dump.run, h1, h2]
    dsimp only at h hd ⊢
    have e1 : 8 * (rest ++ more).length + 2 = 8 * rest.length + 2 + 8 * more.length := by
      rw [List.length_append]; omega
    have e2 : parseDeflate (rest ++ more) = (parseDeflate rest).ext more := rfl
    rw [e1, e2, Dump.loop_ext dbg _ _ more _ _ h hd]

/-- C117. A file cut anywhere before the end of its deflate stream makes cat give the error for the end of the
input, after some of the data. -/
theorem C117_cat_cut (hd : GzHeader) (hv : hd.Valid) (d x : List UInt8) (blocks : List Block)
    (hb : DeflateBytes blocks d) (hx : lzExpand 32768 [] (blocks.flatMap lzCodes) = some x)
    (pre suf : List UInt8) (hp : pre ++ suf = hd.bytes ++ d) (hs : suf ≠ []) :
    (Cat.run pre Sink.vec).1 = .error (.err .eof) := by
  apply Classical.byContradiction
  intro hne
  have h1 := C117_cat pre suf Sink.vec hne
  have h2 := C62_cat hd hv d [] [] x blocks hb hx
  rw [List.append_nil, ← hp] at h2
  have h3 : Cat.run pre Sink.vec = (.ok (), ⟨[] ++ x, none⟩) := h1.symm.trans h2
  obtain ⟨hd', d', tr, x', bl', hv', h4, h5, _, _⟩ := C62_only pre [] none _ h3
  have a1 := C57_accepted hd hv d
  have a2 := C57_accepted hd' hv' (d' ++ (tr ++ suf))
  have e : hd.bytes ++ d = hd'.bytes ++ (d' ++ (tr ++ suf)) := by
    rw [← hp, h4]; simp only [List.append_assoc]
  rw [e, a2] at a1
  injection a1 with _ h6
  have p1 := (C22_parse_iff d blocks []).2 ⟨d, (List.append_nil d).symm, hb⟩
  have p2 := (C22_parse_iff d bl' (tr ++ suf)).2 ⟨d', h6.symm, h5⟩
  rw [p1] at p2
  injection p2 with h7
  injection h7 with _ h8
  exact hs (List.append_eq_nil_iff.1 h8.symm).2

/-- A file that is cut, and one with something invalid in it, whatever follows. -/
example : (Cat.run [0x1f, 0x8b, 8, 0, 0, 0, 0, 0, 0, 3, 0x4b, 0x04] Sink.vec).1 = .error (.err .eof) ∧
    (Cat.run [0x1f, 0x8b, 8, 0, 0, 0, 0, 0, 0, 3, 7] Sink.vec).1 = .error (.err .reservedBlock) ∧
    (Cat.run [0x1f, 0x8b, 8, 0, 0, 0, 0, 0, 0, 3, 7, 1, 2] Sink.vec).1 = .error (.err .reservedBlock) := by
  decide +kernel

/-! ### The end of the input need not be the fault -/

namespace Endless

/-- A dynamic block whose literal code has two literals, of one bit each, and no end of block. -/
def bytes : List UInt8 := [5, 192, 129, 0, 0, 0, 0, 0, 16, 254, 171, 1]

def lt : CodeTree := { left := .leaf 0, right := .leaf 1 }
def dt : Option CodeTree := some { left := .leaf 0, right := .leaf 31 }

theorem scanCode_bit (b : Bool) (bs : List Bool) :
    ∃ c, (scanCode lt dt).exec (b :: bs) = .ok (some c) bs := by
  cases b
  · exact ⟨.literal 0, rfl⟩
  · exact ⟨.literal 1, rfl⟩

theorem scanLoop_starved (bs : List Bool) : ∀ (fuel : Nat) (acc : List Code), bs.length < fuel →
    (scanLoop lt dt fuel acc).exec bs = .starved := by
  induction bs with
  | nil =>
    intro fuel acc hf
    obtain ⟨fuel, rfl⟩ : ∃ f, fuel = f + 1 := ⟨fuel - 1, by omega⟩
    rw [scanLoop, BitProg.bind_eq, BitProg.exec_bind]
    rfl
  | cons b bs ih =>
    intro fuel acc hf
    rw [List.length_cons] at hf
    obtain ⟨fuel, rfl⟩ : ∃ f, fuel = f + 1 := ⟨fuel - 1, by omega⟩
    obtain ⟨c, hc⟩ := scanCode_bit b bs
    rw [scanLoop, BitProg.bind_eq, BitProg.exec_bind_ok hc]
    exact ih fuel _ (by omega)

theorem scan_eof (r : BitReader) (h : r.WF) : ∃ r', scanHuffmanData lt dt r = .error (.err .eof) r' := by
  have hs := scanLoop_starved r.bits (bitsLeft r + 1) [] (by rw [bitsLeft_eq h]; omega)
  obtain ⟨r', h1, _⟩ := BitReader.run_starved h hs
  exact ⟨r', h1⟩

/-- The readers after the first bit, the kind of the block and its header. -/
def r1 : BitReader := ⟨[192, 129, 0, 0, 0, 0, 0, 16, 254, 171, 1], 5, 7⟩
def r2 : BitReader := ⟨[192, 129, 0, 0, 0, 0, 0, 16, 254, 171, 1], 5, 5⟩
def r3 : BitReader := ⟨[], 1, 6⟩
def trees : BitVector := ⟨[0, 56, 16, 0, 0, 0, 0, 0, 194, 127, 53], 87⟩

theorem next_eof (more : List UInt8) : (parseDeflate (bytes ++ more)).next.1 = some (.error (.err .eof)) := by
  have a1 : BitReader.readBit ((BitReader.new bytes).ext more) = .ok true (r1.ext more) := by
    have h := stable_readBit (BitReader.new bytes) more
    rw [show BitReader.readBit (BitReader.new bytes) = .ok true r1 by decide +kernel] at h
    exact h
  have a2 : BitReader.readPart 2 (r1.ext more) = .ok 2 (r2.ext more) := by
    have h := stable_run (BitProg.readPart 2) r1 more
    rw [show BitReader.run (BitProg.readPart 2) r1 = .ok 2 r2 by decide +kernel] at h
    exact h
  have a3 : BitReader.run (Huffman.readCodes.collect BitVector.new) (r2.ext more) =
      .ok ((lt, dt), trees) (r3.ext more) := by
    have h := stable_run (Huffman.readCodes.collect BitVector.new) r2 more
    rw [show BitReader.run (Huffman.readCodes.collect BitVector.new) r2 = .ok ((lt, dt), trees) r3 by
      decide +kernel] at h
    exact h
  have hw : (r3.ext more).WF := by show 6 ≤ 7; omega
  obtain ⟨r', a4⟩ := scan_eof _ hw
  unfold BlockIter.next
  show (if false = true then _ else _ : Option (Except Fail Block) × BlockIter).1 = _
  rw [if_neg (by simp)]
  have e : (parseDeflate (bytes ++ more)).inner = (BitReader.new bytes).ext more := rfl
  rw [e, a1]
  dsimp only
  rw [readBlock_2 a2, ES.bind_ok a3, ES.bind_err a4]

end Endless

/-- C117. The converse does not hold: there is an input for which the error is that of the end of the input, but no
matter what follows, it remains so, since the block has no code for its end. -/
theorem C117_endless : ∃ bytes : List UInt8, ∀ more, parseAll (bytes ++ more) = .error (.err .eof) := by
  refine ⟨Endless.bytes, fun more => ?_⟩
  have h := Endless.next_eof more
  unfold parseAll collect
  rw [collectLoop]
  cases hn : (parseDeflate (Endless.bytes ++ more)).next with
  | mk x it =>
    rw [hn] at h
    have h : x = _ := h
    rw [h]

end Rezip
