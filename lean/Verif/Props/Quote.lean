import Verif.Model.Quote
import Verif.Spec.Quote
import Verif.Props.TraceText

/-!
# C111: how the trace example quotes bytes
-/

namespace Rezip

open Render TraceExample

namespace Quote

/-! ### Decoding -/

theorem toNat_ofNat {k : Nat} (h : k < 256) : (UInt8.ofNat k).toNat = k := by
  simp [Nat.mod_eq_of_lt h]

theorem le_iff {a b : UInt8} : a ≤ b ↔ a.toNat ≤ b.toNat := UInt8.le_iff_toNat_le

theorem isCont_iff (b : UInt8) : isCont b = true ↔ 128 ≤ b.toNat ∧ b.toNat ≤ 191 := by
  simp [isCont, le_iff]

theorem eq_iff {a b : UInt8} : a = b ↔ a.toNat = b.toNat := UInt8.toNat_inj.symm

theorem secondOfThree_iff (b c : UInt8) : secondOfThree b c = true ↔
    128 ≤ c.toNat ∧ c.toNat ≤ 191 ∧ (b.toNat = 224 → 160 ≤ c.toNat) ∧ (b.toNat = 237 → c.toNat ≤ 159) := by
  unfold secondOfThree
  split
  · rename_i h; subst h; simp [le_iff]; omega
  · split
    · rename_i h; subst h; simp [le_iff]; omega
    · rename_i h1 h2
      rw [isCont_iff]
      rw [eq_iff] at h1 h2
      simp at h1 h2
      omega

theorem secondOfFour_iff (b c : UInt8) : secondOfFour b c = true ↔
    128 ≤ c.toNat ∧ c.toNat ≤ 191 ∧ (b.toNat = 240 → 144 ≤ c.toNat) ∧ (b.toNat = 244 → c.toNat ≤ 143) := by
  unfold secondOfFour
  split
  · rename_i h; subst h; simp [le_iff]; omega
  · split
    · rename_i h; subst h; simp [le_iff]; omega
    · rename_i h1 h2
      rw [isCont_iff]
      rw [eq_iff] at h1 h2
      simp at h1 h2
      omega

theorem char_eq (c : Char) : Char.ofNat c.toNat = c := Char.ofNat_toNat c

/-- The first byte, by range. -/
theorem first_iff (b : UInt8) :
    ((b < 0x80) ↔ b.toNat < 128) ∧
    ((0xC2 ≤ b && b ≤ 0xDF) = true ↔ 194 ≤ b.toNat ∧ b.toNat ≤ 223) ∧
    ((0xE0 ≤ b && b ≤ 0xEF) = true ↔ 224 ≤ b.toNat ∧ b.toNat ≤ 239) ∧
    ((0xF0 ≤ b && b ≤ 0xF4) = true ↔ 240 ≤ b.toNat ∧ b.toNat ≤ 244) := by
  simp [le_iff, UInt8.lt_iff_toNat_lt]

theorem next_encode (c : Char) (rest : List UInt8) :
    ∃ b tl, String.utf8EncodeChar c = b :: tl ∧ next b (tl ++ rest) = (c, rest) := by
  have hv := c.valid
  have hc : Char.ofNat c.val.toNat = c := char_eq c
  have hn : c.val.toNat < 0xd800 ∨ (0xdfff < c.val.toNat ∧ c.val.toNat < 0x110000) := hv
  unfold String.utf8EncodeChar
  dsimp only
  generalize hk : c.val.toNat = v at hc hn
  split
  · rename_i h1
    refine ⟨_, _, rfl, ?_⟩
    have e := toNat_ofNat (k := v) (by omega)
    generalize UInt8.ofNat v = b at e
    obtain ⟨f1, f2, f3, f4⟩ := first_iff b
    unfold next
    rw [if_pos (f1.2 (by omega)), e, hc]
    rfl
  · split
    · rename_i h1 h2
      refine ⟨_, _, rfl, ?_⟩
      have e := toNat_ofNat (k := v / 64 % 32 + 192) (by omega)
      have e1 := toNat_ofNat (k := v % 64 + 128) (by omega)
      generalize UInt8.ofNat (v / 64 % 32 + 192) = b at e
      generalize UInt8.ofNat (v % 64 + 128) = b1 at e1
      obtain ⟨f1, f2, f3, f4⟩ := first_iff b
      unfold next
      rw [if_neg (fun h => absurd (f1.1 h) (by omega)), if_pos (f2.2 (by omega))]
      simp only [List.cons_append, List.nil_append]
      rw [if_pos ((isCont_iff _).2 (by omega))]
      have : more (b.toNat % 32) b1 = v := by unfold more; omega
      rw [this, hc]
    · split
      · rename_i h1 h2 h3
        refine ⟨_, _, rfl, ?_⟩
        have e := toNat_ofNat (k := v / 4096 % 16 + 224) (by omega)
        have e1 := toNat_ofNat (k := v / 64 % 64 + 128) (by omega)
        have e2 := toNat_ofNat (k := v % 64 + 128) (by omega)
        generalize UInt8.ofNat (v / 4096 % 16 + 224) = b at e
        generalize UInt8.ofNat (v / 64 % 64 + 128) = b1 at e1
        generalize UInt8.ofNat (v % 64 + 128) = b2 at e2
        obtain ⟨f1, f2, f3, f4⟩ := first_iff b
        unfold next
        rw [if_neg (fun h => absurd (f1.1 h) (by omega)), if_neg (fun h => absurd (f2.1 h) (by omega)),
          if_pos (f3.2 (by omega))]
        simp only [List.cons_append, List.nil_append]
        rw [if_pos ((secondOfThree_iff _ _).2 (by omega)), if_pos ((isCont_iff _).2 (by omega))]
        have : more (more (b.toNat % 16) b1) b2 = v := by unfold more; omega
        rw [this, hc]
      · rename_i h1 h2 h3
        refine ⟨_, _, rfl, ?_⟩
        have e := toNat_ofNat (k := v / 262144 % 8 + 240) (by omega)
        have e1 := toNat_ofNat (k := v / 4096 % 64 + 128) (by omega)
        have e2 := toNat_ofNat (k := v / 64 % 64 + 128) (by omega)
        have e3 := toNat_ofNat (k := v % 64 + 128) (by omega)
        generalize UInt8.ofNat (v / 262144 % 8 + 240) = b at e
        generalize UInt8.ofNat (v / 4096 % 64 + 128) = b1 at e1
        generalize UInt8.ofNat (v / 64 % 64 + 128) = b2 at e2
        generalize UInt8.ofNat (v % 64 + 128) = b3 at e3
        obtain ⟨f1, f2, f3, f4⟩ := first_iff b
        unfold next
        rw [if_neg (fun h => absurd (f1.1 h) (by omega)), if_neg (fun h => absurd (f2.1 h) (by omega)),
          if_neg (fun h => absurd (f3.1 h) (by omega)), if_pos (f4.2 (by omega))]
        simp only [List.cons_append, List.nil_append]
        rw [if_pos ((secondOfFour_iff _ _).2 (by omega)), if_pos ((isCont_iff _).2 (by omega)),
          if_pos ((isCont_iff _).2 (by omega))]
        have : more (more (more (b.toNat % 8) b1) b2) b3 = v := by unfold more; omega
        rw [this, hc]

theorem val_ofNat {n : Nat} (h : n < 0xd800 ∨ (0xdfff < n ∧ n < 0x110000)) : (Char.ofNat n).val.toNat = n := by
  have hv : n.isValidChar := h
  rw [Char.ofNat, dif_pos hv]
  show (UInt32.ofNatLT n _).toNat = n
  exact UInt32.toNat_ofNatLT

/-! The encodings, by the number of bytes. -/

theorem encode_one {b : UInt8} (hb : b.toNat < 128) : String.utf8EncodeChar (Char.ofNat b.toNat) = [b] := by
  unfold String.utf8EncodeChar
  dsimp only
  rw [val_ofNat (by omega), if_pos (by omega), UInt8.ofNat_toNat]

theorem encode_two {b c : UInt8} (hb : 194 ≤ b.toNat ∧ b.toNat ≤ 223) (hc : isCont c = true) :
    String.utf8EncodeChar (Char.ofNat (more (b.toNat % 32) c)) = [b, c] := by
  rw [isCont_iff] at hc
  unfold String.utf8EncodeChar
  dsimp only
  rw [val_ofNat (by unfold more; omega), if_neg (by unfold more; omega), if_pos (by unfold more; omega)]
  congr 1
  · rw [eq_iff, toNat_ofNat (by omega)]
    unfold more
    omega
  · congr 1
    rw [eq_iff, toNat_ofNat (by omega)]
    unfold more
    omega

theorem encode_three {b c d : UInt8} (hb : 224 ≤ b.toNat ∧ b.toNat ≤ 239) (hc : secondOfThree b c = true)
    (hd : isCont d = true) : String.utf8EncodeChar (Char.ofNat (more (more (b.toNat % 16) c) d)) = [b, c, d] := by
  rw [secondOfThree_iff] at hc
  rw [isCont_iff] at hd
  unfold String.utf8EncodeChar
  dsimp only
  rw [val_ofNat (by unfold more; omega), if_neg (by unfold more; omega), if_neg (by unfold more; omega),
    if_pos (by unfold more; omega)]
  congr 1
  · rw [eq_iff, toNat_ofNat (by omega)]
    unfold more
    omega
  · congr 1
    · rw [eq_iff, toNat_ofNat (by omega)]
      unfold more
      omega
    · congr 1
      rw [eq_iff, toNat_ofNat (by omega)]
      unfold more
      omega

theorem encode_four {b c d e : UInt8} (hb : 240 ≤ b.toNat ∧ b.toNat ≤ 244) (hc : secondOfFour b c = true)
    (hd : isCont d = true) (he : isCont e = true) :
    String.utf8EncodeChar (Char.ofNat (more (more (more (b.toNat % 8) c) d) e)) = [b, c, d, e] := by
  rw [secondOfFour_iff] at hc
  rw [isCont_iff] at hd he
  unfold String.utf8EncodeChar
  dsimp only
  rw [val_ofNat (by unfold more; omega), if_neg (by unfold more; omega), if_neg (by unfold more; omega),
    if_neg (by unfold more; omega)]
  congr 1
  · rw [eq_iff, toNat_ofNat (by omega)]
    unfold more
    omega
  · congr 1
    · rw [eq_iff, toNat_ofNat (by omega)]
      unfold more
      omega
    · congr 1
      · rw [eq_iff, toNat_ofNat (by omega)]
        unfold more
        omega
      · congr 1
        rw [eq_iff, toNat_ofNat (by omega)]
        unfold more
        omega

/-- The shapes of the encodings. -/
inductive Shape : List UInt8 → Prop
  | one (b : UInt8) : b.toNat < 128 → Shape [b]
  | two (b c : UInt8) : 194 ≤ b.toNat ∧ b.toNat ≤ 223 → isCont c = true → Shape [b, c]
  | three (b c d : UInt8) : 224 ≤ b.toNat ∧ b.toNat ≤ 239 → secondOfThree b c = true → isCont d = true →
      Shape [b, c, d]
  | four (b c d e : UInt8) : 240 ≤ b.toNat ∧ b.toNat ≤ 244 → secondOfFour b c = true → isCont d = true →
      isCont e = true → Shape [b, c, d, e]

theorem shape_encode (c : Char) : Shape (String.utf8EncodeChar c) := by
  have hn : c.val.toNat < 0xd800 ∨ (0xdfff < c.val.toNat ∧ c.val.toNat < 0x110000) := c.valid
  unfold String.utf8EncodeChar
  dsimp only
  generalize c.val.toNat = v at hn
  split
  · exact .one _ (by rw [toNat_ofNat (by omega)]; omega)
  · split
    · exact .two _ _ (by rw [toNat_ofNat (by omega)]; omega) ((isCont_iff _).2 (by rw [toNat_ofNat (by omega)]; omega))
    · split
      · exact .three _ _ _ (by rw [toNat_ofNat (by omega)]; omega)
          ((secondOfThree_iff _ _).2 (by rw [toNat_ofNat (by omega), toNat_ofNat (by omega)]; omega))
          ((isCont_iff _).2 (by rw [toNat_ofNat (by omega)]; omega))
      · exact .four _ _ _ _ (by rw [toNat_ofNat (by omega)]; omega)
          ((secondOfFour_iff _ _).2 (by rw [toNat_ofNat (by omega), toNat_ofNat (by omega)]; omega))
          ((isCont_iff _).2 (by rw [toNat_ofNat (by omega)]; omega))
          ((isCont_iff _).2 (by rw [toNat_ofNat (by omega)]; omega))

/-- The encodings that share bytes with others: by the first byte. -/
theorem begins_shape {q : List UInt8} (h : BeginsChar q) : ∃ e, Shape e ∧ q <+: e := by
  obtain ⟨c, hc⟩ := h
  exact ⟨_, shape_encode c, hc⟩

/-- A replaced start of a character, as the specification has it. -/
structure Bad (p rest : List UInt8) : Prop where
  nonempty : p ≠ []
  none : ∀ e, Shape e → ¬ e <+: p ++ rest
  begins : BeginsChar p ∨ p.length = 1
  longest : ∀ e, Shape e → ∀ q, q <+: p ++ rest → q <+: e → q.length ≤ p.length

theorem cons_prefix {a b : UInt8} {x y : List UInt8} : a :: x <+: b :: y ↔ a = b ∧ x <+: y := List.cons_prefix_cons

/-- The longest start, if the byte after it is wrong for any character. -/
theorem longest_of {p rest : List UInt8} (hp : p ≠ []) (hb : BeginsChar p ∨ p.length = 1)
    (h : ∀ e, Shape e → ¬ e <+: p ∧ ∀ x r, rest = x :: r → ¬ (p ++ [x]) <+: e) : Bad p rest := by
  have hl : ∀ e, Shape e → ∀ q, q <+: p ++ rest → q <+: e → q.length ≤ p.length := by
    intro e he q hq hqe
    refine Classical.byContradiction fun hn => ?_
    cases rest with
    | nil =>
      have := hq.length_le
      simp only [List.append_nil] at this
      omega
    | cons x r =>
      refine (h e he).2 x r rfl (List.IsPrefix.trans ?_ hqe)
      refine List.prefix_of_prefix_length_le (l₃ := p ++ x :: r) ⟨r, by simp⟩ hq ?_
      simp only [List.length_append, List.length_cons, List.length_nil]
      omega
  refine ⟨hp, ?_, hb, hl⟩
  intro e he hpre
  have h1 := hl e he e hpre (List.prefix_refl e)
  exact (h e he).1 (List.prefix_of_prefix_length_le hpre (List.prefix_append p rest) h1)

theorem bad_one {b : UInt8} {rest : List UInt8} (h1 : ¬ b.toNat < 128)
    (h2 : 194 ≤ b.toNat ∧ b.toNat ≤ 223 → ∀ x r, rest = x :: r → ¬ isCont x = true)
    (h3 : 224 ≤ b.toNat ∧ b.toNat ≤ 239 → ∀ x r, rest = x :: r → ¬ secondOfThree b x = true)
    (h4 : 240 ≤ b.toNat ∧ b.toNat ≤ 244 → ∀ x r, rest = x :: r → ¬ secondOfFour b x = true) : Bad [b] rest := by
  refine longest_of (by simp) (.inr rfl) ?_
  intro e he
  cases he <;> simp only [List.cons_append, List.nil_append, cons_prefix, List.prefix_nil, reduceCtorEq, and_false,
    and_true, List.nil_prefix, not_false_eq_true, true_and, implies_true, not_and]
  · rename_i c hc
    rintro rfl
    exact h1 hc
  · rename_i c d hc hd
    rintro x r hr rfl rfl
    exact h2 hc _ r hr hd
  · rename_i c d e hc hd he
    rintro x r hr rfl rfl
    exact h3 hc _ r hr hd
  · rename_i c d e f hc hd he hf
    rintro x r hr rfl rfl
    exact h4 hc _ r hr hd

theorem cont_80 : isCont 0x80 = true := by decide

theorem bad_two {b c : UInt8} {rest : List UInt8}
    (h : ((224 ≤ b.toNat ∧ b.toNat ≤ 239) ∧ secondOfThree b c = true) ∨
      ((240 ≤ b.toNat ∧ b.toNat ≤ 244) ∧ secondOfFour b c = true))
    (hx : ∀ x r, rest = x :: r → ¬ isCont x = true) : Bad [b, c] rest := by
  refine longest_of (by simp) (.inl ?_) ?_
  · rcases h with ⟨hb, hc⟩ | ⟨hb, hc⟩
    · exact ⟨_, by rw [encode_three hb hc cont_80]; exact ⟨[0x80], rfl⟩⟩
    · exact ⟨_, by rw [encode_four hb hc cont_80 cont_80]; exact ⟨[0x80, 0x80], rfl⟩⟩
  intro e he
  cases he <;> simp only [List.cons_append, List.nil_append, cons_prefix, List.prefix_nil, reduceCtorEq, and_false,
    and_true, List.nil_prefix, not_false_eq_true, true_and, implies_true, not_and]
  · rename_i b' hb'
    rintro rfl
    omega
  · rename_i b' c' hb' hc'
    rintro rfl
    omega
  · rename_i b' c' d' hb' hc' hd'
    rintro x r hr rfl rfl rfl
    exact hx _ r hr hd'
  · rename_i b' c' d' e' hb' hc' hd' he'
    rintro x r hr rfl rfl rfl
    exact hx _ r hr hd'

theorem bad_three {b c d : UInt8} {rest : List UInt8} (hb : 240 ≤ b.toNat ∧ b.toNat ≤ 244)
    (hc : secondOfFour b c = true) (hd : isCont d = true)
    (hx : ∀ x r, rest = x :: r → ¬ isCont x = true) : Bad [b, c, d] rest := by
  refine longest_of (by simp) (.inl ?_) ?_
  · exact ⟨_, by rw [encode_four hb hc hd cont_80]; exact ⟨[0x80], rfl⟩⟩
  intro e he
  cases he <;> simp only [List.cons_append, List.nil_append, cons_prefix, List.prefix_nil, reduceCtorEq, and_false,
    and_true, List.nil_prefix, not_false_eq_true, true_and, implies_true, not_and]
  · rename_i b' hb'
    rintro rfl
    omega
  · rename_i b' c' hb' hc'
    rintro rfl
    omega
  · rename_i b' c' d' hb' hc' hd'
    rintro rfl
    omega
  · rename_i b' c' d' e' hb' hc' hd' he'
    rintro x r hr rfl rfl rfl rfl
    exact hx _ r hr he'

theorem next_spec (b : UInt8) (rest : List UInt8) :
    b :: rest = String.utf8EncodeChar (next b rest).1 ++ (next b rest).2 ∨
    ((next b rest).1 = '\uFFFD' ∧ ∃ p, b :: rest = p ++ (next b rest).2 ∧ Bad p (next b rest).2) := by
  obtain ⟨f1, f2, f3, f4⟩ := first_iff b
  unfold next
  split
  · rename_i h1
    exact .inl (by rw [encode_one (f1.1 h1)]; rfl)
  rename_i h1
  rw [f1] at h1
  split
  · rename_i h2
    rw [f2] at h2
    split
    · split
      · rename_i c r hc
        exact .inl (by rw [encode_two h2 hc]; rfl)
      · rename_i c r hc
        refine .inr ⟨rfl, [b], rfl, bad_one h1 ?_ (by omega) (by omega)⟩
        intro _ x r' hx
        cases hx
        exact hc
    · exact .inr ⟨rfl, [b], rfl, bad_one h1 (by simp) (by omega) (by omega)⟩
  rename_i h2
  rw [f2] at h2
  split
  · rename_i h3
    rw [f3] at h3
    split
    · rename_i c r
      split
      · rename_i hc
        split
        · rename_i d r'
          split
          · rename_i hd
            exact .inl (by rw [encode_three h3 hc hd]; rfl)
          · rename_i hd
            refine .inr ⟨rfl, [b, c], rfl, bad_two (.inl ⟨h3, hc⟩) ?_⟩
            intro x r'' hx
            cases hx
            exact hd
        · exact .inr ⟨rfl, [b, c], rfl, bad_two (.inl ⟨h3, hc⟩) (by simp)⟩
      · rename_i hc
        refine .inr ⟨rfl, [b], rfl, bad_one h1 (by omega) ?_ (by omega)⟩
        intro _ x r' hx
        cases hx
        exact hc
    · exact .inr ⟨rfl, [b], rfl, bad_one h1 (by simp) (by simp) (by omega)⟩
  rename_i h3
  rw [f3] at h3
  split
  · rename_i h4
    rw [f4] at h4
    split
    · rename_i c r
      split
      · rename_i hc
        split
        · rename_i d r'
          split
          · rename_i hd
            split
            · rename_i e r''
              split
              · rename_i he
                exact .inl (by rw [encode_four h4 hc hd he]; rfl)
              · rename_i he
                refine .inr ⟨rfl, [b, c, d], rfl, bad_three h4 hc hd ?_⟩
                intro x r'' hx
                cases hx
                exact he
            · exact .inr ⟨rfl, [b, c, d], rfl, bad_three h4 hc hd (by simp)⟩
          · rename_i hd
            refine .inr ⟨rfl, [b, c], rfl, bad_two (.inr ⟨h4, hc⟩) ?_⟩
            intro x r'' hx
            cases hx
            exact hd
        · exact .inr ⟨rfl, [b, c], rfl, bad_two (.inr ⟨h4, hc⟩) (by simp)⟩
      · rename_i hc
        refine .inr ⟨rfl, [b], rfl, bad_one h1 (by omega) (by omega) ?_⟩
        intro _ x r' hx
        cases hx
        exact hc
    · exact .inr ⟨rfl, [b], rfl, bad_one h1 (by simp) (by simp) (by simp)⟩
  · rename_i h4
    rw [f4] at h4
    exact .inr ⟨rfl, [b], rfl, bad_one h1 (by omega) (by omega) (by omega)⟩

/-! ### What the bytes stand for -/

theorem lossyLoop_spec : ∀ (fuel : Nat) (bytes : List UInt8), bytes.length ≤ fuel → Lossy bytes (lossyLoop fuel bytes)
  | fuel, [], _ => by
    cases fuel <;> exact .nil
  | 0, b :: rest, h => by cases h
  | fuel + 1, b :: rest, h => by
    show Lossy (b :: rest) ((next b rest).1 :: lossyLoop fuel (next b rest).2)
    have len : ∀ p : List UInt8, p ≠ [] → b :: rest = p ++ (next b rest).2 → (next b rest).2.length ≤ fuel := by
      intro p hp e
      have := congrArg List.length e
      have := List.length_pos_iff.2 hp
      simp only [List.length_append, List.length_cons] at *
      omega
    rcases next_spec b rest with e | ⟨e1, p, e2, hbad⟩
    · have ih := lossyLoop_spec fuel (next b rest).2 (len _ (by
        obtain ⟨b', tl, h', _⟩ := next_encode (next b rest).1 []
        rw [h']
        simp) e)
      have := Lossy.char (next b rest).1 _ _ ih
      rw [← e] at this
      exact this
    · have ih := lossyLoop_spec fuel (next b rest).2 (len p hbad.nonempty e2)
      have := Lossy.bad p _ _ hbad.nonempty (fun c => hbad.none _ (shape_encode c)) hbad.begins
        (fun q hq hb => by
          obtain ⟨e, he, hqe⟩ := begins_shape hb
          exact hbad.longest e he q hq hqe) ih
      rw [← e2, ← e1] at this
      exact this

theorem encode_inj {c c' : Char} {r r' : List UInt8}
    (h : String.utf8EncodeChar c ++ r = String.utf8EncodeChar c' ++ r') : c = c' ∧ r = r' := by
  obtain ⟨b, tl, h1, h2⟩ := next_encode c r
  obtain ⟨b', tl', h1', h2'⟩ := next_encode c' r'
  rw [h1, h1', List.cons_append, List.cons_append, List.cons.injEq] at h
  rw [← h.1, ← h.2, h2] at h2'
  exact Prod.mk.inj h2'

theorem lossy_unique {bytes : List UInt8} {s s' : List Char} (h : Lossy bytes s) (h' : Lossy bytes s') : s = s' := by
  have ne : ∀ c, String.utf8EncodeChar c ≠ [] := fun c => by
    obtain ⟨b', tl, h', _⟩ := next_encode c []
    rw [h']
    simp
  induction h generalizing s' with
  | nil =>
    generalize hz : ([] : List UInt8) = z at h'
    cases h' with
    | nil => rfl
    | char c rest s _ => exact absurd (List.append_eq_nil_iff.1 hz.symm).1 (ne c)
    | bad p rest s hp => exact absurd (List.append_eq_nil_iff.1 hz.symm).1 hp
  | char c rest s _ ih =>
    generalize hz : String.utf8EncodeChar c ++ rest = z at h'
    cases h' with
    | nil => exact absurd (List.append_eq_nil_iff.1 hz).1 (ne c)
    | char c' rest' s' h' =>
      obtain ⟨rfl, rfl⟩ := encode_inj hz
      rw [ih h']
    | bad p rest' s' hp hn => exact absurd ⟨rest, hz⟩ (hn c)
  | bad p rest s hp hn hb hl _ ih =>
    generalize hz : p ++ rest = z at h'
    cases h' with
    | nil => exact absurd (List.append_eq_nil_iff.1 hz).1 hp
    | char c' rest' s' h' => exact absurd ⟨rest', hz.symm⟩ (hn c')
    | bad p' rest' s' hp' hn' hb' hl' h' =>
      have l1 : p.length ≤ p'.length := by
        rcases hb with hb | hb
        · exact hl' p (hz ▸ List.prefix_append p rest) hb
        · have := List.length_pos_iff.2 hp'
          omega
      have l2 : p'.length ≤ p.length := by
        rcases hb' with hb' | hb'
        · exact hl p' (hz ▸ List.prefix_append p' rest') hb'
        · have := List.length_pos_iff.2 hp
          omega
      obtain ⟨e1, e2⟩ := List.append_inj hz (by omega)
      subst e1
      subst e2
      rw [ih h']

theorem lossy_utf8 (s : List Char) : Lossy (Dump.utf8 s) s := by
  induction s with
  | nil => exact .nil
  | cons c s ih => exact .char c _ _ ih

/-! ### Quoting -/

theorem digit_facts : ∀ k, k < 16 → Nat.digitChar k ≠ '}' ∧ hexValue (Nat.digitChar k) = some k ∧
    32 ≤ (Nat.digitChar k).toNat ∧ (Nat.digitChar k).toNat ≤ 126 := by
  have : ∀ k : Fin 16, Nat.digitChar k.val ≠ '}' ∧ hexValue (Nat.digitChar k.val) = some k.val ∧
    32 ≤ (Nat.digitChar k.val).toNat ∧ (Nat.digitChar k.val).toNat ≤ 126 := by decide +kernel
  exact fun k hk => this ⟨k, hk⟩

theorem readHex_digit {k : Nat} (hk : k < 16) (tail : List Char) (n : Nat) :
    readHex (Nat.digitChar k :: tail) n = readHex tail (16 * n + k) := by
  obtain ⟨h1, h2, _⟩ := digit_facts k hk
  rw [readHex, if_neg h1, h2]
  rfl

theorem readHex_digits (n : Nat) : ∀ tail, readHex (hexDigits n ++ tail) 0 = readHex tail n := by
  induction n using Nat.strongRecOn with
  | ind n ih =>
    intro tail
    unfold hexDigits
    by_cases h : n < 16
    · rw [Nat.toDigits_of_lt_base h, List.singleton_append, readHex_digit h]
      simp
    · rw [Nat.toDigits_of_base_le (by omega) (by omega), List.append_assoc]
      refine (ih (n / 16) (by omega) _).trans ?_
      rw [List.singleton_append, readHex_digit (by omega)]
      congr 1
      omega

theorem hexDigits_range (n : Nat) : ∀ x ∈ hexDigits n, 32 ≤ x.toNat ∧ x.toNat ≤ 126 := by
  induction n using Nat.strongRecOn with
  | ind n ih =>
    intro x hx
    unfold hexDigits at hx
    by_cases h : n < 16
    · rw [Nat.toDigits_of_lt_base h, List.mem_singleton] at hx
      subst hx
      exact (digit_facts n h).2.2
    · rw [Nat.toDigits_of_base_le (by omega) (by omega), List.mem_append, List.mem_singleton] at hx
      rcases hx with hx | rfl
      · exact ih (n / 16) (by omega) x hx
      · exact (digit_facts _ (by omega)).2.2

theorem escape_ne (plain : Char → Bool) (c : Char) : ∃ d tl, escape plain c = d :: tl ∧ d ≠ '"' := by
  unfold escape
  split
  · exact ⟨_, _, rfl, by decide⟩
  split
  · exact ⟨_, _, rfl, by decide⟩
  split
  · exact ⟨_, _, rfl, by decide⟩
  split
  · exact ⟨_, _, rfl, by decide⟩
  split
  · exact ⟨_, _, rfl, by decide⟩
  rename_i hq
  split
  · exact ⟨_, _, rfl, by decide⟩
  split
  · exact ⟨_, _, rfl, hq⟩
  · exact ⟨_, _, rfl, by decide⟩

theorem readChar_escape (plain : Char → Bool) (c : Char) (rest : List Char) :
    readChar (escape plain c ++ rest) = some (c, rest) := by
  unfold escape
  split
  · rename_i h; subst h; rfl
  split
  · rename_i h; subst h; rfl
  split
  · rename_i h; subst h; rfl
  split
  · rename_i h; subst h; rfl
  split
  · rename_i h; subst h; rfl
  split
  · rename_i h; subst h; rfl
  rename_i hb
  split
  · rw [List.singleton_append]
    unfold readChar
    exact if_pos hb
  · show (readHex ((hexDigits c.toNat ++ ['}']) ++ rest) 0).map _ = _
    rw [List.append_assoc, readHex_digits, List.singleton_append, readHex, if_pos rfl]
    show some (Char.ofNat c.toNat, rest) = _
    rw [char_eq]

theorem readChars_quote (plain : Char → Bool) (s rest : List Char) : ∀ fuel, s.length < fuel →
    readChars fuel (s.flatMap (escape plain) ++ '"' :: rest) = some (s, rest) := by
  induction s with
  | nil =>
    intro fuel h
    cases fuel with
    | zero => cases h
    | succ fuel => rfl
  | cons c s ih =>
    intro fuel h
    cases fuel with
    | zero => cases h
    | succ fuel =>
      obtain ⟨d, tl, e, hd⟩ := escape_ne plain c
      have hr := readChar_escape plain c (s.flatMap (escape plain) ++ '"' :: rest)
      rw [List.flatMap_cons, List.append_assoc]
      rw [e, List.cons_append] at hr ⊢
      rw [readChars, if_neg hd, hr]
      show (readChars fuel (s.flatMap (escape plain) ++ '"' :: rest)).map _ = _
      rw [ih fuel (by simpa using h)]
      rfl

theorem length_le (plain : Char → Bool) (s : List Char) : s.length ≤ (s.flatMap (escape plain)).length := by
  induction s with
  | nil => simp
  | cons c s ih =>
    obtain ⟨d, tl, e, hd⟩ := escape_ne plain c
    rw [List.flatMap_cons, e]
    simp only [List.length_append, List.length_cons]
    omega

theorem escape_range (plain : Char → Bool) (c : Char) :
    ∀ x ∈ escape plain c, x ≠ '\n' ∧ (plain x = true ∨ (32 ≤ x.toNat ∧ x.toNat ≤ 126)) := by
  have two : ∀ d : Char, d ≠ '\n' → 32 ≤ d.toNat ∧ d.toNat ≤ 126 → ∀ x ∈ ['\\', d],
      x ≠ '\n' ∧ (plain x = true ∨ (32 ≤ x.toNat ∧ x.toNat ≤ 126)) := by
    intro d h1 h2 x hx
    simp only [List.mem_cons, List.not_mem_nil, or_false] at hx
    rcases hx with rfl | rfl
    · exact ⟨by decide, .inr (by decide)⟩
    · exact ⟨h1, .inr h2⟩
  unfold escape
  split
  · exact two _ (by decide) (by decide)
  split
  · exact two _ (by decide) (by decide)
  split
  · exact two _ (by decide) (by decide)
  rename_i hn
  split
  · exact two _ (by decide) (by decide)
  split
  · exact two _ (by decide) (by decide)
  split
  · exact two _ (by decide) (by decide)
  split
  · rename_i hp
    intro x hx
    rw [List.mem_singleton] at hx
    subst hx
    exact ⟨hn, .inl hp⟩
  · intro x hx
    have : 32 ≤ x.toNat ∧ x.toNat ≤ 126 := by
      simp only [List.mem_cons, List.mem_append, List.not_mem_nil, or_false] at hx
      rcases hx with rfl | rfl | rfl | hx | rfl
      · decide
      · decide
      · decide
      · exact hexDigits_range _ x hx
      · decide
    refine ⟨?_, .inr this⟩
    rintro rfl
    exact absurd this.1 (by decide)

theorem hint_prefixFree (plain : Char → Bool) (a b : List UInt8) (x y : List Char)
    (h : hint plain a ++ x = hint plain b ++ y) : lossy a = lossy b ∧ x = y := by
  have key : ∀ (s x : List Char), readLiteral (quote plain s ++ x) = some (s, x) := by
    intro s x
    show readLiteral ('"' :: ((s.flatMap (escape plain) ++ ['"']) ++ x)) = _
    rw [readLiteral, if_pos rfl, List.append_assoc, List.singleton_append]
    refine readChars_quote plain s x _ ?_
    have := length_le plain s
    simp only [List.length_append, List.length_cons]
    omega
  have h1 := key (lossy a) x
  have h2 := key (lossy b) y
  unfold hint at h
  rw [h, h2] at h1
  obtain ⟨e1, e2⟩ := Prod.mk.inj (Option.some.inj h1)
  exact ⟨e1.symm, e2.symm⟩

end Quote

/-- C111: the strings that the trace example quotes are the bytes around the place, with maximal subparts that are
not UTF-8 replaced. -/
theorem C111_lossy (bytes : List UInt8) (s : List Char) : Quote.lossy bytes = s ↔ Lossy bytes s := by
  constructor
  · rintro rfl
    exact Quote.lossyLoop_spec _ _ (Nat.le_refl _)
  · exact fun h => Quote.lossy_unique (Quote.lossyLoop_spec _ _ (Nat.le_refl _)) h

/-- C111: text is shown as it is. -/
theorem C111_text (s : List Char) : Quote.lossy (Dump.utf8 s) = s := (C111_lossy _ _).2 (Quote.lossy_utf8 s)

/-- C111: the quoted text is a string literal of that string, whatever follows; it is in one line, and shows only
characters that may be shown. -/
theorem C111_quote (plain : Char → Bool) (s rest : List Char) :
    readLiteral (Quote.quote plain s ++ rest) = some (s, rest) ∧
    (∀ x ∈ Quote.quote plain s, x ≠ '\n' ∧ (plain x = true ∨ (32 ≤ x.toNat ∧ x.toNat ≤ 126))) ∧
    ((∀ c ∈ s, plain c = true ∧ c ∉ ['\x00', '\t', '\n', '\r', '"', '\\']) →
      Quote.quote plain s = ['"'] ++ s ++ ['"']) := by
  refine ⟨?_, ?_, ?_⟩
  · show readLiteral ('"' :: ((s.flatMap (Quote.escape plain) ++ ['"']) ++ rest)) = _
    rw [readLiteral, if_pos rfl, List.append_assoc, List.singleton_append]
    refine Quote.readChars_quote plain s rest _ ?_
    have := Quote.length_le plain s
    simp only [List.length_append, List.length_cons]
    omega
  · intro x hx
    simp only [Quote.quote, List.mem_cons, List.mem_append, List.not_mem_nil, or_false] at hx
    rcases hx with rfl | hx | rfl
    · exact ⟨by decide, .inr (by decide)⟩
    · obtain ⟨c, _, hc⟩ := List.mem_flatMap.1 hx
      exact Quote.escape_range plain c x hc
    · exact ⟨by decide, .inr (by decide)⟩
  · intro h
    have : s.flatMap (Quote.escape plain) = s := by
      induction s with
      | nil => rfl
      | cons c s ih =>
        obtain ⟨h1, h2⟩ := h c (by simp)
        simp only [List.mem_cons, List.not_mem_nil, or_false, not_or] at h2
        obtain ⟨g1, g2, g3, g4, g5, g6⟩ := h2
        rw [List.flatMap_cons, ih fun c hc => h c (List.mem_cons_of_mem _ hc), Quote.escape, if_neg g1, if_neg g2,
          if_neg g3, if_neg g4, if_neg g5, if_neg g6, if_pos h1]
        rfl
    show '"' :: (s.flatMap (Quote.escape plain) ++ ['"']) = _
    rw [this]
    rfl

/-- C111: two runs of the trace example with the same output have the same lines, in which the bytes around a place
stand for the same string. -/
theorem C111_faithful (plain : Char → Bool) (p p' : Profile) (file file' : List UInt8)
    (h : written (TraceExample.runTo (Quote.hint plain) p file Sink.vec) =
      written (TraceExample.runTo (Quote.hint plain) p' file' Sink.vec)) :
    (TraceExample.run p file).out.map (told Quote.lossy) = (TraceExample.run p' file').out.map (told Quote.lossy) := by
  have e : (fun b => (String.ofList (Quote.hint plain b)).toList) = Quote.hint plain := by
    funext b
    exact String.toList_ofList
  have pf : PrefixFree (Quote.hint plain) := by
    intro a b x y h
    obtain ⟨h1, h2⟩ := Quote.hint_prefixFree plain a b x y h
    exact ⟨by rw [Quote.hint, h1, Quote.hint], h2⟩
  have main := C110_faithful (fun b => String.ofList (Quote.hint plain b)) (by rw [e]; exact pf) p p' file file'
    (by rw [e]; exact h)
  rw [e] at main
  have one : ∀ l l', told (Quote.hint plain) l = told (Quote.hint plain) l' → told Quote.lossy l = told Quote.lossy l' := by
    intro l l' hl
    cases l <;> cases l' <;> simp only [told, Prod.mk.injEq, Line.miss.injEq, reduceCtorEq, false_and] at hl ⊢ <;>
      first
      | exact hl
      | (obtain ⟨⟨a, b, c⟩, d⟩ := hl
         exact ⟨⟨a, b, c⟩, (Quote.hint_prefixFree plain _ _ [] [] (by rw [d])).1⟩)
  generalize (TraceExample.run p file).out = ls at main
  generalize (TraceExample.run p' file').out = ls' at main
  clear h
  induction ls generalizing ls' with
  | nil =>
    cases ls' with
    | nil => rfl
    | cons l' ls' => cases main
  | cons l ls ih =>
    cases ls' with
    | nil => cases main
    | cons l' ls' =>
      rw [List.map_cons, List.map_cons, List.cons.injEq] at main ⊢
      exact ⟨one l l' main.1, ih ls' main.2⟩

/-- Text, a character that is cut off, a damaged one, and bytes that begin nothing. -/
example :
    Quote.lossy [104, 0xC3, 0xB6, 0xE2, 0x82, 0xAC, 0xF0, 0x9F, 0x98, 0x80] = ['h', 'ö', '€', '😀'] ∧
    Quote.lossy [97, 0xF0, 0x9F, 0x98] = ['a', '�'] ∧
    Quote.lossy [0xE2, 0x82, 98, 0xED, 0xA0, 0x80, 0xC0, 0xAF] = ['�', 'b', '�', '�', '�', '�', '�'] := by
  decide +kernel

/-- What is quoted: all of ASCII that can be printed is shown. -/
example : Quote.hint (fun c => 32 ≤ c.toNat && c.toNat ≤ 126) [9, 34, 39, 92, 65, 27, 0xFF, 0] =
    "\"\\t\\\"'\\\\A\\u{1b}\\u{fffd}\\0\"".toList := by
  decide +kernel

/-- Reading it. -/
example : readLiteral "\"\\t\\\"'\\\\A\\u{1b}\\u{fffd}\\0\" guess".toList =
    some (['\t', '"', '\'', '\\', 'A', '\x1b', '�', '\x00'], " guess".toList) := by
  decide +kernel

end Rezip
