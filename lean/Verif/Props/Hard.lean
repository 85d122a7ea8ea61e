import Verif.Model.Hard
import Verif.Lemmas.Monad

/-!
# C106: the hard example
-/

namespace Rezip

namespace Hard

/-- The byte at a position of the endless text. -/
def textByte (draws : Nat → Nat) (i : Nat) : UInt8 :=
  if i % 8 = 7 then 10 else (33 + draws (7 * (i / 8) + i % 8) % 94).toUInt8

theorem choose_eq (d : Nat) : expect (choose chars d) = .ok (33 + d % 94).toUInt8 := by
  have hc : chars = (List.range 94).map fun i => (33 + i).toUInt8 := by decide +kernel
  have hl : chars.length = 94 := by rw [hc]; simp
  have : choose chars d = some (33 + d % 94).toUInt8 := by
    unfold choose
    rw [if_neg (by rw [hc]; decide), hl, hc, List.getElem?_map, List.getElem?_range (Nat.mod_lt _ (by omega))]
    rfl
  rw [this]
  rfl

theorem line_eq (draws : Nat → Nat) (j : Nat) :
    line draws (7 * j) = .ok ((List.range 8).map fun k => textByte draws (8 * j + k)) := by
  have e : ∀ k, k < 7 → textByte draws (8 * j + k) = (33 + draws (7 * j + k) % 94).toUInt8 := by
    intro k hk
    unfold textByte
    rw [if_neg (by omega), show (8 * j + k) / 8 = j by omega, show (8 * j + k) % 8 = k by omega]
  have e7 : textByte draws (8 * j + 7) = 10 := by
    unfold textByte
    rw [if_pos (by omega)]
  have hr : List.range 8 = [0, 1, 2, 3, 4, 5, 6, 7] := rfl
  rw [hr]
  simp only [List.map_cons, List.map_nil, e7, e 0 (by omega), e 1 (by omega), e 2 (by omega), e 3 (by omega),
    e 4 (by omega), e 5 (by omega), e 6 (by omega)]
  simp [line, fill, choose_eq, indexSet, List.replicate, bind, Except.bind]

theorem range_add_map {α : Type} (f : Nat → α) (n k : Nat) :
    (List.range (n + k)).map f = (List.range n).map f ++ (List.range k).map (fun i => f (n + i)) := by
  rw [List.range_add, List.map_append, List.map_map]
  rfl

theorem loop_vec (draws : Nat → Nat) (fuel j : Nat) (out : List UInt8) :
    loop draws fuel (7 * j) ⟨out, none⟩ = .error .diverge
      ⟨out ++ (List.range (8 * fuel)).map (fun i => textByte draws (8 * j + i)), none⟩ := by
  induction fuel generalizing j out with
  | zero => simp [loop, liftE]
  | succ fuel ih =>
    rw [loop, line_eq]
    rw [ES.liftE_bind_ok]
    rw [ES.bind_ok (s' := ⟨out ++ (List.range 8).map (fun k => textByte draws (8 * j + k)), none⟩) (a := ())
      (by simp [writeUnwrap, writeAll]),
      show 7 * j + 7 = 7 * (j + 1) by omega, ih, show 8 * (fuel + 1) = 8 + 8 * fuel by omega, range_add_map]
    simp only [List.append_assoc]
    congr 5
    funext i
    congr 1
    omega

theorem loop_room (draws : Nat → Nat) (fuel j r : Nat) (out : List UInt8) (h : r < 8 * fuel) :
    loop draws fuel (7 * j) ⟨out, some r⟩ = .error (.panic .unwrap)
      ⟨out ++ (List.range r).map (fun i => textByte draws (8 * j + i)), some 0⟩ := by
  induction fuel generalizing j out r with
  | zero => omega
  | succ fuel ih =>
    rw [loop, line_eq]
    rw [ES.liftE_bind_ok]
    by_cases hr : 8 ≤ r
    · rw [ES.bind_ok (s' := ⟨out ++ (List.range 8).map (fun k => textByte draws (8 * j + k)), some (r - 8)⟩) (a := ())
        (by simp [writeUnwrap, writeAll, hr]),
        show 7 * j + 7 = 7 * (j + 1) by omega, ih _ _ _ (by omega)]
      conv => rhs; rw [show r = 8 + (r - 8) by omega, range_add_map]
      simp only [List.append_assoc]
      congr 5
      funext i
      congr 1
      omega
    · rw [ES.bind_err (e := .panic .unwrap) (s' := ⟨out ++ (List.range r).map (fun i => textByte draws (8 * j + i)), some 0⟩)]
      simp only [writeUnwrap, writeAll, List.length_map, List.length_range, hr, if_false]
      rw [← List.map_take, List.take_range, Nat.min_eq_left (by omega)]

end Hard

/-- C106. Each byte of the text: a line is seven visible characters and a line end. -/
theorem C106_form (draws : Nat → Nat) (i : Nat) :
    (i % 8 = 7 → Hard.textByte draws i = 10) ∧
      (i % 8 ≠ 7 → 0x21 ≤ Hard.textByte draws i ∧ Hard.textByte draws i ≤ 0x7e) := by
  unfold Hard.textByte
  refine ⟨fun h => by rw [if_pos h], fun h => ?_⟩
  rw [if_neg h]
  generalize draws (7 * (i / 8) + i % 8) = d
  have := Nat.mod_lt d (show 94 > 0 by omega)
  generalize d % 94 = m at this
  rw [UInt8.le_iff_toNat_le, UInt8.le_iff_toNat_le]
  have : (33 + m).toUInt8.toNat = 33 + m := by
    show (33 + m) % 256 = _
    omega
  rw [this]
  refine ⟨?_, ?_⟩
  · show 33 ≤ _
    omega
  · show _ ≤ 126
    omega

/-- C106. Whatever is drawn, the example never ends by itself and never fails while its output is accepted: after
any number of lines they are all written, and it goes on. -/
theorem C106_endless (draws : Nat → Nat) (lines : Nat) (out : List UInt8) :
    Hard.main draws lines ⟨out, none⟩ =
      .error .diverge ⟨out ++ (List.range (8 * lines)).map (Hard.textByte draws), none⟩ := by
  have := Hard.loop_vec draws lines 0 out
  simpa [Hard.main] using this

/-- C106. An output that stops accepting data gets exactly as much of the same text as it takes, and then the
example panics. -/
theorem C106_full (draws : Nat → Nat) (lines room : Nat) (out : List UInt8) (h : room < 8 * lines) :
    Hard.main draws lines ⟨out, some room⟩ =
      .error (.panic .unwrap) ⟨out ++ (List.range room).map (Hard.textByte draws), some 0⟩ := by
  have := Hard.loop_room draws lines 0 room out h
  simpa [Hard.main] using this

/-- C106. Every text of this form can come up. -/
theorem C106_any (text : Nat → UInt8) (h10 : ∀ i, i % 8 = 7 → text i = 10)
    (hv : ∀ i, i % 8 ≠ 7 → 0x21 ≤ text i ∧ text i ≤ 0x7e) : ∃ draws, ∀ i, Hard.textByte draws i = text i := by
  refine ⟨fun n => (text (8 * (n / 7) + n % 7)).toNat - 33, fun i => ?_⟩
  unfold Hard.textByte
  split
  · rename_i h
    exact (h10 i h).symm
  · rename_i h
    obtain ⟨h1, h2⟩ := hv i h
    rw [UInt8.le_iff_toNat_le] at h1 h2
    have h1 : 33 ≤ (text i).toNat := h1
    have h2 : (text i).toNat ≤ 126 := h2
    dsimp only
    rw [show 8 * ((7 * (i / 8) + i % 8) / 7) + (7 * (i / 8) + i % 8) % 7 = i by omega]
    apply UInt8.toNat.inj
    show (33 + ((text i).toNat - 33) % 94) % 256 = _
    omega

/-- The first line and a half when the draws are 64, 65, 66, ... -/
example : Hard.main (fun n => 64 + n) 2 ⟨[], some 12⟩ =
    .error (.panic .unwrap) ⟨"abcdefg\nhijk".toList.map fun c => c.toNat.toUInt8, some 0⟩ := by
  decide +kernel

end Rezip
