import Verif.Props.Sticky
import Verif.Props.Dump

/-!
# C76: the text of a bit vector after any pushes and pops
-/

namespace Rezip

open Spec

/-- C76. A bit vector shows its length and the bits it holds, whatever has been pushed and popped; so two vectors show
the same exactly if they hold the same bits, also if they do not compare equal (`C72_exact`). -/
theorem C76_popped (ops ops' : List VecOp) :
    ∃ r v r' v' bits bits', runVec ops BitVector.new = .ok (r, v) ∧ runVec ops' BitVector.new = .ok (r', v') ∧
      v.toBits = .ok bits ∧ v'.toBits = .ok bits' ∧
      Render.bitVec v = .ok s!"BitVec: {bits.length}: {bitText bits}".toList ∧
      (Render.bitVec v = Render.bitVec v' ↔ bits = bits') := by
  obtain ⟨v, h1, h2, h3⟩ := C04_exact ops
  obtain ⟨v', h1', h2', h3'⟩ := C04_exact ops'
  refine ⟨_, v, _, v', _, _, h1, h1', h2, h2', ?_, ?_⟩
  · rw [Render.bitVec, h2, Ex.ok_bind, h3]
    simp [bitText, Render.decimal, Render.toString_str, pure, Except.pure]
  · rw [Render.bitVec, Render.bitVec, h2, h2', Ex.ok_bind, Ex.ok_bind, h3, h3']
    constructor
    · intro h
      have h4 := Except.ok.inj h
      simp only [List.append_assoc] at h4
      obtain ⟨_, h5⟩ := Render.cut_decimal (by decide) (List.append_cancel_left h4)
      have h6 : ∀ a b : List Bool, a.map (fun b => if b then '1' else '0') = b.map (fun b => if b then '1' else '0') →
          a = b := by
        intro a b hab
        refine List.map_inj_right (f := fun b => if b then '1' else '0') ?_ |>.1 hab
        decide
      exact h6 _ _ (by simpa using h5)
    · intro h
      rw [h]
/-- Two vectors that hold the bit 0, one of them with a bit left behind. They do not compare equal, but show the same. -/
example : ∃ r v r' v', runVec [.push false, .push true, .pop] BitVector.new = .ok (r, v) ∧
    runVec [.push false] BitVector.new = .ok (r', v') ∧ v ≠ v' ∧ Render.bitVec v = Render.bitVec v' ∧
    Render.bitVec v = .ok "BitVec: 1: 0".toList :=
  ⟨_, _, _, _, rfl, rfl, by decide +kernel, by decide +kernel, by decide +kernel⟩

end Rezip
