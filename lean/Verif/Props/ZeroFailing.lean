import Verif.Lemmas.ZeroFailing
import Verif.Props.Zero

/-!
# C60: the first chunk of a source that fails
-/

namespace Rezip

open Spec

/-- C60: what a failing source gives. If the bytes before the error have a complete chunk, that is returned and the
error is left in the source; otherwise the error is returned. -/
theorem C60_failing (d : List UInt8) (e : Fail) (rest : Zero.Source) :
    (∃ L, FirstChunk d L ∧ (L = 65536 ∨ Boundary d L) ∧
      Zero.takeRsync (d.map .ok ++ .error e :: rest) = .ok (d.take L) ((d.drop L).map .ok ++ .error e :: rest)) ∨
    (d.length < 65536 ∧ (∀ L, L ≤ d.length → ¬ Boundary d L) ∧
      Zero.takeRsync (d.map .ok ++ .error e :: rest) = .error e rest) := by
  have hb : ∀ M, M ≤ d.length → (Boundary (d ++ [0]) M ↔ Boundary d M) := by
    intro M hM
    unfold Boundary windowSum
    rw [List.take_append_of_le_length hM]
  obtain ⟨L, hL, hr⟩ := C60_first_chunk (d ++ [0])
  obtain ⟨l1, l2, l3, l4⟩ := hL
  rw [List.length_append, List.length_singleton] at l1 l3
  rcases Zero.take_enough d with ⟨k, out, h1, h2⟩ | ⟨h1, h2⟩
  · left
    have h3 := h2 [.ok 0]
    have h4 : Zero.source d ++ [.ok 0] = (d ++ [0]).map .ok := by simp [Zero.source]
    rw [h4, hr] at h3
    injection h3 with h5 h6
    have h7 := congrArg List.length h6
    simp only [Zero.source, List.length_map, List.length_drop, List.length_append, List.length_singleton] at h7
    have hk : L = k := by omega
    subst hk
    rw [List.take_append_of_le_length h1] at h5
    subst h5
    refine ⟨L, ⟨h1, l2, ?_, fun L' hL' hb' => l4 L' hL' ((hb L' (by omega)).2 hb')⟩, ?_, h2 _⟩
    · rcases l3 with l3 | l3 | l3
      · omega
      · exact .inr (.inl l3)
      · exact .inr (.inr ((hb L h1).1 l3))
    · rcases l3 with l3 | l3 | l3
      · omega
      · exact .inl l3
      · exact .inr ((hb L h1).1 l3)
  · right
    obtain ⟨out, h3⟩ := h2 0
    have h4 : Zero.source (d ++ [0]) = (d ++ [0]).map .ok := rfl
    rw [h4, hr] at h3
    injection h3 with h5 h6
    have h7 := congrArg List.length h6
    simp only [List.length_map, List.length_drop, List.length_append, List.length_singleton, List.length_nil] at h7
    exact ⟨by omega, fun M hM hbM => l4 M (by omega) ((hb M hM).2 hbM), h1 e rest⟩

example (e : Fail) (rest : Zero.Source) :
    Zero.takeRsync ([1, 2, 3].map .ok ++ .error e :: rest) = .error e rest ∧
    Zero.takeRsync ((List.replicate 8192 0).map .ok ++ .error e :: rest) =
      .ok (List.replicate 8192 0) (.error e :: rest) := by
  constructor
  · rcases C60_failing [1, 2, 3] e rest with ⟨L, h, h', _⟩ | ⟨_, _, h⟩
    · have := h.1
      rcases h' with h' | h'
      · rw [List.length_cons, List.length_cons, List.length_cons, List.length_nil] at this; omega
      · have h1 := h'.1
        have h2 : ([1, 2, 3] : List UInt8).length = 3 := rfl
        omega
    · exact h
  · have hb : Boundary (List.replicate 8192 0) 8192 := by
      refine ⟨Nat.le_refl _, ?_⟩
      rw [windowSum, Nat.sub_self, List.drop_zero, List.take_replicate, List.map_replicate, Nat.min_self,
        List.sum_replicate_nat]
      rfl
    rcases C60_failing (List.replicate 8192 0) e rest with ⟨L, h, h', h''⟩ | ⟨_, h, _⟩
    · have hL : L = 8192 := by
        have h1 := h.1
        rw [List.length_replicate] at h1
        rcases h' with h' | h'
        · omega
        · have := h'.1; omega
      subst hL
      rw [List.take_replicate, Nat.min_self, List.drop_replicate, Nat.sub_self] at h''
      exact h''
    · exact absurd hb (h 8192 (by rw [List.length_replicate]; exact Nat.le_refl _))

end Rezip
