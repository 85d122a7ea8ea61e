import Verif.Props.Circles

/-!
# C114: circular buffers outside the documented range
-/

namespace Rezip

open CircularBuffer DecState Serialise

/-- The bytes in the buffer do not depend on how many of them are valid. -/
theorem foldl_pushP_data (h : List UInt8) (b b' : CircularBuffer) (e1 : b.data = b'.data) (e2 : b.idx = b'.idx) :
    (h.foldl pushP b).data = (h.foldl pushP b').data ∧ (h.foldl pushP b).idx = (h.foldl pushP b').idx := by
  induction h generalizing b b' with
  | nil => exact ⟨e1, e2⟩
  | cons x h ih => exact ih _ _ (by simp only [pushP, e1, e2]) (by simp only [pushP, e1, e2])

theorem pushZeros_data (W n : Nat) : (ofHist W (List.replicate n 0)).data = List.replicate W 0 := by
  induction n with
  | zero => rfl
  | succ n ih =>
    rw [List.replicate_succ', ofHist_snoc, pushP, ih]
    simp only [List.set_replicate_self]

theorem ofHist_zeros {W : Nat} (hW : 0 < W) (h : List UInt8) :
    (ofHist W h).data = (ofHist W (List.replicate W 0 ++ h)).data ∧
      (ofHist W h).idx = (ofHist W (List.replicate W 0 ++ h)).idx := by
  have e : ofHist W (List.replicate W 0 ++ h) = h.foldl pushP (ofHist W (List.replicate W 0)) := by
    unfold ofHist
    rw [List.foldl_append]
  rw [e]
  refine foldl_pushP_data h _ _ (pushZeros_data W W).symm ?_
  rw [(ofHist_spec hW _).2.1, List.length_replicate, Nat.mod_self]

theorem release_ofHist {W : Nat} (hW : 0 < W) (h : List UInt8) (d : Nat) :
    (ofHist W h).getAtDist .release d =
      if d ≤ W + h.length % W then index (ofHist W h).data
        (if d ≤ h.length % W then h.length % W - d else W + h.length % W - d)
      else .error (.panic .index) := by
  obtain ⟨e1, e2, _, _⟩ := ofHist_spec hW h
  have hlt : h.length % W < W := Nat.mod_lt _ hW
  unfold getAtDist
  show (if _ then _ else _ : Except Fail UInt8) = _
  rw [if_neg (c := Profile.release = .dev) (by decide)]
  dsimp only
  rw [e1, e2]
  by_cases h1 : d ≤ h.length % W
  · rw [if_pos (c := ((h.length % W : Nat) : Int) - d ≥ 0) (by omega), if_neg (by omega), if_pos (by omega),
      if_pos h1]
    congr 1
    omega
  · rw [if_neg (c := ((h.length % W : Nat) : Int) - d ≥ 0) (by omega), if_neg h1]
    by_cases h2 : d ≤ W + h.length % W
    · rw [if_neg (by omega), if_pos h2]
      congr 1
      omega
    · rw [if_pos (by omega), if_neg h2]

/-- The byte at distance `d`, counting the zeros that a new buffer has. -/
theorem release_at {W : Nat} (hW : 0 < W) (h : List UInt8) {d e : Nat} (h1 : 1 ≤ d) (h2 : d ≤ W)
    (he : e = d ∨ (e = 0 ∧ d = W) ∨ (e = d + W ∧ d ≤ h.length % W)) :
    ∃ x, (ofHist W h).getAtDist .release e = .ok x ∧ (List.replicate W 0 ++ h).reverse[d - 1]? = some x := by
  obtain ⟨z1, z2⟩ := ofHist_zeros hW h
  obtain ⟨e1, e2, e3, e4⟩ := ofHist_spec hW (List.replicate W 0 ++ h)
  have hl : (List.replicate W (0 : UInt8) ++ h).length = W + h.length := by simp
  have hlt : h.length % W < W := Nat.mod_lt _ hW
  have k := e4 (W + h.length - d) (by omega) (by omega)
  have hm : (W + h.length - d) % W = if d ≤ h.length % W then h.length % W - d else W + h.length % W - d := by
    have hdm := Nat.div_add_mod h.length W
    split
    · rw [show W + h.length - d = h.length % W - d + W * (h.length / W + 1) by rw [Nat.mul_add]; omega,
        Nat.add_mul_mod_self_left, Nat.mod_eq_of_lt (by omega)]
    · rw [show W + h.length - d = W + h.length % W - d + W * (h.length / W) by omega, Nat.add_mul_mod_self_left]
      exact Nat.mod_eq_of_lt (by omega)
  rw [hm] at k
  refine ⟨(List.replicate W 0 ++ h)[W + h.length - d]'(by omega), ?_, ?_⟩
  · rw [release_ofHist hW, if_pos (by omega), z1]
    unfold index
    have : (if e ≤ h.length % W then h.length % W - e else W + h.length % W - e) =
        (if d ≤ h.length % W then h.length % W - d else W + h.length % W - d) := by
      split <;> split <;> omega
    rw [this, k, List.getElem?_eq_getElem (by omega)]
  · rw [List.getElem?_reverse (by omega), show (List.replicate W (0 : UInt8) ++ h).length - 1 - (d - 1) =
      W + h.length - d by omega, List.getElem?_eq_getElem (by omega)]

/-- C114: what `get_at_dist` gives in a release build, for any distance: the buffer is as if it had been filled with
zeros at first. Distance zero is the oldest byte that the buffer holds; a distance beyond the capacity wraps around
once if the write position allows it, and panics otherwise. It never reads anything else. -/
theorem C114_release (cap : UInt16) (hc : 0 < cap.toNat) (h : List UInt8) :
    ∃ b, bufferAfter cap h = .ok b ∧
      let recent := (List.replicate cap.toNat 0 ++ h).reverse
      (∀ d, 1 ≤ d → d ≤ cap.toNat → ∃ x, b.getAtDist .release d = .ok x ∧ recent[d - 1]? = some x) ∧
      (∃ x, b.getAtDist .release 0 = .ok x ∧ recent[cap.toNat - 1]? = some x) ∧
      (∀ d, 1 ≤ d → d ≤ h.length % cap.toNat →
        ∃ x, b.getAtDist .release (cap.toNat + d) = .ok x ∧ recent[d - 1]? = some x) ∧
      (∀ d, h.length % cap.toNat < d → b.getAtDist .release (cap.toNat + d) = .error (.panic .index)) := by
  have hlt : h.length % cap.toNat < cap.toNat := Nat.mod_lt _ hc
  refine ⟨_, bufferAfter_eq hc h, fun d h1 h2 => release_at hc h h1 h2 (.inl rfl),
    release_at hc h hc (Nat.le_refl _) (.inr (.inl ⟨rfl, rfl⟩)),
    fun d h1 h2 => release_at hc h h1 (by omega) (.inr (.inr ⟨by omega, h2⟩)), fun d hd => ?_⟩
  rw [release_ofHist hc, if_neg (by omega)]

/-- Three bytes in a buffer of two, and one in a buffer of three. -/
example : (bufferAfter 2 [7, 8, 9]).bind (fun b => b.getAtDist .release 0) = .ok 8 ∧
    (bufferAfter 2 [7, 8, 9]).bind (fun b => b.getAtDist .release 3) = .ok 9 ∧
    (bufferAfter 2 [7, 8, 9]).bind (fun b => b.getAtDist .release 4) = .error (.panic .index) ∧
    (bufferAfter 3 [7]).bind (fun b => b.getAtDist .release 3) = .ok 0 ∧
    (bufferAfter 3 [7]).bind (fun b => b.getAtDist .release 0) = .ok 0 := by decide +kernel

/-- C114: a buffer made by `Default` has no room: it is empty and stays so, since every byte put into it panics and
every copy is refused without output. -/
theorem C114_default (p : Profile) (into : Sink) :
    CircularBuffer.default.capacity = 0 ∧ CircularBuffer.default.len = 0 ∧ CircularBuffer.default.vec p = .ok [] ∧
      (∀ x, CircularBuffer.default.push x = .error (.panic .index)) ∧
      (∀ d, ∃ k, CircularBuffer.default.getAtDist p d = .error (.panic k)) ∧
      (∀ d n, copy d n ⟨CircularBuffer.default, into⟩ = .error (.err .distMustFit) ⟨CircularBuffer.default, into⟩) ∧
      (∀ blk, decompressedBlock blk ⟨CircularBuffer.default, into⟩ =
        match blk with
        | .uncompressed (_ :: _) | .fixedHuffman (.literal _ :: _) | .dynamicHuffman _ (.literal _ :: _) =>
          .error (.panic .index) ⟨CircularBuffer.default, into⟩
        | .fixedHuffman (.reference _ :: _) | .dynamicHuffman _ (.reference _ :: _) =>
          .error (.err .distMustFit) ⟨CircularBuffer.default, into⟩
        | .uncompressed [] | .fixedHuffman [] | .dynamicHuffman _ [] =>
          .ok () ⟨CircularBuffer.default, into⟩) := by
  have hcopy : ∀ d n, copy d n ⟨CircularBuffer.default, into⟩ =
      .error (.err .distMustFit) ⟨CircularBuffer.default, into⟩ := by
    intro d n
    have : (decide (d > 0) && decide (d ≤ 0)) = false := by
      cases d <;> simp
    unfold copy
    refine (ES.bind_ok (x := get) rfl).trans ?_
    have e : ensure (decide (d > 0) && decide (d ≤ 0)) .distMustFit = .error (.err .distMustFit) := by rw [this]; rfl
    show (liftE (ensure (decide (d > 0) && decide (d ≤ 0)) .distMustFit) >>= _ : EStateM Fail DecState Unit) _ = _
    rw [e]
    exact ES.liftE_bind_error ..
  refine ⟨rfl, rfl, by cases p <;> rfl, fun _ => rfl, fun d => ?_, hcopy, fun blk => ?_⟩
  · cases p with
    | dev =>
      cases d with
      | zero => exact ⟨_, rfl⟩
      | succ d => exact ⟨_, rfl⟩
    | release =>
      refine ⟨.index, ?_⟩
      unfold getAtDist
      show (if _ then _ else _ : Except Fail UInt8) = _
      rw [if_neg (c := Profile.release = .dev) (by decide)]
      dsimp only [CircularBuffer.default, List.length_nil]
      split <;> split <;> rfl
  · have hcodes : ∀ codes, decompressedCodes codes ⟨CircularBuffer.default, into⟩ =
        match codes with
        | .literal _ :: _ => .error (.panic .index) ⟨CircularBuffer.default, into⟩
        | .reference _ :: _ => .error (.err .distMustFit) ⟨CircularBuffer.default, into⟩
        | [] => .ok () ⟨CircularBuffer.default, into⟩ := by
      intro codes
      match codes with
      | [] => rfl
      | .literal x :: cs => rfl
      | .reference r :: cs => exact ES.bind_err (hcopy _ _)
    match blk with
    | .uncompressed [] =>
      obtain ⟨out, room⟩ := into
      have h0 : ∀ d : CircularBuffer, DecState.write [] ⟨d, ⟨out, room⟩⟩ = .ok () ⟨d, ⟨out, room⟩⟩ := by
        intro d
        cases room with
        | none => simp [DecState.write, writeAll]
        | some r => simp [DecState.write, writeAll]
      exact h0 _
    | .uncompressed (x :: xs) => rfl
    | .fixedHuffman [] => rfl
    | .fixedHuffman (.literal x :: cs) => rfl
    | .fixedHuffman (.reference r :: cs) => exact hcodes _
    | .dynamicHuffman t [] => rfl
    | .dynamicHuffman t (.literal x :: cs) => rfl
    | .dynamicHuffman t (.reference r :: cs) => exact hcodes _

/-- A literal and a reference on such a buffer. -/
example : decompressedBlock (.fixedHuffman [.literal 65]) ⟨CircularBuffer.default, Sink.vec⟩ =
      .error (.panic .index) ⟨CircularBuffer.default, Sink.vec⟩ ∧
    decompressedBlock (.fixedHuffman [.reference ⟨1, 0⟩, .literal 65]) ⟨CircularBuffer.default, Sink.vec⟩ =
      .error (.err .distMustFit) ⟨CircularBuffer.default, Sink.vec⟩ :=
  ⟨(C114_default .dev Sink.vec).2.2.2.2.2.2 _, (C114_default .dev Sink.vec).2.2.2.2.2.2 _⟩

/-- C114: a capacity of zero is refused. -/
theorem C114_zero : withCapacity 0 = .error (.panic .assertion) := withCapacity_zero

end Rezip
