import Verif.Props.Parse

/-!
# C21: exactly when draining the block iterator ends
-/

namespace Rezip

open Spec Parse Huffman

/-- The reader afterwards has what is left of the bits, whether the operation fails or not. -/
def Within {α : Type} (x : EStateM Fail BitReader α) : Prop :=
  ∀ r : BitReader, r.WF → match x r with
    | .ok _ r' => r'.WF ∧ r'.bits <:+ r.bits
    | .error _ r' => r'.WF ∧ r'.bits <:+ r.bits

namespace Within

variable {α β : Type}

theorem ok {x : EStateM Fail BitReader α} (h : Within x) {r r' : BitReader} {a : α} (hw : r.WF)
    (hx : x r = .ok a r') : r'.WF ∧ r'.bits <:+ r.bits := by
  have := h r hw
  rwa [hx] at this

theorem error {x : EStateM Fail BitReader α} (h : Within x) {r r' : BitReader} {e : Fail} (hw : r.WF)
    (hx : x r = .error e r') : r'.WF ∧ r'.bits <:+ r.bits := by
  have := h r hw
  rwa [hx] at this

theorem bind {x : EStateM Fail BitReader α} {f : α → EStateM Fail BitReader β} (hx : Within x)
    (hf : ∀ a, Within (f a)) : Within (x >>= f) := by
  intro r hw
  rw [ES.bind_apply]
  cases h : x r with
  | error e r' => exact hx.error hw h
  | ok a r' =>
    obtain ⟨w, s⟩ := hx.ok hw h
    dsimp only
    cases h2 : f a r' with
    | ok b r2 => exact ⟨((hf a).ok w h2).1, ((hf a).ok w h2).2.trans s⟩
    | error e r2 => exact ⟨((hf a).error w h2).1, ((hf a).error w h2).2.trans s⟩

theorem pure (a : α) : Within (Pure.pure a : EStateM Fail BitReader α) :=
  fun _ hw => ⟨hw, List.suffix_refl _⟩

theorem get : Within (MonadState.get : EStateM Fail BitReader BitReader) :=
  fun _ hw => ⟨hw, List.suffix_refl _⟩

theorem liftE (x : Except Fail α) : Within (Rezip.liftE x : EStateM Fail BitReader α) := by
  intro r hw
  cases x <;> exact ⟨hw, List.suffix_refl _⟩

theorem readBit : Within BitReader.readBit := by
  intro r hw
  cases hb : r.bits with
  | cons b bs =>
    obtain ⟨r', h1, h2, h3⟩ := BitReader.readBit_cons hw hb
    rw [h1]
    exact ⟨h2, by rw [h3]; exact List.suffix_cons _ _⟩
  | nil =>
    have hl := BitReader.bits_length hw
    rw [hb] at hl
    simp only [List.length_nil] at hl
    have h0 : r.remainingBits = 0 := by omega
    have hi : r.inner = [] := List.length_eq_zero_iff.1 (by omega)
    have : BitReader.readBit r = .error (.err .eof) { r with inner := [] } := by
      simp [BitReader.readBit, h0, hi, readExact]
    rw [this]
    refine ⟨hw, ?_⟩
    rw [show ({ r with inner := [] } : BitReader) = r by rw [← hi], hb]
    exact List.suffix_refl _

theorem run (p : BitProg α) : Within (BitReader.run p) := by
  induction p with
  | done a => exact fun _ hw => ⟨hw, List.suffix_refl _⟩
  | fail e => exact fun _ hw => ⟨hw, List.suffix_refl _⟩
  | bit k ih =>
    have : BitReader.run (.bit k) = BitReader.readBit >>= fun b => BitReader.run (k b) := by
      funext r
      rw [ES.bind_apply]
      simp only [BitReader.run]
      cases BitReader.readBit r <;> rfl
    rw [this]
    exact readBit.bind ih

theorem align : Within BitReader.align := by
  have : ∀ fuel, 1 ≤ fuel → Within (BitReader.alignLoop fuel) := by
    intro fuel
    induction fuel with
    | zero => intro h; omega
    | succ fuel ih =>
      intro _
      rw [BitReader.alignLoop]
      refine get.bind fun r => (liftE _).bind fun p => ?_
      split
      · refine readBit.bind fun b => (liftE _).bind fun _ => ?_
        cases fuel with
        | zero => exact fun _ hw => ⟨hw, List.suffix_refl _⟩
        | succ fuel => exact ih (by omega)
      · exact pure _
  exact this 9 (by omega)

theorem of_inner {r : BitReader} (h0 : r.remainingBits = 0) {rest : List UInt8} (h : rest <:+ r.inner) :
    ({ r with inner := rest } : BitReader).WF ∧ ({ r with inner := rest } : BitReader).bits <:+ r.bits := by
  refine ⟨by simp [BitReader.WF, h0], ?_⟩
  rw [BitReader.bits_aligned h0, BitReader.bits_aligned (r := { r with inner := rest }) h0]
  obtain ⟨p, hp⟩ := h
  rw [← hp, bytesBits_append]
  exact List.suffix_append _ _

theorem readLengthPrefixed {r : BitReader} (h0 : r.remainingBits = 0) :
    match BitReader.readLengthPrefixed r with
    | .ok _ r' => r'.WF ∧ r'.bits <:+ r.bits
    | .error _ r' => r'.WF ∧ r'.bits <:+ r.bits := by
  obtain ⟨h1, h2, h3, h4⟩ := BitReader.readLengthPrefixed_eq h0
  by_cases hl : r.inner.length < 4
  · rw [h4 hl]
    exact of_inner h0 List.nil_suffix
  · obtain ⟨l0, l1, n0, n1, rest, hi⟩ : ∃ l0 l1 n0 n1 rest, r.inner = l0 :: l1 :: n0 :: n1 :: rest := by
      match hr : r.inner with
      | l0 :: l1 :: n0 :: n1 :: rest => exact ⟨_, _, _, _, _, rfl⟩
      | [] | [_] | [_, _] | [_, _, _] => rw [hr] at hl; simp at hl
    have hs : rest <:+ r.inner := by rw [hi]; exact ⟨[l0, l1, n0, n1], rfl⟩
    by_cases hc : (l0.toNat + 256 * l1.toNat) ^^^ 0xFFFF = n0.toNat + 256 * n1.toNat
    · by_cases hn : l0.toNat + 256 * l1.toNat ≤ rest.length
      · rw [h1 _ _ _ _ _ hi hc hn]
        exact of_inner h0 ((List.drop_suffix _ _).trans hs)
      · rw [h2 _ _ _ _ _ hi hc (by omega)]
        exact of_inner h0 List.nil_suffix
    · rw [h3 _ _ _ _ _ hi hc]
      exact of_inner h0 hs

theorem stored : Within (do
    BitReader.align
    let data ← BitReader.readLengthPrefixed
    Pure.pure (Block.uncompressed data)) := by
  intro r hw
  cases ha : BitReader.align r with
  | error e r' =>
    rw [ES.bind_err ha]
    exact align.error hw ha
  | ok u r' =>
    obtain ⟨w, s⟩ := align.ok hw ha
    obtain ⟨_, h0, _⟩ := BitReader.align_ok_inv hw ha
    rw [ES.bind_ok ha]
    have := readLengthPrefixed h0
    cases hl : BitReader.readLengthPrefixed r' with
    | error e r2 =>
      rw [hl] at this
      rw [ES.bind_err hl]
      exact ⟨this.1, this.2.trans s⟩
    | ok d r2 =>
      rw [hl] at this
      rw [ES.bind_ok hl]
      exact ⟨this.1, this.2.trans s⟩

theorem scan (a : CodeTree) (b : Option CodeTree) : Within (scanHuffmanData a b) :=
  fun r hw => run _ r hw

theorem readBlock : Within Parse.readBlock := by
  unfold Parse.readBlock
  generalize Huffman.fixedLengthTree = ft
  generalize Huffman.fixedDistanceTree = fd
  refine (run _).bind fun kind => ?_
  split
  · exact stored
  · exact (liftE _).bind fun _ => (liftE _).bind fun _ => (scan _ _).bind fun _ => pure _
  · exact (run _).bind fun _ => (scan _ _).bind fun _ => pure _
  · exact liftE _
  · exact liftE _

end Within

/-- A call on an open iterator uses up at least one bit, or there is none left and it reports that. -/
theorem next_progress {it : BlockIter} (hw : it.inner.WF) (he : it.ended = false) :
    (it.inner.bits = [] ∧ it.next = (some (.error (.err .eof)), it)) ∨
      (it.next.2.inner.bits <:+ it.inner.bits ∧ it.next.2.inner.bits.length < it.inner.bits.length) := by
  cases hb : it.inner.bits with
  | nil =>
    refine .inl ⟨rfl, ?_⟩
    have hl := BitReader.bits_length hw
    rw [hb] at hl
    simp only [List.length_nil] at hl
    have h0 : it.inner.remainingBits = 0 := by omega
    have hi : it.inner.inner = [] := List.length_eq_zero_iff.1 (by omega)
    have hr : BitReader.readBit it.inner = .error (.err .eof) { it.inner with inner := [] } := by
      simp [BitReader.readBit, h0, hi, readExact]
    have hs : ({ it.inner with inner := [] } : BitReader) = it.inner := by rw [← hi]
    unfold BlockIter.next
    rw [if_neg (by simp [he]), hr]
    dsimp only
    rw [← hi]
  | cons b bs =>
    obtain ⟨r, h1, h2, h3⟩ := BitReader.readBit_cons hw hb
    refine .inr ?_
    have key : ∀ r' : BitReader, r'.bits <:+ r.bits → r'.bits <:+ b :: bs ∧ r'.bits.length < (b :: bs).length := by
      intro r' hs
      rw [h3] at hs
      refine ⟨hs.trans (List.suffix_cons _ _), ?_⟩
      have := hs.length_le
      rw [List.length_cons]; omega
    unfold BlockIter.next
    rw [if_neg (by simp [he]), h1]
    dsimp only
    cases hr : readBlock r with
    | ok x r' => exact key r' (Within.readBlock.ok h2 hr).2
    | error e r' => exact key r' (Within.readBlock.error h2 hr).2

/-- C21. For every input there are two cases. Either the end is reached, within eight calls per byte and seven
more, and stays; or from eight calls per byte on every call reports the end of the input as an error. -/
theorem C21_exact (bytes : List UInt8) :
    (∀ m, 8 * bytes.length + 7 ≤ m → item m (parseDeflate bytes) = none) ∨
      (∀ m, 8 * bytes.length ≤ m → item m (parseDeflate bytes) = some (.error (.err .eof))) := by
  have hall : ∀ n, (∃ k ≤ n, (after k (parseDeflate bytes)).ended = true) ∨
      ((after n (parseDeflate bytes)).ended = false ∧
        (after n (parseDeflate bytes)).inner.bits.length ≤ 8 * bytes.length - n) := by
    intro n
    induction n with
    | zero =>
      refine .inr ⟨rfl, ?_⟩
      show (BitReader.new bytes).bits.length ≤ _
      rw [BitReader.bits_new, bytesBits_length]
      omega
    | succ n ih =>
      rcases ih with ⟨k, hk, h⟩ | ⟨h1, h2⟩
      · exact .inl ⟨k, by omega, h⟩
      · cases he : (after (n + 1) (parseDeflate bytes)).ended with
        | true => exact .inl ⟨n + 1, Nat.le_refl _, he⟩
        | false =>
          refine .inr ⟨rfl, ?_⟩
          rw [after_succ]
          rcases next_progress (after_wf n (BitReader.wf_new bytes)) h1 with ⟨h3, h4⟩ | ⟨_, h3⟩
          · rw [h4]
            dsimp only
            rw [h3]
            exact Nat.zero_le _
          · omega
  by_cases hend : ∃ k ≤ 8 * bytes.length, (after k (parseDeflate bytes)).ended = true
  · obtain ⟨k, hk, he⟩ := hend
    obtain ⟨j, hj, h⟩ := C21_drain_ended_partial bytes k he
    exact .inl fun m hm => h m (by omega)
  · right
    have hb : ∀ m, 8 * bytes.length ≤ m → (after m (parseDeflate bytes)).ended = false ∧
        (after m (parseDeflate bytes)).inner.bits = [] := by
      intro m hm
      obtain ⟨d, rfl⟩ : ∃ d, m = 8 * bytes.length + d := ⟨m - 8 * bytes.length, by omega⟩
      clear hm
      induction d with
      | zero =>
        rcases hall (8 * bytes.length) with h | ⟨h1, h2⟩
        · exact absurd h hend
        · exact ⟨h1, List.length_eq_zero_iff.1 (by rw [Nat.add_zero]; omega)⟩
      | succ d ih =>
        rw [← Nat.add_assoc, after_succ]
        rcases next_progress (after_wf _ (BitReader.wf_new bytes)) ih.1 with ⟨_, h4⟩ | ⟨_, h3⟩
        · rw [h4]; exact ih
        · rw [ih.2] at h3; cases h3
    intro m hm
    obtain ⟨h1, h2⟩ := hb m hm
    rcases next_progress (after_wf m (BitReader.wf_new bytes)) h1 with ⟨_, h4⟩ | ⟨_, h3⟩
    · rw [item, h4]
    · rw [h2] at h3; cases h3

/-- C21, exactly: whether there is something after a block depends on the flag before it only, also if the block
cannot be read. If it is set, no call but the next seven yields anything, if not, the next call does. -/
theorem C21_flag (bytes : List UInt8) (n : Nat) (hn : (after n (parseDeflate bytes)).ended = false)
    (f : Bool) (rest : List Bool) (hb : (after n (parseDeflate bytes)).inner.bits = f :: rest) :
    (f = true → ∀ m, n + 8 ≤ m → item m (parseDeflate bytes) = none) ∧
    (f = false → item (n + 1) (parseDeflate bytes) ≠ none) := by
  have hw := after_wf n (it := parseDeflate bytes) (BitReader.wf_new bytes)
  have hend : (after (n + 1) (parseDeflate bytes)).ended = f := by
    rw [after_succ]
    unfold BlockIter.next
    obtain ⟨r, h1, h2, h3⟩ := BitReader.readBit_cons hw hb
    rw [hn, if_neg Bool.false_ne_true, h1]
    dsimp only
    split <;> rfl
  constructor
  · rintro rfl m hm
    obtain ⟨k, hk, hk2⟩ := C21_drain_ended_partial bytes (n + 1) hend
    exact hk2 m (by omega)
  · rintro rfl h
    have hw1 := after_wf (n + 1) (it := parseDeflate bytes) (BitReader.wf_new bytes)
    rw [item] at h
    rcases next_open hw1 hend (off := (8 - (after (n + 1) (parseDeflate bytes)).inner.bits.length % 8)) (by omega) with
      ⟨_, _, _, r, h1, _⟩ | ⟨_, r, _, h1, _⟩ <;> rw [h1] at h <;> cases h

/-- A reserved block without and with the flag, then an empty fixed block. -/
example : (after 0 (parseDeflate [0x1e, 0x00])).inner.bits = false :: (bytesBits [0x1e, 0x00]).drop 1 ∧
    item 0 (parseDeflate [0x1e, 0x00]) = some (.error (.err .reservedBlock)) ∧
    item 1 (parseDeflate [0x1e, 0x00]) = some (.ok (.fixedHuffman [])) ∧
    item 0 (parseDeflate [0x1f, 0x00]) = some (.error (.err .reservedBlock)) ∧
    item 8 (parseDeflate [0x1f, 0x00]) = none := by decide +kernel

/-- Both cases happen; the second one also for input that is not cut short. -/
example : item 100 (parseDeflate exampleStream) = none ∧
    item 40 (parseDeflate [0x06, 0x00]) = some (.error (.err .eof)) ∧
    item 0 (parseDeflate [0x06, 0x00]) = some (.error (.err .reservedBlock)) := by decide +kernel

end Rezip
