import Verif.Lemmas.BitProg

/-! A `BitReader` is a list of bits; its alignment is the number of bits left modulo eight. -/

namespace Rezip

open Spec

namespace BitReader

theorem wf_new (bytes : List UInt8) : (BitReader.new bytes).WF := Nat.zero_le _

theorem bits_new (bytes : List UInt8) : (BitReader.new bytes).bits = bytesBits bytes := by
  simp [bits, BitReader.new, List.drop_of_length_le]

theorem bits_length {r : BitReader} (h : r.WF) :
    r.bits.length = r.remainingBits + 8 * r.inner.length := by
  have : r.remainingBits ≤ 7 := h
  simp [bits]; omega

theorem remaining_eq {r : BitReader} (h : r.WF) : r.remainingBits = r.bits.length % 8 := by
  have : r.remainingBits ≤ 7 := h
  rw [bits_length h]; omega

theorem bits_aligned {r : BitReader} (h0 : r.remainingBits = 0) : r.bits = bytesBits r.inner := by
  simp [bits, h0, List.drop_of_length_le]

theorem drop_byteBits (w : UInt8) {k : Nat} (h : k ≤ 7) :
    (byteBits w).drop (8 - (k + 1)) =
      (1 == ((w >>> (7 - k).toUInt8) &&& 1)) :: (byteBits w).drop (8 - k) := by
  have : ∀ w : Fin 256, ∀ k : Fin 8,
      (byteBits (UInt8.ofNat w.val)).drop (8 - (k.val + 1)) =
        (1 == (((UInt8.ofNat w.val) >>> (7 - k.val).toUInt8) &&& 1)) ::
          (byteBits (UInt8.ofNat w.val)).drop (8 - k.val) := by decide +kernel
  have h1 := this ⟨w.toNat, w.toNat_lt⟩ ⟨k, by omega⟩
  simpa using h1

theorem readBit_cons {r : BitReader} (h : r.WF) {b : Bool} {bs : List Bool}
    (hb : r.bits = b :: bs) : ∃ r', readBit r = .ok b r' ∧ r'.WF ∧ r'.bits = bs := by
  have hw : r.remainingBits ≤ 7 := h
  by_cases h0 : r.remainingBits = 0
  · rw [bits_aligned h0] at hb
    cases hi : r.inner with
    | nil => rw [hi] at hb; simp at hb
    | cons x xs =>
      rw [hi, bytesBits_cons] at hb
      have hx := drop_byteBits x (k := 7) (by omega)
      simp only [Nat.reduceAdd, Nat.sub_self, List.drop_zero] at hx
      refine ⟨{ inner := xs, current := x, remainingBits := 7 }, ?_, ?_, ?_⟩
      · simp only [readBit, h0, hi, readExact]
        rw [hx] at hb
        simp only [List.cons_append, List.cons.injEq] at hb
        simp [← hb.1]
      · simp [WF]
      · rw [hx] at hb
        simp only [List.cons_append, List.cons.injEq] at hb
        simpa [bits] using hb.2
  · obtain ⟨k, hk⟩ : ∃ k, r.remainingBits = k + 1 := ⟨r.remainingBits - 1, by omega⟩
    have hx := drop_byteBits r.current (k := k) (by omega)
    rw [bits, hk, hx] at hb
    simp only [List.cons_append, List.cons.injEq] at hb
    refine ⟨{ r with remainingBits := k }, ?_, ?_, ?_⟩
    · simp only [readBit, hk]
      simp [← hb.1]
    · simp only [WF]; omega
    · simpa [bits] using hb.2

theorem readBit_nil {r : BitReader} (h : r.WF) (hb : r.bits = []) :
    ∃ r', readBit r = .error (.err .eof) r' ∧ r'.WF := by
  have hl := bits_length h
  rw [hb] at hl
  simp only [List.length_nil] at hl
  have h0 : r.remainingBits = 0 := by omega
  have hi : r.inner = [] := List.length_eq_zero_iff.1 (by omega)
  refine ⟨{ r with inner := [] }, ?_, ?_⟩
  · simp [readBit, h0, hi, readExact]
  · exact h

variable {α : Type}

theorem run_ok {p : BitProg α} {r : BitReader} (h : r.WF) {a : α} {rest : List Bool}
    (he : p.exec r.bits = .ok a rest) :
    ∃ r', run p r = .ok a r' ∧ r'.WF ∧ r'.bits = rest := by
  induction p generalizing r with
  | done x =>
    simp only [BitProg.exec_done, ExecRes.ok.injEq] at he
    exact ⟨r, by simp [run, he.1], h, he.2⟩
  | fail e => simp at he
  | bit k ih =>
    cases hb : r.bits with
    | nil => rw [hb] at he; simp at he
    | cons b bs =>
      obtain ⟨r', h1, h2, h3⟩ := readBit_cons h hb
      rw [hb, BitProg.exec_bit_cons, ← h3] at he
      obtain ⟨r'', h4, h5, h6⟩ := ih b h2 he
      exact ⟨r'', by simp only [run, h1, h4], h5, h6⟩

theorem run_fail {p : BitProg α} {r : BitReader} (h : r.WF) {e : Fail}
    (he : p.exec r.bits = .fail e) : ∃ r', run p r = .error e r' ∧ r'.WF := by
  induction p generalizing r with
  | done x => simp at he
  | fail e' =>
    simp only [BitProg.exec_fail, ExecRes.fail.injEq] at he
    exact ⟨r, by simp [run, he], h⟩
  | bit k ih =>
    cases hb : r.bits with
    | nil => rw [hb] at he; simp at he
    | cons b bs =>
      obtain ⟨r', h1, h2, h3⟩ := readBit_cons h hb
      rw [hb, BitProg.exec_bit_cons, ← h3] at he
      obtain ⟨r'', h4, h5⟩ := ih b h2 he
      exact ⟨r'', by simp only [run, h1, h4], h5⟩

theorem run_starved {p : BitProg α} {r : BitReader} (h : r.WF)
    (he : p.exec r.bits = .starved) : ∃ r', run p r = .error (.err .eof) r' ∧ r'.WF := by
  induction p generalizing r with
  | done x => simp at he
  | fail e' => simp at he
  | bit k ih =>
    cases hb : r.bits with
    | nil =>
      obtain ⟨r', h1, h2⟩ := readBit_nil h hb
      exact ⟨r', by simp only [run, h1], h2⟩
    | cons b bs =>
      obtain ⟨r', h1, h2, h3⟩ := readBit_cons h hb
      rw [hb, BitProg.exec_bit_cons, ← h3] at he
      obtain ⟨r'', h4, h5⟩ := ih b h2 he
      exact ⟨r'', by simp only [run, h1, h4], h5⟩

/-- Inversion: what a successful run says about the bits. -/
theorem exec_of_run_ok {p : BitProg α} {r r' : BitReader} (h : r.WF) {a : α}
    (hr : run p r = .ok a r') : p.exec r.bits = .ok a r'.bits ∧ r'.WF := by
  cases he : p.exec r.bits with
  | ok x rest =>
    obtain ⟨r'', h1, h2, h3⟩ := run_ok h he
    rw [h1] at hr
    simp only [EStateM.Result.ok.injEq] at hr
    obtain ⟨rfl, rfl⟩ := hr
    exact ⟨by rw [h3], h2⟩
  | fail e => obtain ⟨r'', h1, _⟩ := run_fail h he; rw [h1] at hr; cases hr
  | starved => obtain ⟨r'', h1, _⟩ := run_starved h he; rw [h1] at hr; cases hr

theorem exec_of_run_error {p : BitProg α} {r r' : BitReader} (h : r.WF) {e : Fail}
    (hr : run p r = .error e r') :
    (p.exec r.bits = .fail e ∨ (p.exec r.bits = .starved ∧ e = .err .eof)) ∧ r'.WF := by
  cases he : p.exec r.bits with
  | ok x rest =>
    obtain ⟨r'', h1, h2, h3⟩ := run_ok h he
    rw [h1] at hr; cases hr
  | fail e' =>
    obtain ⟨r'', h1, h2⟩ := run_fail h he
    rw [h1] at hr
    simp only [EStateM.Result.error.injEq] at hr
    obtain ⟨rfl, rfl⟩ := hr
    exact ⟨.inl rfl, h2⟩
  | starved =>
    obtain ⟨r'', h1, h2⟩ := run_starved h he
    rw [h1] at hr
    simp only [EStateM.Result.error.injEq] at hr
    obtain ⟨rfl, rfl⟩ := hr
    exact ⟨.inr ⟨rfl, rfl⟩, h2⟩

/-! ### Alignment -/

theorem position_eq {r : BitReader} (h : r.WF) :
    r.position = .ok ((8 - r.remainingBits) % 8) := by
  have hw : r.remainingBits ≤ 7 := h
  simp [position, assert_of (decide_eq_true hw)]

theorem alignLoop_spec (fuel : Nat) {r : BitReader} (h : r.WF) (hf : r.remainingBits < fuel) :
    ((∀ b ∈ r.bits.take r.remainingBits, b = false) →
      ∃ r', alignLoop fuel r = .ok () r' ∧ r'.remainingBits = 0 ∧
        r'.bits = r.bits.drop r.remainingBits) ∧
    ((¬ ∀ b ∈ r.bits.take r.remainingBits, b = false) →
      ∃ r', alignLoop fuel r = .error (.err .padding) r' ∧ r'.WF ∧
        r'.remainingBits < r.remainingBits) := by
  induction fuel generalizing r with
  | zero => omega
  | succ fuel ih =>
    have hw : r.remainingBits ≤ 7 := h
    by_cases h0 : r.remainingBits = 0
    · refine ⟨fun _ => ⟨r, ?_, h0, by simp [h0]⟩, fun hn => ?_⟩
      · simp [alignLoop, position_eq h, h0]
      · simp [h0] at hn
    · have hlen := bits_length h
      cases hb : r.bits with
      | nil => rw [hb] at hlen; simp at hlen; omega
      | cons b bs =>
        obtain ⟨r', h1, h2, h3⟩ := readBit_cons h hb
        have hlen' := bits_length h2
        have hw' : r'.remainingBits ≤ 7 := h2
        rw [hb] at hlen
        rw [h3] at hlen'
        simp only [List.length_cons] at hlen
        have hrem : r.remainingBits = r'.remainingBits + 1 := by omega
        have hpos : ((8 - r.remainingBits) % 8 != 0) = true := by simp; omega
        have hunf : alignLoop (fuel + 1) r =
            (do liftE (ensure (!b) .padding); alignLoop fuel) r' := by
          simp only [alignLoop, ES.get_bind, position_eq h, ES.liftE_bind_ok, hpos, ↓reduceIte]
          exact ES.bind_ok h1
        obtain ⟨ih1, ih2⟩ := ih h2 (by omega)
        rw [hrem]
        cases b with
        | true =>
          refine ⟨fun hall => ?_, fun _ => ⟨r', ?_, h2, by omega⟩⟩
          · simp at hall
          · rw [hunf]; simp
        | false =>
          rw [h3] at ih1 ih2
          refine ⟨fun hall => ?_, fun hn => ?_⟩
          · obtain ⟨r'', h4, h5, h6⟩ := ih1 (by
              intro b hb'
              exact hall b (by rw [List.take_succ_cons]; exact List.mem_cons_of_mem _ hb'))
            exact ⟨r'', by rw [hunf]; simpa using h4, h5, by simpa using h6⟩
          · obtain ⟨r'', h4, h5, h6⟩ := ih2 (by
              intro hall
              apply hn
              intro b hb'
              rw [List.take_succ_cons, List.mem_cons] at hb'
              rcases hb' with rfl | hb'
              · rfl
              · exact hall b hb')
            exact ⟨r'', by rw [hunf]; simpa using h4, h5, by omega⟩

theorem align_ok {r : BitReader} (h : r.WF)
    (hz : ∀ b ∈ r.bits.take (r.bits.length % 8), b = false) :
    ∃ r', align r = .ok () r' ∧ r'.remainingBits = 0 ∧
      r'.bits = r.bits.drop (r.bits.length % 8) := by
  have hw : r.remainingBits ≤ 7 := h
  rw [← remaining_eq h] at hz ⊢
  exact (alignLoop_spec 9 h (by omega)).1 hz

theorem align_err_lt {r : BitReader} (h : r.WF)
    (hz : ¬ ∀ b ∈ r.bits.take (r.bits.length % 8), b = false) :
    ∃ r', align r = .error (.err .padding) r' ∧ r'.WF ∧ r'.remainingBits < r.remainingBits := by
  have hw : r.remainingBits ≤ 7 := h
  rw [← remaining_eq h] at hz
  exact (alignLoop_spec 9 h (by omega)).2 hz

theorem align_err {r : BitReader} (h : r.WF)
    (hz : ¬ ∀ b ∈ r.bits.take (r.bits.length % 8), b = false) :
    ∃ r', align r = .error (.err .padding) r' ∧ r'.WF := by
  obtain ⟨r', h1, h2, _⟩ := align_err_lt h hz
  exact ⟨r', h1, h2⟩

theorem align_ok_inv {r r' : BitReader} (h : r.WF) (ha : align r = .ok () r') :
    (∀ b ∈ r.bits.take (r.bits.length % 8), b = false) ∧ r'.remainingBits = 0 ∧
      r'.bits = r.bits.drop (r.bits.length % 8) := by
  by_cases hz : ∀ b ∈ r.bits.take (r.bits.length % 8), b = false
  · obtain ⟨r'', h1, h2, h3⟩ := align_ok h hz
    rw [h1] at ha
    simp only [EStateM.Result.ok.injEq, true_and] at ha
    subst ha
    exact ⟨hz, h2, h3⟩
  · obtain ⟨r'', h1, _⟩ := align_err h hz
    rw [h1] at ha; cases ha

/-! ### Stored blocks -/

theorem readExactInner_ok {r : BitReader} {n : Nat} (h : n ≤ r.inner.length) :
    readExactInner n r = .ok (r.inner.take n) { r with inner := r.inner.drop n } := by
  simp [readExactInner, readExact, h]

theorem readExactInner_err {r : BitReader} {n : Nat} (h : r.inner.length < n) :
    readExactInner n r = .error (.err .eof) { r with inner := [] } := by
  have : ¬ n ≤ r.inner.length := by omega
  simp [readExactInner, readExact, this]

theorem u16_or (lo hi : UInt8) : (hi.toNat <<< 8) ||| lo.toNat = lo.toNat + 256 * hi.toNat := by
  have := Nat.two_pow_add_eq_or_of_lt (i := 8) lo.toNat_lt hi.toNat
  rw [Nat.shiftLeft_eq, Nat.mul_comm, ← this]; omega

theorem readAlignedU16_ok {r : BitReader} (h0 : r.remainingBits = 0) {lo hi : UInt8}
    {rest : List UInt8} (hi' : r.inner = lo :: hi :: rest) :
    readAlignedU16 r = .ok (lo.toNat + 256 * hi.toNat) { r with inner := rest } := by
  have hw : r.WF := by simp [WF, h0]
  simp only [readAlignedU16, ES.get_bind, position_eq hw, ES.liftE_bind_ok]
  rw [assert_of (by simp [h0]), ES.liftE_bind_ok,
    ES.bind_ok (readExactInner_ok (by simp [hi']))]
  simp only [hi', List.take_succ_cons, List.take_zero, List.drop_succ_cons, List.drop_zero,
    index, List.getElem?_cons_succ, List.getElem?_cons_zero, ES.liftE_bind_ok, ES.pure_apply,
    u16_or]

theorem readAlignedU16_err {r : BitReader} (h0 : r.remainingBits = 0)
    (hl : r.inner.length < 2) :
    readAlignedU16 r = .error (.err .eof) { r with inner := [] } := by
  have hw : r.WF := by simp [WF, h0]
  simp only [readAlignedU16, ES.get_bind, position_eq hw, ES.liftE_bind_ok]
  rw [assert_of (by simp [h0]), ES.liftE_bind_ok,
    ES.bind_err (readExactInner_err hl)]

/-- `read_length_prefixed` on an aligned reader, in full. -/
theorem readLengthPrefixed_eq {r : BitReader} (h0 : r.remainingBits = 0) :
    (∀ l0 l1 n0 n1 rest, r.inner = l0 :: l1 :: n0 :: n1 :: rest →
      (l0.toNat + 256 * l1.toNat) ^^^ 0xFFFF = n0.toNat + 256 * n1.toNat →
      l0.toNat + 256 * l1.toNat ≤ rest.length →
      readLengthPrefixed r = .ok (rest.take (l0.toNat + 256 * l1.toNat))
        { r with inner := rest.drop (l0.toNat + 256 * l1.toNat) }) ∧
    (∀ l0 l1 n0 n1 rest, r.inner = l0 :: l1 :: n0 :: n1 :: rest →
      (l0.toNat + 256 * l1.toNat) ^^^ 0xFFFF = n0.toNat + 256 * n1.toNat →
      rest.length < l0.toNat + 256 * l1.toNat →
      readLengthPrefixed r = .error (.err .eof) { r with inner := [] }) ∧
    (∀ l0 l1 n0 n1 rest, r.inner = l0 :: l1 :: n0 :: n1 :: rest →
      (l0.toNat + 256 * l1.toNat) ^^^ 0xFFFF ≠ n0.toNat + 256 * n1.toNat →
      readLengthPrefixed r = .error (.err .storedLength) { r with inner := rest }) ∧
    (r.inner.length < 4 →
      readLengthPrefixed r = .error (.err .eof) { r with inner := [] }) := by
  have hw : r.WF := by simp [WF, h0]
  have hunf : readLengthPrefixed r = (do
      let len ← readAlignedU16
      let onesComplement ← readAlignedU16
      liftE (ensure ((len ^^^ 0xFFFF) == onesComplement) .storedLength)
      readExactInner len) r := by
    simp only [readLengthPrefixed, ES.get_bind, position_eq hw, ES.liftE_bind_ok]
    rw [assert_of (by simp [h0]), ES.liftE_bind_ok]
  refine ⟨?_, ?_, ?_, ?_⟩
  · intro l0 l1 n0 n1 rest hi hc hl
    rw [hunf, ES.bind_ok (readAlignedU16_ok h0 hi), ES.bind_ok (readAlignedU16_ok (by exact h0) rfl),
      ensure_of (by simpa using hc), ES.liftE_bind_ok, readExactInner_ok (by simpa using hl)]
  · intro l0 l1 n0 n1 rest hi hc hl
    rw [hunf, ES.bind_ok (readAlignedU16_ok h0 hi), ES.bind_ok (readAlignedU16_ok (by exact h0) rfl),
      ensure_of (by simpa using hc), ES.liftE_bind_ok, readExactInner_err (by simpa using hl)]
  · intro l0 l1 n0 n1 rest hi hc
    have hc' : (((l0.toNat + 256 * l1.toNat) ^^^ 0xFFFF) == n0.toNat + 256 * n1.toNat) = false := by
      simpa using hc
    rw [hunf, ES.bind_ok (readAlignedU16_ok h0 hi), ES.bind_ok (readAlignedU16_ok (by exact h0) rfl),
      hc', ensure_false, ES.liftE_bind_error]
  · intro hl
    rw [hunf]
    match hi : r.inner with
    | [] => rw [ES.bind_err (readAlignedU16_err h0 (by simp [hi]))]
    | [a] => rw [ES.bind_err (readAlignedU16_err h0 (by simp [hi]))]
    | [a, b] =>
      rw [ES.bind_ok (readAlignedU16_ok h0 hi),
        ES.bind_err (readAlignedU16_err (r := { r with inner := [] }) h0 (by simp))]
    | [a, b, c] =>
      rw [ES.bind_ok (readAlignedU16_ok h0 hi),
        ES.bind_err (readAlignedU16_err (r := { r with inner := [c] }) h0 (by simp))]
    | _ :: _ :: _ :: _ :: _ => rw [hi] at hl; simp at hl; omega

end BitReader

end Rezip
