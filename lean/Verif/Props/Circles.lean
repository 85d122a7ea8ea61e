import Verif.Lemmas.Circles

/-!
# C29-C35: the circular buffer and decompression
-/

namespace Rezip

open CircularBuffer DecState Serialise

/-- The calls that put bytes into a buffer. -/
inductive BufOp
  | push (b : UInt8)
  | extend (bs : List UInt8)

/-- The calls made in order. -/
def runBufOps : CircularBuffer → List BufOp → Except Fail CircularBuffer
  | b, [] => .ok b
  | b, .push x :: ops => b.push x >>= fun b => runBufOps b ops
  | b, .extend xs :: ops => b.extend xs >>= fun b => runBufOps b ops

/-- All bytes pushed, oldest first. -/
def pushedBytes : List BufOp → List UInt8
  | [] => []
  | .push x :: ops => x :: pushedBytes ops
  | .extend xs :: ops => xs ++ pushedBytes ops

/-- The buffer of capacity `cap` after the bytes `h` were pushed. -/
def bufferAfter (cap : UInt16) (h : List UInt8) : Except Fail CircularBuffer :=
  withCapacity cap >>= fun b => b.extend h

theorem bufferAfter_eq {cap : UInt16} (hc : 0 < cap.toNat) (h : List UInt8) :
    bufferAfter cap h = .ok (ofHist cap.toNat h) := by
  have := UInt16.toNat_lt cap
  rw [bufferAfter, withCapacity_ok hc, Ex.ok_bind, extend_ofHist hc (by omega), List.nil_append]

theorem runBufOps_ofHist {W : Nat} (hW : 0 < W) (hW' : W ≤ 65535) (ops : List BufOp)
    (h : List UInt8) : runBufOps (ofHist W h) ops = .ok (ofHist W (h ++ pushedBytes ops)) := by
  induction ops generalizing h with
  | nil => rw [runBufOps, pushedBytes, List.append_nil]
  | cons op ops ih =>
    cases op with
    | push b => rw [runBufOps, push_ofHist hW hW', Ex.ok_bind, ih, pushedBytes]; simp
    | extend bs => rw [runBufOps, extend_ofHist hW hW', Ex.ok_bind, ih, pushedBytes]; simp

/-! ### C29 -/

/-- C29. Any sequence of pushes and extends on a new buffer succeeds, in the dev and the release
profile; then the length is the number of bytes pushed capped by the capacity, the byte at distance
`d` is the `d`-th most recent one, and (for a length below 65535, see C30) dumping gives the most
recent bytes in order. -/
theorem C29_contents (p : Profile) (cap : UInt16) (hc : 0 < cap.toNat) (ops : List BufOp) :
    ∃ b₀ b, withCapacity cap = .ok b₀ ∧ runBufOps b₀ ops = .ok b ∧
      b.capacity = cap.toNat ∧ b.len = min cap.toNat (pushedBytes ops).length ∧
      (∀ d, 1 ≤ d → d ≤ b.len → ∃ x, b.getAtDist p d = .ok x ∧
        (pushedBytes ops).reverse[d - 1]? = some x) ∧
      (b.len < 65535 →
        b.vec p = .ok ((pushedBytes ops).drop ((pushedBytes ops).length - cap.toNat))) := by
  have hlt := UInt16.toNat_lt cap
  refine ⟨_, _, withCapacity_ok hc, runBufOps_ofHist hc (by omega) ops [], ?_⟩
  rw [List.nil_append]
  obtain ⟨e1, e2, e3, e4⟩ := ofHist_spec hc (pushedBytes ops)
  refine ⟨by rw [capacity, e1]; omega, e3, ?_, ?_⟩
  · intro d h1 h2
    rw [len, e3] at h2
    refine ⟨_, getAtDist_ofHist p hc _ h1 h2, ?_⟩
    rw [List.getElem?_reverse (by omega), List.getD_eq_getElem?_getD,
      show (pushedBytes ops).length - 1 - (d - 1) = (pushedBytes ops).length - d by omega,
      List.getElem?_eq_getElem (by omega)]
    rfl
  · intro h
    rw [len] at h
    unfold vec
    rw [if_neg (by omega), vecLoop_ofHist p hc _ _ (by omega), e3]
    congr 2
    omega

/-- In the dev profile every other distance panics. -/
theorem C29_out_of_range (cap : UInt16) (hc : 0 < cap.toNat) (h : List UInt8) (d : Nat)
    (hd : d = 0 ∨ min cap.toNat h.length < d) :
    ∃ b, bufferAfter cap h = .ok b ∧ b.getAtDist .dev d = .error (.panic .debugAssertion) := by
  refine ⟨_, bufferAfter_eq hc h, ?_⟩
  obtain ⟨e1, e2, e3, e4⟩ := ofHist_spec hc h
  unfold getAtDist
  dsimp only
  by_cases h0 : d > 0
  · rw [if_neg (c := ¬ d > 0) (by omega), if_neg (c := ¬ (ofHist cap.toNat h).validCap ≤ _)
      (by omega), if_pos (c := ¬ d ≤ (ofHist cap.toNat h).validCap) (by omega)]
    rfl
  · rw [if_pos (c := ¬ d > 0) h0]
    rfl

example : ∃ b, bufferAfter 6 [97, 98, 99, 100, 101, 102, 103, 104] = .ok b ∧ b.len = 6 ∧
    b.getAtDist .dev 1 = .ok 104 ∧ b.getAtDist .dev 6 = .ok 99 ∧
    b.vec .dev = .ok [99, 100, 101, 102, 103, 104] := by
  refine ⟨_, bufferAfter_eq (by decide) _, ?_⟩
  decide

/-! ### C30 -/

/-- C30 (`_partial`): dumping returns the contents, in either profile, unless the buffer has capacity
65535 and is full. Missing: that case, where it is false (`C30_vec_false`). -/
theorem C30_vec_partial (p : Profile) (cap : UInt16) (hc : 0 < cap.toNat) (ops : List BufOp)
    (hlen : cap.toNat < 65535 ∨ (pushedBytes ops).length < 65535) :
    ∃ b₀ b, withCapacity cap = .ok b₀ ∧ runBufOps b₀ ops = .ok b ∧
      b.vec p = .ok ((pushedBytes ops).drop ((pushedBytes ops).length - cap.toNat)) := by
  obtain ⟨b₀, b, h1, h2, _, h4, _, h6⟩ := C29_contents p cap hc ops
  exact ⟨b₀, b, h1, h2, h6 (by omega)⟩

/-- C30 fails: a full buffer of capacity 65535 panics in the dev profile, and gives nothing in the
release profile. -/
theorem C30_vec_false (ops : List BufOp) (h : 65535 ≤ (pushedBytes ops).length) :
    ∃ b₀ b, withCapacity 65535 = .ok b₀ ∧ runBufOps b₀ ops = .ok b ∧ b.len = 65535 ∧
      b.vec .dev = .error (.panic .overflow) ∧ b.vec .release = .ok [] := by
  have hc : 0 < (65535 : UInt16).toNat := by decide
  refine ⟨_, _, withCapacity_ok hc, runBufOps_ofHist hc (by decide) ops [], ?_⟩
  obtain ⟨e1, e2, e3, e4⟩ := ofHist_spec hc ([] ++ pushedBytes ops)
  have : (65535 : UInt16).toNat = 65535 := by decide
  rw [this, List.nil_append] at e3
  have hv : (ofHist (65535 : UInt16).toNat ([] ++ pushedBytes ops)).validCap = 65535 := by
    rw [this, List.nil_append, e3]; omega
  refine ⟨hv, by unfold vec; rw [if_pos (by omega)], by unfold vec; rw [if_pos (by omega)]; rfl⟩

example : 65535 ≤ (pushedBytes [.extend (List.replicate 65534 0), .push 1]).length := by
  rw [pushedBytes, List.length_append, List.length_replicate]; decide

/-! ### C31 -/

/-- `lzCopy` is the copy of LZ77: each appended byte is the one `d` before it. -/
theorem lzCopy_spec (h : List UInt8) (d n i : Nat) (h1 : 1 ≤ d) (h2 : d ≤ h.length) (hi : i < n) :
    (h ++ lzCopy h d n)[h.length + i]? = (h ++ lzCopy h d n)[h.length + i - d]? := by
  induction n generalizing h i with
  | zero => omega
  | succ n ih =>
    rw [lzCopy]
    have e : h ++ (h.getD (h.length - d) 0 :: lzCopy (h ++ [h.getD (h.length - d) 0]) d n) =
        (h ++ [h.getD (h.length - d) 0]) ++ lzCopy (h ++ [h.getD (h.length - d) 0]) d n := by simp
    cases i with
    | zero =>
      rw [List.getElem?_append_right (by omega), List.getElem?_append_left (by omega)]
      simp only [Nat.add_zero, Nat.sub_self, List.getElem?_cons_zero, List.getD_eq_getElem?_getD]
      rw [List.getElem?_eq_getElem (by omega)]
      rfl
    | succ i =>
      have := ih (h ++ [h.getD (h.length - d) 0]) i
        (by rw [List.length_append, List.length_singleton]; omega) (by omega)
      rw [List.length_append, List.length_singleton] at this
      rw [e, show h.length + (i + 1) = h.length + 1 + i by omega]
      exact this

/-- C31. After the bytes `h` were pushed, copying `(d, n)` succeeds exactly when
`1 ≤ d ≤ min cap h.length`. Then it writes the `n` bytes `x` each of which equals the byte `d` before
it in `h ++ x`, and the buffer is as if `x` had been pushed. Otherwise it returns an error, writes
nothing and leaves the buffer alone. -/
theorem C31_copy (cap : UInt16) (hc : 0 < cap.toNat) (h out : List UInt8) (d n : Nat) :
    ∃ b, bufferAfter cap h = .ok b ∧
      (1 ≤ d ∧ d ≤ min cap.toNat h.length →
        ∃ x b', x.length = n ∧
          (∀ i, i < n → (h ++ x)[h.length + i]? = (h ++ x)[h.length + i - d]?) ∧
          bufferAfter cap (h ++ x) = .ok b' ∧
          copy d n { dict := b, into := { out := out, room := none } } =
            .ok () { dict := b', into := { out := out ++ x, room := none } }) ∧
      (¬ (1 ≤ d ∧ d ≤ min cap.toNat h.length) → ∀ s : Sink,
        copy d n { dict := b, into := s } =
          .error (.err .distMustFit) { dict := b, into := s }) := by
  have hlt := UInt16.toNat_lt cap
  refine ⟨_, bufferAfter_eq hc h, ?_, fun hd s => copy_bad hc h s d n hd⟩
  rintro ⟨h1, h2⟩
  refine ⟨lzCopy h d n, _, lzCopy_length _ _ _, fun i hi => lzCopy_spec h d n i h1 (by omega) hi,
    bufferAfter_eq hc _, ?_⟩
  have := appends_copy hc (by omega) n h1 h h2 { out := out, room := none }
  unfold Appends at this
  rw [writeAll_vec] at this
  exact this

/-- An overlapping copy in a wrapped buffer. -/
example : (1 ≤ 2 ∧ 2 ≤ min (3 : UInt16).toNat [1, 2, 3, 4].length) ∧
    lzCopy [1, 2, 3, 4] 2 5 = [3, 4, 3, 4, 3] := by decide

/-! ### C32 -/

/-- C32. Decompressing codes with a buffer of capacity `cap` holding the history `h` gives their LZ77
expansion with window `cap`, and the buffer holding the longer history; it fails exactly when the
expansion does not exist (some reference has distance 0 or reaches before the window), and then the
error is `distMustFit`. -/
theorem C32_expansion (cap : UInt16) (hc : 0 < cap.toNat) (h out : List UInt8) (codes : List Code) :
    ∃ b, bufferAfter cap h = .ok b ∧
      match lzExpand cap.toNat h codes with
      | some x => ∃ b', bufferAfter cap (h ++ x) = .ok b' ∧
          decompressedCodes codes { dict := b, into := { out := out, room := none } } =
            .ok () { dict := b', into := { out := out ++ x, room := none } }
      | none => ∃ st, decompressedCodes codes { dict := b, into := { out := out, room := none } } =
          .error (.err .distMustFit) st := by
  have hlt := UInt16.toNat_lt cap
  refine ⟨_, bufferAfter_eq hc h, ?_⟩
  have := decompressedCodes_appends hc (by omega) codes h { out := out, room := none }
  unfold Appends expandResult at this
  rw [writeAll_vec] at this
  rcases lzExpand_eq cap.toNat h codes with he | he
  · rw [he] at this ⊢
    exact ⟨_, bufferAfter_eq hc _, this⟩
  · rw [he] at this ⊢
    exact ⟨_, this⟩

/-- The same for a block; a stored block expands to its data. -/
theorem C32_block (cap : UInt16) (hc : 0 < cap.toNat) (h out : List UInt8) (blk : Block) :
    ∃ b, bufferAfter cap h = .ok b ∧
      match lzExpand cap.toNat h (lzCodes blk) with
      | some x => ∃ b', bufferAfter cap (h ++ x) = .ok b' ∧
          decompressedBlock blk { dict := b, into := { out := out, room := none } } =
            .ok () { dict := b', into := { out := out ++ x, room := none } }
      | none => ∃ st, decompressedBlock blk { dict := b, into := { out := out, room := none } } =
          .error (.err .distMustFit) st := by
  have hlt := UInt16.toNat_lt cap
  refine ⟨_, bufferAfter_eq hc h, ?_⟩
  have := decompressedBlock_appends hc (by omega) blk h { out := out, room := none }
  unfold Appends expandResult at this
  rw [writeAll_vec] at this
  rcases lzExpand_eq cap.toNat h (lzCodes blk) with he | he
  · rw [he] at this ⊢
    exact ⟨_, bufferAfter_eq hc _, this⟩
  · rw [he] at this ⊢
    exact ⟨_, this⟩

/-- A small window: the second reference reaches the same byte of the output, but only the large
window still has it. -/
example :
    lzExpand 32768 [] [.literal 1, .literal 2, .reference ⟨2, 2⟩, .reference ⟨7, 0⟩] =
      some [1, 2, 1, 2, 1, 2, 1, 1, 2, 1] ∧
    lzExpand 6 [] [.literal 1, .literal 2, .reference ⟨2, 2⟩, .reference ⟨7, 0⟩] = none := by
  decide

/-! ### C33 -/

theorem blocks_appends {W : Nat} (hW : 0 < W) (hW' : W ≤ 65535) (blocks : List Block)
    (h : List UInt8) (s : Sink) :
    Appends W h (lzDecodable W h (blocks.flatMap lzCodes)) s
      (expandResult W h (blocks.flatMap lzCodes))
      (blocks.forM decompressedBlock { dict := ofHist W h, into := s }) := by
  induction blocks generalizing h s with
  | nil => exact appends_pure _ _ _ _ _ rfl
  | cons b blocks ih =>
    rw [List.forM_eq_forM, List.forM_cons, List.flatMap_cons, lzDecodable_append, expandResult,
      lzExpand_append]
    have hb := decompressedBlock_appends hW hW' b h s
    rw [expandResult] at hb
    rcases lzExpand_eq W h (lzCodes b) with he | he
    · rw [he] at hb ⊢
      dsimp only at hb ⊢
      have := Appends.bind (f := fun _ => blocks.forM decompressedBlock) hb (fun s' => ih _ s')
      rw [expandResult] at this
      cases he2 : lzExpand W (h ++ lzDecodable W h (lzCodes b)) (blocks.flatMap lzCodes) with
      | none => rw [he2] at this; exact this
      | some y => rw [he2] at this; exact this
    · rw [he] at hb ⊢
      dsimp only at hb ⊢
      unfold Appends at hb ⊢
      cases hw : writeAll (lzDecodable W h (lzCodes b)) s with
      | ok u s' => rw [hw] at hb; exact ES.bind_err hb
      | error e s' =>
        rw [hw] at hb
        dsimp only at hb ⊢
        obtain ⟨y, hy, hr⟩ := hb
        exact ⟨y, hy, ES.bind_err hr⟩

/-- C33. Decompressing blocks one after another with a shared dictionary has exactly the effect (on
result, output and dictionary) of decompressing the concatenation of their codes (a stored block
being its bytes as literals). -/
theorem C33_blocks (cap : UInt16) (hc : 0 < cap.toNat) (h out : List UInt8) (blocks : List Block) :
    ∃ b, bufferAfter cap h = .ok b ∧
      blocks.forM decompressedBlock { dict := b, into := { out := out, room := none } } =
        decompressedCodes (blocks.flatMap lzCodes)
          { dict := b, into := { out := out, room := none } } := by
  have hlt := UInt16.toNat_lt cap
  refine ⟨_, bufferAfter_eq hc h, ?_⟩
  have h1 := blocks_appends hc (by omega) blocks h { out := out, room := none }
  have h2 := decompressedCodes_appends hc (by omega) (blocks.flatMap lzCodes) h
    { out := out, room := none }
  unfold Appends at h1 h2
  rw [writeAll_vec] at h1 h2
  cases hr : expandResult cap.toNat h (blocks.flatMap lzCodes) with
  | ok u => rw [hr] at h1 h2; rw [h1, h2]
  | error e => rw [hr] at h1 h2; rw [h1, h2]

/-- Codes split anywhere. -/
theorem C33_codes (codes₁ codes₂ : List Code) (st : DecState) :
    decompressedCodes (codes₁ ++ codes₂) st =
      (decompressedCodes codes₁ >>= fun _ => decompressedCodes codes₂) st := by
  induction codes₁ generalizing st with
  | nil => rfl
  | cons c cs ih =>
    rw [List.cons_append, decompressedCodes, decompressedCodes, ES.bind_assoc_apply,
      ES.bind_apply, ES.bind_apply]
    cases decompressedCode c st with
    | ok u s => exact ih s
    | error e s => rfl

/-- A reference in the second block into the first, stored one. -/
example : lzExpand 32768 []
    ([Block.uncompressed [1, 2, 3], .fixedHuffman [.reference ⟨3, 1⟩]].flatMap lzCodes) =
      some [1, 2, 3, 1, 2, 3, 1] := by decide

/-! ### C34 -/

/-- C34. Whenever decompressing succeeds, to any output and from any reachable dictionary, the number
of bytes written is the sum of the bytes the codes say they emit. -/
theorem C34_size (cap : UInt16) (hc : 0 < cap.toNat) (h : List UInt8) (s : Sink) (codes : List Code)
    (b : CircularBuffer) (hb : bufferAfter cap h = .ok b) (st : DecState)
    (hr : decompressedCodes codes { dict := b, into := s } = .ok () st) :
    st.into.out.length = s.out.length + (codes.map Code.emittedBytes).sum := by
  have hlt := UInt16.toNat_lt cap
  rw [bufferAfter_eq hc h] at hb
  cases hb
  have := decompressedCodes_appends hc (by omega) codes h s
  unfold Appends expandResult at this
  cases hw : writeAll (lzDecodable cap.toNat h codes) s with
  | error e s' =>
    rw [hw] at this
    obtain ⟨y, _, h2⟩ := this
    rw [h2] at hr; cases hr
  | ok u s' =>
    rw [hw] at this
    rcases lzExpand_eq cap.toNat h codes with he | he
    · rw [he, hr] at this
      cases this
      dsimp only
      rw [← lzExpand_length he]
      unfold writeAll at hw
      split at hw
      · cases hw; simp
      · split at hw
        · cases hw; simp
        · cases hw
    · rw [he, hr] at this
      cases this

example : (match decompressedCodes [.literal 1, .literal 2, .reference ⟨2, 255⟩]
    { dict := ofHist 100 [9], into := Sink.vec } with
    | .ok _ st => st.into.out.length == 260
    | .error _ _ => false) = true := by decide +kernel

/-! ### C35 -/

/-- C35. Decompressing blocks to an output that fails after accepting `r` more bytes: let `x` be the
bytes of all codes before the first reference that reaches before the window. Then exactly the first
`r` bytes of `x` are written, and the result is ok only if the expansion exists and fits; otherwise
the failure is reported (an output error if `x` does not fit, else `distMustFit`). -/
theorem C35_failing_output (cap : UInt16) (hc : 0 < cap.toNat) (h out : List UInt8) (r : Nat)
    (blocks : List Block) :
    ∃ b, bufferAfter cap h = .ok b ∧
      match blocks.forM decompressedBlock { dict := b, into := { out := out, room := some r } } with
      | .ok _ st => (∃ x, lzExpand cap.toNat h (blocks.flatMap lzCodes) = some x ∧
          x.length ≤ r ∧ st.into.out = out ++ x)
      | .error e st => st.into.out =
            out ++ (lzDecodable cap.toNat h (blocks.flatMap lzCodes)).take r ∧
          (lzExpand cap.toNat h (blocks.flatMap lzCodes) = none ∨
            r < (lzDecodable cap.toNat h (blocks.flatMap lzCodes)).length) ∧
          e = if r < (lzDecodable cap.toNat h (blocks.flatMap lzCodes)).length then .err .sink
            else .err .distMustFit := by
  have hlt := UInt16.toNat_lt cap
  refine ⟨_, bufferAfter_eq hc h, ?_⟩
  have h1 := blocks_appends hc (by omega) blocks h { out := out, room := some r }
  unfold Appends expandResult writeAll at h1
  dsimp only at h1
  by_cases hx : (lzDecodable cap.toNat h (blocks.flatMap lzCodes)).length ≤ r
  · rw [if_pos hx] at h1
    dsimp only at h1
    rcases lzExpand_eq cap.toNat h (blocks.flatMap lzCodes) with he | he
    · rw [he] at h1
      dsimp only at h1
      rw [h1]
      exact ⟨_, he, hx, rfl⟩
    · rw [he] at h1
      dsimp only at h1
      rw [h1]
      refine ⟨by rw [List.take_of_length_le hx], .inl he, by rw [if_neg (by omega)]⟩
  · rw [if_neg hx] at h1
    dsimp only at h1
    obtain ⟨y, _, hr⟩ := h1
    rw [hr]
    exact ⟨rfl, .inr (by omega), by rw [if_pos (by omega)]⟩

/-- What is decodable is a prefix of the expansion: all of it if it exists. -/
theorem C35_decodable (W : Nat) (h : List UInt8) (codes : List Code) :
    (∀ x, lzExpand W h codes = some x → lzDecodable W h codes = x) ∧
    (lzExpand W h codes = none → ∃ cs₁ c cs₂ x, codes = cs₁ ++ c :: cs₂ ∧
      lzExpand W h cs₁ = some x ∧ lzCode W (h ++ x) c = none ∧ lzDecodable W h codes = x) := by
  constructor
  · intro x hx
    rcases lzExpand_eq W h codes with he | he <;> rw [hx] at he <;> cases he
    rfl
  · intro hn
    induction codes generalizing h with
    | nil => cases hn
    | cons c cs ih =>
      rw [lzExpand] at hn
      cases hc : lzCode W h c with
      | none => exact ⟨[], c, cs, [], rfl, rfl, by simpa using hc, by rw [lzDecodable, hc]⟩
      | some y =>
        rw [hc] at hn
        dsimp only at hn
        cases he : lzExpand W (h ++ y) cs with
        | some z => rw [he] at hn; cases hn
        | none =>
          obtain ⟨cs₁, c', cs₂, x, h1, h2, h3, h4⟩ := ih _ he
          refine ⟨c :: cs₁, c', cs₂, y ++ x, by rw [h1]; rfl, ?_, ?_, ?_⟩
          · rw [lzExpand, hc]; dsimp only; rw [h2]
          · rw [← List.append_assoc]; exact h3
          · rw [lzDecodable, hc]; dsimp only; rw [h4]

/-- Room for 4 bytes, an output of 6. -/
example : (match [Block.uncompressed [1, 2], .fixedHuffman [.reference ⟨2, 1⟩]].forM
    decompressedBlock { dict := ofHist 100 [], into := { out := [], room := some 4 } } with
    | .ok _ _ => false
    | .error e st => e == .err .sink && st.into.out == [1, 2, 1, 2]) = true := by decide +kernel

end Rezip
