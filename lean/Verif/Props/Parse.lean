import Verif.Spec.Deflate
import Verif.Spec.Iter
import Verif.Lemmas.Parse

/-!
# Properties of the block parser

C17 – C22.
-/

namespace Rezip

open Spec Parse Huffman

theorem after_wf (n : Nat) {it : BlockIter} (h : it.inner.WF) : (after n it).inner.WF := by
  induction n generalizing it with
  | zero => exact h
  | succ n ih => exact ih (next_wf h)

theorem after_succ (n : Nat) (it : BlockIter) : after (n + 1) it = (after n it).next.2 := by
  induction n generalizing it with
  | zero => rfl
  | succ n ih => exact ih it.next.2

theorem after_add (n m : Nat) (it : BlockIter) : after (n + m) it = after m (after n it) := by
  induction m with
  | zero => rfl
  | succ m ih => rw [← Nat.add_assoc, after_succ, after_succ, ih]

/-- A raw DEFLATE stream: one fixed block holding `a`, and one unrelated byte after it. -/
def exampleStream : List UInt8 := [0x4b, 0x04, 0x00, 0x2a]

/-- A final dynamic block whose header is cut short. -/
def exampleBroken : List UInt8 := [0x05, 0xc0, 0x81]

theorem exampleStream_parse :
    parseAll exampleStream = .ok ([.fixedHuffman [.literal 0x61]], [0x2a]) := by decide +kernel

/-! ### C17 -/

/-- Every call of the iterator, in any state reachable from any byte string (also after it has
returned an error, or the end), returns a block, an error or the end: never a panic, and never
fails to return (`Fail.diverge`). -/
theorem C17_total (bytes : List UInt8) (n : Nat) :
    item n (parseDeflate bytes) = none ∨
    (∃ b, item n (parseDeflate bytes) = some (.ok b)) ∨
    (∃ e, item n (parseDeflate bytes) = some (.error (.err e))) := by
  have hw := after_wf n (it := parseDeflate bytes) (BitReader.wf_new bytes)
  unfold item
  cases he : (after n (parseDeflate bytes)).ended with
  | true =>
    rcases next_ended hw he with ⟨r, h, _⟩ | ⟨e, r, h, _⟩
    · exact .inl (by rw [h])
    · exact .inr (.inr ⟨e, by rw [h]⟩)
  | false =>
    rcases next_open hw he (off := (8 - (after n (parseDeflate bytes)).inner.bits.length % 8))
      (by omega) with ⟨b, f, bs, r, h, _⟩ | ⟨e, r, f, h, _⟩
    · exact .inr (.inl ⟨b, by rw [h]⟩)
    · exact .inr (.inr ⟨e, by rw [h]⟩)

/-- Collecting the blocks up to the first error or the end terminates within the fuel of the model:
it gives blocks, or an error (no panic, no divergence). -/
theorem C17_collect (bytes : List UInt8) :
    (∃ p, parseAll bytes = .ok p) ∨ (∃ e, parseAll bytes = .error (.err e)) := by
  cases h : parseAll bytes with
  | ok p => exact .inl ⟨p, rfl⟩
  | error e =>
    obtain ⟨x, rfl⟩ := parseAll_error h
    exact .inr ⟨x, rfl⟩

example : item 0 (parseDeflate exampleStream) = some (.ok (.fixedHuffman [.literal 0x61])) := by
  decide +kernel
example : item 1 (parseDeflate exampleStream) = none := by decide +kernel
example : item 0 (parseDeflate exampleBroken) = some (.error (.err .eof)) := by decide +kernel
example : item 1 (parseDeflate exampleBroken) = none := by decide +kernel
example : item 0 (parseDeflate [0x07]) = some (.error (.err .reservedBlock)) := by decide +kernel

/-! ### C18 -/

theorem CodesBits.refOk {lit : List Nat} {alpha : Option (List Nat)} {cs : List Code}
    {bs : List Bool} (h : CodesBits LengthSym lit alpha cs bs) : ∀ r, Code.reference r ∈ cs → RefOk r := by
  induction h with
  | nil => simp
  | cons c cs a b hc _ ih =>
    intro r hr
    rcases List.mem_cons.1 hr with rfl | hr
    · cases hc with
      | reference r i v j w dl lc dc ha hls hlc hds hdc =>
        obtain ⟨h1, h2⟩ := DistSym.range hds
        obtain ⟨h3, h4⟩ := LengthSym.range hls
        exact ⟨h1, h2, h3, h4⟩
    · exact ih r hr

theorem BlockBits.refOk {off : Nat} {b : Block} {bs : List Bool} (h : BlockBits LengthSym off b bs) :
    ∀ r, Code.reference r ∈ blockCodes b → RefOk r := by
  cases h with
  | stored => simp [blockCodes]
  | fixed codes bs hc => exact CodesBits.refOk hc
  | dynamic lit dist alpha codes trees hdr bs _ _ _ _ hc => exact CodesBits.refOk hc

/-- Every reference of every block the iterator ever yields is in range (even when the iterator is
driven on after an error). -/
theorem C18_refs_ok (bytes : List UInt8) (n : Nat) (b : Block)
    (h : item n (parseDeflate bytes) = some (.ok b)) (r : Ref)
    (hr : Code.reference r ∈ blockCodes b) : RefOk r := by
  have hw := after_wf n (it := parseDeflate bytes) (BitReader.wf_new bytes)
  unfold item at h
  cases he : (after n (parseDeflate bytes)).ended with
  | true =>
    rcases next_ended hw he with ⟨r, h', _⟩ | ⟨e, r, h', _⟩ <;> rw [h'] at h <;> simp at h
  | false =>
    rcases next_open hw he (off := (8 - (after n (parseDeflate bytes)).inner.bits.length % 8))
      (by omega) with ⟨b', f, bs, r', h', _, hb, _⟩ | ⟨e, r', f, h', _⟩ <;> rw [h'] at h
    · simp only [Option.some.injEq, Except.ok.injEq] at h
      subst h
      exact BlockBits.refOk hb r hr
    · simp at h

/-- `a` followed by a match of length 258 at distance 1. -/
def exampleRun : List UInt8 := [0x4b, 0x1c, 0x05, 0x00]

example : item 0 (parseDeflate exampleRun) =
    some (.ok (.fixedHuffman [.literal 0x61, .reference ⟨1, 255⟩])) := by
  decide +kernel
example : RefOk ⟨1, 255⟩ := by unfold RefOk Ref.run; decide

/-! ### C22 -/

/-- Collecting all blocks of a byte string succeeds, leaving `rest` unread, exactly if the bytes
before `rest` are an RFC 1951 stream (zero padded) for these blocks. -/
theorem C22_parse_iff (bytes : List UInt8) (blocks : List Block) (rest : List UInt8) :
    parseAll bytes = .ok (blocks, rest) ↔ ∃ d, bytes = d ++ rest ∧ DeflateBytes blocks d :=
  parseAll_iff bytes blocks rest

/-- In particular the format is unambiguous: a byte string is a stream for at most one list of
blocks. -/
theorem C22_unambiguous {bytes : List UInt8} {b₁ b₂ : List Block} (h₁ : DeflateBytes b₁ bytes)
    (h₂ : DeflateBytes b₂ bytes) : b₁ = b₂ := by
  have e₁ := (C22_parse_iff bytes b₁ []).2 ⟨bytes, by simp, h₁⟩
  have e₂ := (C22_parse_iff bytes b₂ []).2 ⟨bytes, by simp, h₂⟩
  rw [e₁] at e₂
  simpa using e₂

/-- A fixed block, a stored block and an empty final fixed block. -/
def exampleMixed : List UInt8 :=
  [0x4a, 0x04, 0x00, 0x02, 0x00, 0xfd, 0xff, 0x01, 0x02, 0x03, 0x00]

theorem exampleMixed_parse : parseAll exampleMixed =
    .ok ([.fixedHuffman [.literal 0x61], .uncompressed [1, 2], .fixedHuffman []], []) := by
  decide +kernel

example : DeflateBytes [.fixedHuffman [.literal 0x61], .uncompressed [1, 2], .fixedHuffman []]
    exampleMixed := by
  obtain ⟨d, h1, h2⟩ := (C22_parse_iff _ _ _).1 exampleMixed_parse
  rw [List.append_nil] at h1
  rw [h1]; exact h2

/-! ### C19 -/

/-- Appending bytes to a byte string that parses changes neither the blocks nor what is consumed. -/
theorem C19_suffix (bytes suffix : List UInt8) (blocks : List Block) (rest : List UInt8)
    (h : parseAll bytes = .ok (blocks, rest)) :
    parseAll (bytes ++ suffix) = .ok (blocks, rest ++ suffix) := by
  obtain ⟨d, rfl, hd⟩ := (C22_parse_iff _ _ _).1 h
  exact (C22_parse_iff _ _ _).2 ⟨d, by simp, hd⟩

example : parseAll (exampleStream ++ [1, 2, 3]) =
    .ok ([.fixedHuffman [.literal 0x61]], [0x2a] ++ [1, 2, 3]) :=
  C19_suffix _ _ _ _ exampleStream_parse

/-! ### C20 -/

/-- Every strict prefix of an entirely consumed stream gives an error. -/
theorem C20_truncation (pre suf : List UInt8) (blocks : List Block)
    (h : parseAll (pre ++ suf) = .ok (blocks, [])) (hs : suf ≠ []) :
    ∃ e, parseAll pre = .error (.err e) := by
  rcases C17_collect pre with ⟨⟨bl, rest⟩, hp⟩ | he
  · have := C19_suffix pre suf bl rest hp
    rw [this] at h
    simp only [Except.ok.injEq, Prod.mk.injEq, List.append_eq_nil_iff] at h
    exact absurd h.2.2 hs
  · exact he

example : parseAll ([0x4b, 0x04] ++ [0x00]) = .ok ([.fixedHuffman [.literal 0x61]], []) := by
  decide +kernel

/-! ### C21 -/

/-- On the empty input every call of the iterator returns an error: draining it never ends. -/
theorem C21_drain_false : ¬ ∀ bytes, ∃ n, item n (parseDeflate bytes) = none := by
  intro h
  obtain ⟨n, hn⟩ := h []
  have hfix : ∀ n, after n (parseDeflate []) = parseDeflate [] := by
    intro n
    induction n with
    | zero => rfl
    | succ n ih => rw [after_succ, ih]; decide +kernel
  rw [item, hfix] at hn
  revert hn
  decide +kernel

/-- What holds instead: once the flag of the final block has been read, at most seven more calls
return an error, then the iterator returns the end, and keeps returning it. (Missing from the full
claim: inputs that are cut off before the final block's flag.) -/
theorem C21_drain_ended_partial (bytes : List UInt8) (n : Nat)
    (h : (after n (parseDeflate bytes)).ended = true) :
    ∃ k, k ≤ 7 ∧ ∀ m, n + k ≤ m → item m (parseDeflate bytes) = none := by
  have hw := after_wf n (it := parseDeflate bytes) (BitReader.wf_new bytes)
  have key : ∀ j, ∀ it : BlockIter, it.inner.WF → it.ended = true → it.inner.remainingBits ≤ j →
      ∃ k, k ≤ j ∧ ∀ m, k ≤ m → item m it = none := by
    have fixed : ∀ it : BlockIter, it.inner.WF → it.ended = true → it.next.1 = none →
        ∀ m, item m it = none := by
      intro it hw he hn m
      have : ∀ m, (after m it).inner.WF ∧ (after m it).ended = true ∧ (after m it).next.1 = none := by
        intro m
        induction m with
        | zero => exact ⟨hw, he, hn⟩
        | succ m ih =>
          obtain ⟨w, e, nn⟩ := ih
          rw [after_succ]
          rcases next_ended w e with ⟨r, h', h0, _, hb⟩ | ⟨e', r, h', _⟩
          · rw [h']
            have w' : r.WF := by simp [BitReader.WF, h0]
            refine ⟨w', rfl, ?_⟩
            rcases next_ended (it := ⟨r, true⟩) w' rfl with ⟨r2, h2, _⟩ | ⟨_, r2, h2, _, h3, _⟩
            · rw [h2]
            · dsimp only at h3; omega
          · rw [h'] at nn; simp at nn
      exact (this m).2.2
    intro j
    induction j with
    | zero =>
      intro it hw he hr
      rcases next_ended hw he with ⟨r, h', _⟩ | ⟨_, r, h', _, h3, _⟩
      · exact ⟨0, by omega, fun m _ => fixed it hw he (by rw [h']) m⟩
      · omega
    | succ j ih =>
      intro it hw he hr
      rcases next_ended hw he with ⟨r, h', _⟩ | ⟨_, r, h', w', h3, _⟩
      · exact ⟨0, by omega, fun m _ => fixed it hw he (by rw [h']) m⟩
      · obtain ⟨k, hk, hm⟩ := ih ⟨r, true⟩ w' rfl (by dsimp only; omega)
        refine ⟨k + 1, by omega, fun m hkm => ?_⟩
        obtain ⟨m, rfl⟩ : ∃ m', m = m' + 1 := ⟨m - 1, by omega⟩
        have := hm m (by omega)
        unfold item at this ⊢
        rw [after, h']
        exact this
  obtain ⟨k, hk, hm⟩ := key 7 _ hw h hw
  refine ⟨k, hk, fun m hle => ?_⟩
  have := hm (m - n) (by omega)
  unfold item at this ⊢
  rwa [← after_add, show n + (m - n) = m by omega] at this

example : (after 1 (parseDeflate exampleStream)).ended = true := by decide +kernel
-- non-zero padding: one error, then the end
example : item 1 (parseDeflate [0x4b, 0x04, 0xf8]) = some (.error (.err .padding)) ∧
    item 5 (parseDeflate [0x4b, 0x04, 0xf8]) = some (.error (.err .padding)) ∧
    item 6 (parseDeflate [0x4b, 0x04, 0xf8]) = none := by decide +kernel

end Rezip
