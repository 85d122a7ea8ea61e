import Verif.Props.Zero
import Verif.Props.Writer

/-!
# C80-C82: the zero tool on whole files, on failing input and output, and its overhead
-/

namespace Rezip

open Rezip.Spec Parse

/-! ### C80 -/

/-- A decompressor that gives the expansion of every deflate stream, whatever follows. -/
def Inflates (inflate : List UInt8 → Zero.Source) : Prop :=
  ∀ (blocks : List Block) (d x trailer : List UInt8), DeflateBytes blocks d →
    lzExpand 32768 [] (blocks.flatMap lzCodes) = some x → inflate (d ++ trailer) = x.map .ok

/-- C80. The zero tool replaces the compressed stream by stored blocks, one per chunk, keeps the header, and
writes the checksum and length of the data: the trailer that the file should have had. -/
theorem C80_file (crc : List UInt8 → Nat) (inflate : List UInt8 → Zero.Source) (hi : Inflates inflate)
    (hd : GzHeader) (hv : hd.Valid) (d x rest o : List UInt8) (blocks : List Block)
    (hb : DeflateBytes blocks d) (hx : lzExpand 32768 [] (blocks.flatMap lzCodes) = some x) (hne : x ≠ [])
    (cs : List (List UInt8)) (hc : Chunks x cs) (h64 : ∀ c ∈ cs, c.length ≠ 65536) :
    ∃ d', DeflateBytes (cs.map .uncompressed) d' ∧
      Zero.tool crc inflate (hd.bytes ++ d ++ rest) ⟨o, none⟩ = .ok ()
        ⟨o ++ (hd.bytes ++ d' ++ Zero.u32le (crc x) ++ Zero.u32le (x.length % 2 ^ 32)), none⟩ := by
  obtain ⟨d', h1, h2, _⟩ := C61_rewrite_partial crc hd hv x cs hne hc h64
  refine ⟨d', h2, ?_⟩
  have hh := C57_accepted hd hv (d ++ rest)
  rw [← List.append_assoc] at hh
  rw [Zero.tool, hh]
  dsimp only
  rw [hi blocks d x rest hb hx, Zero.runTo_chunks crc _ x o cs hne hc]
  rw [Zero.run_chunks crc _ x cs hne hc] at h1
  rw [Except.ok.inj h1]

/-- The result depends only on the header and the data, not on how the data was compressed. -/
theorem C80_canonical (crc : List UInt8 → Nat) (inflate : List UInt8 → Zero.Source) (hi : Inflates inflate)
    (hd : GzHeader) (hv : hd.Valid) (d₁ d₂ x t₁ t₂ : List UInt8) (s : Sink) (b₁ b₂ : List Block)
    (h₁ : DeflateBytes b₁ d₁) (x₁ : lzExpand 32768 [] (b₁.flatMap lzCodes) = some x)
    (h₂ : DeflateBytes b₂ d₂) (x₂ : lzExpand 32768 [] (b₂.flatMap lzCodes) = some x) :
    Zero.tool crc inflate (hd.bytes ++ d₁ ++ t₁) s = Zero.tool crc inflate (hd.bytes ++ d₂ ++ t₂) s := by
  have hh₁ := C57_accepted hd hv (d₁ ++ t₁)
  have hh₂ := C57_accepted hd hv (d₂ ++ t₂)
  rw [← List.append_assoc] at hh₁ hh₂
  rw [Zero.tool, hh₁, Zero.tool, hh₂]
  dsimp only
  rw [hi _ _ _ _ h₁ x₁, hi _ _ _ _ h₂ x₂]

/-- Once is enough: on its own output the tool writes the same file again. -/
theorem C80_idempotent (crc : List UInt8 → Nat) (inflate : List UInt8 → Zero.Source) (hi : Inflates inflate)
    (hd : GzHeader) (hv : hd.Valid) (d x rest file : List UInt8) (blocks : List Block)
    (hb : DeflateBytes blocks d) (hx : lzExpand 32768 [] (blocks.flatMap lzCodes) = some x)
    (h64 : ∀ cs, Chunks x cs → ∀ c ∈ cs, c.length ≠ 65536)
    (hf : Zero.tool crc inflate (hd.bytes ++ d ++ rest) Sink.vec = .ok () ⟨file, none⟩) :
    Zero.tool crc inflate file Sink.vec = .ok () ⟨file, none⟩ := by
  have hne : x ≠ [] := by
    rintro rfl
    have hh := C57_accepted hd hv (d ++ rest)
    rw [← List.append_assoc] at hh
    rw [Zero.tool, hh] at hf
    dsimp only at hf
    rw [hi _ _ _ _ hb hx] at hf
    cases hf
  obtain ⟨cs, hc, _⟩ := taken_chunks x
  obtain ⟨d', h1, h2⟩ := C80_file crc inflate hi hd hv d x rest [] blocks hb hx hne cs hc (h64 cs hc)
  have hx' : lzExpand 32768 [] ((cs.map Block.uncompressed).flatMap lzCodes) = some x := by
    rw [Zero.lzExpand_stored, hc.facts.1]
  have hf2 := hf
  rw [Sink.vec, h2] at hf
  cases hf
  rw [List.nil_append, List.append_assoc (hd.bytes ++ d'),
    C80_canonical crc inflate hi hd hv d' d x _ rest _ _ blocks h1 hx' hb hx, hf2]
  rw [List.nil_append, List.append_assoc (hd.bytes ++ d')]

/-- The library's own decompression, as a decompressor for the zero tool. -/
def ownInflate (rest : List UInt8) : Zero.Source :=
  match Cat.run ([0x1f, 0x8b, 8, 0, 0, 0, 0, 0, 0, 3] ++ rest) Sink.vec with
  | (.ok _, s) => s.out.map .ok
  | (.error e, s) => s.out.map .ok ++ [.error e]

/-- It meets the assumption. -/
theorem ownInflate_inflates : Inflates ownInflate := by
  intro blocks d x trailer hb hx
  let hd : GzHeader := ⟨false, (0, 0, 0, 0), 0, 3, none, none, none, none⟩
  have hv : hd.Valid := ⟨(by intro x hx; cases hx), (by intro x hx; cases hx), (by intro x hx; cases hx)⟩
  have := C62_cat hd hv d trailer [] x blocks hb hx
  rw [ownInflate, Sink.vec, ← List.append_assoc]
  rw [show hd.bytes = [0x1f, 0x8b, 8, 0, 0, 0, 0, 0, 0, 3] from rfl] at this
  rw [this]
  rfl

/-- A file with a fixed block, and its rewrite. -/
example : Zero.tool (fun _ => 0x01020304) ownInflate
      ([0x1f, 0x8b, 8, 0, 0, 0, 0, 0, 0, 3] ++ exampleStream ++ [1, 2, 3]) Sink.vec =
    .ok () ⟨[0x1f, 0x8b, 8, 0, 0, 0, 0, 0, 0, 3, 1, 1, 0, 254, 255, 0x61, 4, 3, 2, 1, 1, 0, 0, 0], none⟩ := by
  decide +kernel

/-! ### C81 -/

namespace Zero

theorem fill_tail (n : Nat) (p buf : List UInt8) (sum : Nat) :
    (n ≤ p.length ∧ ∃ sum', ∀ tail : Source, fill n buf sum (p.map .ok ++ tail) =
      .ok (false, buf ++ p.take n, sum') ((p.drop n).map .ok ++ tail)) ∨
    (∀ (e : Fail) (rest : Source), fill n buf sum (p.map .ok ++ .error e :: rest) = .error e rest) := by
  induction n generalizing p buf sum with
  | zero => exact .inl ⟨Nat.zero_le _, sum, fun tail => by simp [fill]⟩
  | succ n ih =>
    cases p with
    | nil => exact .inr fun e rest => rfl
    | cons a p =>
      rcases ih p (buf ++ [a]) (wadd sum a.toNat) with ⟨h, sum', h1⟩ | h1
      · refine .inl ⟨by simpa using h, sum', fun tail => ?_⟩
        show fill n (buf ++ [a]) (wadd sum a.toNat) (p.map .ok ++ tail) = _
        rw [h1 tail]
        simp
      · exact .inr fun e rest => h1 e rest

theorem roll_tail (mod n pos : Nat) (p buf : List UInt8) (sum : Nat) (hp : pos < buf.length) :
    (∃ L, L ≤ p.length ∧ ∀ tail : Source, roll mod pos n buf sum (p.map .ok ++ tail) =
      .ok (buf ++ p.take L) ((p.drop L).map .ok ++ tail)) ∨
    (∀ (e : Fail) (rest : Source), roll mod pos n buf sum (p.map .ok ++ .error e :: rest) = .error e rest) := by
  induction n generalizing p buf sum pos with
  | zero => exact .inl ⟨0, Nat.zero_le _, fun tail => by simp [roll]⟩
  | succ n ih =>
    by_cases hs : 0 = sum % mod
    · exact .inl ⟨0, Nat.zero_le _, fun tail => by simp [roll, ← hs]⟩
    · cases p with
      | nil => exact .inr fun e rest => by simp [roll, hs]
      | cons a p =>
        rcases ih (pos + 1) p (buf ++ [a]) (wsub (wadd sum a.toNat) (buf[pos]).toNat)
          (by simp; omega) with ⟨L, h, h1⟩ | h1
        · refine .inl ⟨L + 1, by simpa using h, fun tail => ?_⟩
          rw [List.map_cons, List.cons_append, roll]
          dsimp only
          rw [if_neg hs, index_ok hp]
          dsimp only
          rw [h1 tail]
          simp
        · refine .inr fun e rest => ?_
          rw [List.map_cons, List.cons_append, roll]
          dsimp only
          rw [if_neg hs, index_ok hp]
          exact h1 e rest

/-- From a source that fails after `p`: either a chunk ends within `p`, whatever follows, or the failure is
returned. -/
theorem takeRsync_tail (p : List UInt8) :
    (∃ L, 0 < L ∧ L ≤ p.length ∧ ∀ tail : Source, takeRsync (p.map .ok ++ tail) =
      .ok (p.take L) ((p.drop L).map .ok ++ tail)) ∨
    (∀ (e : Fail) (rest : Source), takeRsync (p.map .ok ++ .error e :: rest) = .error e rest) := by
  rcases fill_tail rsyncMin p [] 0 with ⟨h, sum, h1⟩ | h1
  · have h8 : rsyncMin = 8192 := rfl
    have hl : (p.take rsyncMin).length = rsyncMin := by rw [List.length_take]; omega
    rcases roll_tail rsyncMod (rsyncMax - rsyncMin) 0 (p.drop rsyncMin) (p.take rsyncMin) sum
      (by omega) with ⟨L, h2, h3⟩ | h3
    · refine .inl ⟨rsyncMin + L, by omega, by rw [List.length_drop] at h2; omega, fun tail => ?_⟩
      rw [takeRsync, takeRsyncWith, ES.bind_ok (h1 tail)]
      dsimp only
      rw [if_neg (by simp), List.nil_append, h3 tail, ← List.take_add, List.drop_drop]
    · refine .inr fun e rest => ?_
      rw [takeRsync, takeRsyncWith, ES.bind_ok (h1 _)]
      dsimp only
      rw [if_neg (by simp), List.nil_append, h3 e rest]
  · exact .inr fun e rest => ES.bind_err (h1 e rest)

theorem loop_error (e : Fail) (rest : Source) (fuel : Nat) (p all o : List UInt8) (n : Nat)
    (hf : p.length < fuel) :
    ∃ cs : List (List UInt8), (∀ more, ∃ cs', Chunks (p ++ more) (cs ++ cs')) ∧
      loop takeRsync fuel (p.map .ok ++ .error e :: rest) n all ⟨o, none⟩ =
        .error e ⟨o ++ cs.flatMap (chunkBytes false), none⟩ := by
  induction fuel generalizing p all o n with
  | zero => omega
  | succ fuel ih =>
    rcases takeRsync_tail p with ⟨L, h1, h2, h3⟩ | h
    · obtain ⟨cs, h4, h5⟩ := ih (p.drop L) (all ++ p.take L) (o ++ chunkBytes false (p.take L))
        ((n + (p.take L).length % 2 ^ 32) % 2 ^ 32) (by rw [List.length_drop]; omega)
      have hlen : (p.take L).length = L := by rw [List.length_take]; omega
      refine ⟨p.take L :: cs, fun more => ?_, ?_⟩
      · obtain ⟨cs', h6⟩ := h4 more
        refine ⟨cs', ?_⟩
        obtain ⟨M, h7, h8⟩ := C60_first_chunk (p ++ more)
        have h9 := h3 (more.map .ok)
        rw [List.map_append] at h8
        rw [h8, EStateM.Result.ok.injEq] at h9
        have hM : M = L := by
          have a := congrArg List.length h9.1
          rw [List.length_take, hlen] at a
          have := h7.1
          omega
        subst hM
        have := Chunks.cons (p ++ more) M (cs ++ cs') (by
          intro hc
          have := congrArg List.length hc
          rw [List.length_append, List.length_nil] at this
          omega) h7 (by rw [List.drop_append_of_le_length h2]; exact h6)
        rwa [List.take_append_of_le_length h2] at this
      · rw [loop, h3]
        dsimp only
        rw [if_neg (by
          intro hc
          rw [List.isEmpty_iff] at hc
          rw [hc] at hlen
          simp at hlen
          omega), show ((p.drop L).map Except.ok ++ Except.error e :: rest : Source).isEmpty = false by simp,
          ES.bind_ok (writeChunk_none _ _ _), h5, List.flatMap_cons, List.append_assoc]
    · refine ⟨[], fun more => ?_, ?_⟩
      · obtain ⟨cs, hc, _⟩ := taken_chunks (p ++ more)
        exact ⟨cs, hc⟩
      · rw [loop, h e rest, List.flatMap_nil, List.append_nil]
        rfl

theorem items_stored (cs : List (List UInt8)) (h : ∀ c ∈ cs, c.length ≤ 65535) (it : BlockIter)
    (hw : it.inner.WF) (he : it.ended = false)
    (hb : it.inner.bits = bytesBits (cs.flatMap (chunkBytes false))) :
    (∀ n, n < cs.length → item n it = some (.ok (.uncompressed (cs[n]?.getD [])))) ∧
      item cs.length it = some (.error (.err .eof)) := by
  induction cs generalizing it with
  | nil =>
    refine ⟨fun n hn => by simp at hn, ?_⟩
    rw [List.flatMap_nil, bytesBits_nil] at hb
    obtain ⟨r, h1, h2⟩ := BitReader.readBit_nil hw hb
    show it.next.1 = _
    unfold BlockIter.next
    simp only [he, h1]
    rfl
  | cons c cs ih =>
    rw [List.flatMap_cons, bytesBits_append] at hb
    obtain ⟨bs, b1, b2⟩ := chunkBytes_bits false c (h c (by simp)) 0 rfl
    rw [b2] at hb
    have hl := congrArg List.length b2
    rw [bytesBits_length, List.length_cons] at hl
    obtain ⟨r, h1, h2, h3⟩ := next_block hw he (off := 0) (by
      rw [hb, List.length_append, List.length_cons, bytesBits_length]; omega) hb b1
    obtain ⟨i1, i2⟩ := ih (fun x hx => h x (by simp [hx])) ⟨r, false⟩ h2 rfl h3
    refine ⟨fun n hn => ?_, ?_⟩
    · cases n with
      | zero => show it.next.1 = _; rw [h1]; rfl
      | succ n =>
        show item n it.next.2 = _
        rw [h1, i1 n (by simpa using hn)]
        rfl
    · show item cs.length it.next.2 = _
      rw [h1, i2]

end Zero

/-- C81. If the compressed data turns out to be damaged after `p` has been decompressed, the zero tool reports
that error. It has written the header and stored blocks for chunks that every continuation of `p` begins
with, none of them marked as the last. -/
theorem C81_damaged (crc : List UInt8 → Nat) (header p o : List UInt8) (e : Fail) (rest : Zero.Source) :
    ∃ cs : List (List UInt8), (∀ more, ∃ cs', Chunks (p ++ more) (cs ++ cs')) ∧
      Zero.runTo crc header (p.map .ok ++ .error e :: rest) ⟨o, none⟩ =
        .error e ⟨o ++ header ++ cs.flatMap fun c => 0 :: Zero.u16le (c.length % 65536) ++
          Zero.u16le (c.length % 65536 ^^^ 0xffff) ++ c, none⟩ := by
  obtain ⟨cs, h1, h2⟩ := Zero.loop_error e rest ((p.map Except.ok ++ Except.error e :: rest : Zero.Source).length + 1) p []
    (o ++ header) 0 (by simp; omega)
  refine ⟨cs, h1, ?_⟩
  rw [Zero.runTo, assert_of (by simp), ES.liftE_bind_ok, ES.bind_ok (Zero.writeAll_none _ _), ES.bind_err h2]
  rfl

/-- What is left behind does not pass for a complete file: cat fails on it, after printing these chunks. -/
theorem C81_not_complete (crc : List UInt8 → Nat) (hd : GzHeader) (hv : hd.Valid) (p : List UInt8) (e : Fail)
    (rest : Zero.Source) (h64 : ∀ cs, Chunks p cs → ∀ c ∈ cs, c.length ≠ 65536) :
    ∃ (file shown : List UInt8),
      Zero.runTo crc hd.bytes (p.map .ok ++ .error e :: rest) Sink.vec = .error e ⟨file, none⟩ ∧
      shown <+: p ∧ Cat.run file Sink.vec = (.error (.err .eof), ⟨shown, none⟩) := by
  obtain ⟨cs, h1, h2⟩ := C81_damaged crc hd.bytes p [] e rest
  obtain ⟨cs', hc⟩ := h1 []
  rw [List.append_nil] at hc
  obtain ⟨f1, f2, _⟩ := hc.facts
  refine ⟨_, cs.flatten, h2, ?_, ?_⟩
  · rw [← f1, List.flatten_append]
    exact List.prefix_append _ _
  · rw [List.nil_append, show (cs.flatMap fun c => 0 :: Zero.u16le (c.length % 65536) ++
          Zero.u16le (c.length % 65536 ^^^ 0xffff) ++ c) = cs.flatMap (Zero.chunkBytes false) from rfl]
    generalize hs : cs.flatMap (Zero.chunkBytes false) = str
    obtain ⟨i1, i2⟩ := Zero.items_stored cs (fun c hcm => by
      have := (f2 c (by simp [hcm])).2
      have := h64 _ hc c (by simp [hcm])
      omega) (parseDeflate str) (BitReader.wf_new _) rfl (by
        show (BitReader.new _).bits = _
        rw [BitReader.bits_new, hs])
    obtain ⟨r, bl, it', _, g2, g3, g4, g5, g6⟩ := Cat.run_eq _ [] _ _ none (C57_accepted hd hv str)
    have hlen : bl.length = cs.length := by
      rcases Nat.lt_trichotomy bl.length cs.length with hl | hl | hl
      · rw [i1 _ hl] at g3
        rcases g3 with ⟨g3, _⟩ | ⟨e, g3, _⟩ <;> cases g3
      · exact hl
      · have := g2 cs.length _ (List.getElem?_eq_getElem hl)
        rw [i2] at this
        cases this
    have hbl : bl = cs.map .uncompressed := by
      refine List.ext_getElem? fun n => ?_
      by_cases hn : n < cs.length
      · have := g2 n _ (List.getElem?_eq_getElem (by omega))
        rw [i1 n hn, List.getElem?_eq_getElem hn] at this
        simp only [Option.getD_some, Option.some.injEq, Except.ok.injEq] at this
        rw [List.getElem?_eq_getElem (by omega : n < bl.length), List.getElem?_map,
          List.getElem?_eq_getElem hn, ← this]
        rfl
      · rw [List.getElem?_eq_none (by omega), List.getElem?_eq_none (by simp; omega)]
    have hx : lzExpand 32768 [] (bl.flatMap lzCodes) = some cs.flatten := by
      rw [hbl, Zero.lzExpand_stored]
    rw [hlen, i2] at g3
    rw [(C35_decodable 32768 [] _).1 _ hx, Cat.accepted, List.nil_append] at g4
    rw [hx, if_neg (by simp [Cat.fits]), if_neg (by simp)] at g6
    rcases g3 with ⟨g3, _⟩ | ⟨e', g3, g7⟩
    · cases g3
    · cases g3
      have ex : ∀ q : Except Fail Unit × Sink, q = (q.1, ⟨q.2.out, q.2.room⟩) := fun q => rfl
      rw [Sink.vec, ex (Cat.run _ _), g4, g5 rfl, g6, g7]

/-- The decompressor fails after two bytes: nothing but the header was written. -/
example : Zero.runTo (fun _ => 0) [0x1f, 0x8b, 8, 0, 0, 0, 0, 0, 0, 3] [.ok 7, .ok 8, .error (.err .eof)] Sink.vec =
    .error (.err .eof) ⟨[0x1f, 0x8b, 8, 0, 0, 0, 0, 0, 0, 3], none⟩ := by decide +kernel

namespace Zero

/-- A program that writes to the output, as one that writes to the output of a `BitWriter`. -/
def onInner {α : Type} (p : EStateM Fail Sink α) : EStateM Fail BitWriter α := fun w =>
  match p w.inner with
  | .ok a s => .ok a { w with inner := s }
  | .error e s => .error e { w with inner := s }

theorem onInner_bind {α β : Type} (p : EStateM Fail Sink α) (f : α → EStateM Fail Sink β) :
    onInner (p >>= f) = onInner p >>= fun a => onInner (f a) := by
  funext w
  cases h : p w.inner with
  | ok a s =>
    have h1 : onInner p w = .ok a { w with inner := s } := by rw [onInner, h]
    rw [ES.bind_ok h1, onInner, ES.bind_ok h]
    rfl
  | error e s =>
    have h1 : onInner p w = .error e { w with inner := s } := by rw [onInner, h]
    rw [ES.bind_err h1, onInner, ES.bind_err h]

/-- `Steady` for a program on an output. -/
def Steady {α : Type} (p : EStateM Fail Sink α) : Prop := Rezip.Steady (onInner p)

theorem Steady.bind {α β : Type} {p : EStateM Fail Sink α} {f : α → EStateM Fail Sink β} (hp : Steady p)
    (hf : ∀ a, Steady (f a)) : Steady (p >>= f) := by
  rw [Steady, onInner_bind]
  exact Rezip.Steady.bind hp hf

theorem Steady.pure {α : Type} (a : α) : Steady (Pure.pure a : EStateM Fail Sink α) := Rezip.Steady.pure a

theorem Steady.lift {α : Type} (x : Except Fail α) : Steady (liftE x : EStateM Fail Sink α) := by
  have : onInner (liftE x : EStateM Fail Sink α) = liftE x := by
    funext w
    cases x <;> rfl
  rw [Steady, this]
  exact Rezip.Steady.lift x

theorem Steady.writeAll (buf : List UInt8) : Steady (writeAll buf) := by
  have : onInner (Rezip.writeAll buf) = BitWriter.writeInner buf := by
    funext w
    unfold onInner BitWriter.writeInner
    cases Rezip.writeAll buf w.inner <;> rfl
  rw [Steady, this]
  exact Rezip.Steady.writeInner buf

theorem Steady.loop (take : EStateM Fail Source (List UInt8)) (fuel : Nat) (src : Source) (n : Nat)
    (all : List UInt8) : Steady (loop take fuel src n all) := by
  induction fuel generalizing src n all with
  | zero => exact lift _
  | succ fuel ih =>
    rw [Zero.loop]
    split
    · exact lift _
    · split
      · exact pure _
      · refine bind ?_ fun _ => ih _ _ _
        exact bind (writeAll _) fun _ => bind (writeAll _) fun _ => bind (writeAll _) fun _ => writeAll _

theorem Steady.tool (crc : List UInt8 → Nat) (inflate : List UInt8 → Source) (input : List UInt8) :
    Steady (tool crc inflate input) := by
  rw [Zero.tool]
  split
  · exact lift _
  · exact bind (lift _) fun _ => bind (writeAll _) fun _ => bind (loop _ _ _ _ _) fun _ =>
      bind (writeAll _) fun _ => writeAll _

end Zero

/-- C81. If standard output accepts only `r` more bytes, it has exactly the first `r` bytes of what would
have been written, and if that is not all the error is reported. This for any input, damaged or not, and any
decompressor. -/
theorem C81_output (crc : List UInt8 → Nat) (inflate : List UInt8 → Zero.Source) (input o : List UInt8)
    (r : Nat) : ∃ x, match Zero.tool crc inflate input ⟨o, none⟩ with
      | .ok _ s => s = ⟨o ++ x, none⟩ ∧
          (x.length ≤ r → Zero.tool crc inflate input ⟨o, some r⟩ = .ok () ⟨o ++ x, some (r - x.length)⟩) ∧
          (r < x.length → ∃ s', Zero.tool crc inflate input ⟨o, some r⟩ = .error (.err .sink) s' ∧
            s'.out = o ++ x.take r)
      | .error e s => s = ⟨o ++ x, none⟩ ∧
          (x.length ≤ r → Zero.tool crc inflate input ⟨o, some r⟩ = .error e ⟨o ++ x, some (r - x.length)⟩) ∧
          (r < x.length → ∃ s', Zero.tool crc inflate input ⟨o, some r⟩ = .error (.err .sink) s' ∧
            s'.out = o ++ x.take r) := by
  obtain ⟨x, hx⟩ := Zero.Steady.tool crc inflate input BitVector.new o
  refine ⟨x, ?_⟩
  unfold Zero.onInner at hx
  generalize Zero.tool crc inflate input = t at hx
  dsimp only at hx
  cases h1 : t ⟨o, none⟩ with
  | ok a s =>
    rw [h1] at hx
    dsimp only at hx ⊢
    refine ⟨hx.1, fun hr => ?_, fun hr => ?_⟩
    · have := (hx.2 r).1 hr
      cases h2 : t ⟨o, some r⟩ with
      | ok a' s' => rw [h2] at this; cases this; rfl
      | error e s' => rw [h2] at this; cases this
    · obtain ⟨w, h3, h4⟩ := (hx.2 r).2 hr
      cases h2 : t ⟨o, some r⟩ with
      | ok a' s' => rw [h2] at h3; cases h3
      | error e s' => rw [h2] at h3; cases h3; exact ⟨_, rfl, h4⟩
  | error e s =>
    rw [h1] at hx
    dsimp only at hx ⊢
    refine ⟨hx.1, fun hr => ?_, fun hr => ?_⟩
    · have := (hx.2 r).1 hr
      cases h2 : t ⟨o, some r⟩ with
      | ok a' s' => rw [h2] at this; cases this
      | error e s' => rw [h2] at this; cases this; rfl
    · obtain ⟨w, h3, h4⟩ := (hx.2 r).2 hr
      cases h2 : t ⟨o, some r⟩ with
      | ok a' s' => rw [h2] at h3; cases h3
      | error e s' => rw [h2] at h3; cases h3; exact ⟨_, rfl, h4⟩

/-- Standard output fails in the length of the stored block. -/
example : Zero.tool (fun _ => 0x01020304) ownInflate
      ([0x1f, 0x8b, 8, 0, 0, 0, 0, 0, 0, 3] ++ exampleStream ++ [1, 2, 3]) ⟨[], some 12⟩ =
    .error (.err .sink) ⟨[0x1f, 0x8b, 8, 0, 0, 0, 0, 0, 0, 3, 1, 1], some 0⟩ := by
  decide +kernel

/-! ### C82 -/

/-- C82. The rewritten file has five bytes more than the data for each chunk, and there is at most one chunk
per 8192 bytes, and one more. With the header and the eight bytes of the trailer that is all. -/
theorem C82_overhead (crc : List UInt8 → Nat) (header data file : List UInt8)
    (h : Zero.run crc header (data.map .ok) = .ok file) :
    ∃ cs, Chunks data cs ∧ file.length = header.length + data.length + 5 * cs.length + 8 ∧
      cs.length ≤ data.length / 8192 + 1 := by
  obtain ⟨cs, hc, _⟩ := taken_chunks data
  have hne : data ≠ [] := by
    rintro rfl
    cases h
  rw [Zero.run_chunks crc header data cs hne hc] at h
  have hblocks : ∀ cs : List (List UInt8), (Zero.chunkBlocks cs).length = cs.flatten.length + 5 * cs.length := by
    intro cs
    induction cs with
    | nil => rfl
    | cons c cs ih =>
      rw [Zero.chunkBlocks, List.length_append, ih, Zero.chunkBytes]
      simp [Zero.u16le]
      omega
  obtain ⟨f1, f2, f3⟩ := hc.facts
  refine ⟨cs, hc, ?_, ?_⟩
  · rw [← Except.ok.inj h]
    simp only [List.length_append, hblocks, f1]
    simp [Zero.u32le]
    omega
  · have key : ∀ cs : List (List UInt8), (∀ c ∈ cs, 8192 ≤ c.length) → 8192 * cs.length ≤ cs.flatten.length := by
      intro cs hcs
      induction cs with
      | nil => simp
      | cons c cs ih =>
        have := ih fun x hx => hcs x (by simp [hx])
        have := hcs c (by simp)
        simp only [List.length_cons, List.flatten_cons, List.length_append]
        omega
    have h1 := key _ f3
    have h2 : cs.dropLast.flatten.length ≤ data.length := by
      have : cs = cs.dropLast ++ [cs.getLast (by
          rintro rfl
          exact hne (f1.symm))] := (List.dropLast_concat_getLast _).symm
      rw [← f1]
      conv => rhs; rw [this]
      rw [List.flatten_append, List.length_append]
      omega
    rw [List.length_dropLast] at h1
    omega

/-- Two bytes in one chunk. -/
example : (Zero.run (fun _ => 0) [1, 2, 3] ([7, 8].map .ok)).map List.length = .ok (3 + 2 + 5 * 1 + 8) := by
  decide +kernel

end Rezip
