import Verif.Lemmas.Reader
import Verif.Props.Parse
import Verif.Props.Gzip
import Verif.Props.Filter

/-!
# C96: input that arrives in pieces, and input that fails; C97: nothing is read ahead
-/

namespace Rezip

open Parse Spec

/-- The outcome with another error in place of the end of the input. -/
def endsWith {α : Type} (e : Fail) : Except Fail α → Except Fail α
  | .error (.err .eof) => .error e
  | x => x

theorem withEnd_eq {α : Type} (e : Fail) (x : Except Fail α) : withEnd e x = endsWith e x := by
  match x with
  | .ok a => rfl
  | .error (.err .eof) => rw [withEnd, relabel_eof, endsWith]
  | .error (.panic p) => rw [withEnd, relabel_ne (by simp), endsWith]; simp
  | .error .diverge => rw [withEnd, relabel_ne (by simp), endsWith]; simp
  | .error (.err y) =>
    by_cases hy : y = .eof
    · subst hy; rw [withEnd, relabel_eof, endsWith]
    · rw [withEnd, relabel_ne (by simpa using hy), endsWith]
      simpa using hy

/-- What `for block in parse_deflate(reader)` sees in its first `n` iterations, up to the first error. -/
def itemsOn {ρ : Type} (R : Reader ρ) : Nat → BlockIterOn ρ → List (Option (Except Fail Block))
  | 0, _ => []
  | n + 1, it =>
    match it.next R with
    | (none, _) => [none]
    | (some (.error e), _) => [some (.error e)]
    | (some (.ok b), it) => some (.ok b) :: itemsOn R n it

/-- The same for a byte string. -/
def items : Nat → BlockIter → List (Option (Except Fail Block))
  | 0, _ => []
  | n + 1, it =>
    match it.next with
    | (none, _) => [none]
    | (some (.error e), _) => [some (.error e)]
    | (some (.ok b), it) => some (.ok b) :: items n it

theorem itemsOn_eq {ρ : Type} {R : Reader ρ} {S : ρ → List UInt8 → Prop} {e : Fail} (h : Serves R S e) (n : Nat)
    {g : BlockIterOn ρ} {o : BlockIter} (ho : OnIter S g o) :
    itemsOn R n g = (items n o).map (Option.map (endsWith e)) := by
  induction n generalizing g o with
  | zero => rfl
  | succ n ih =>
    have hn := sim_next h ho
    rw [itemsOn, items]
    match hx : o.next with
    | (none, o') =>
      rw [hx] at hn
      obtain ⟨g', hn, _⟩ := hn
      rw [hn]
      rfl
    | (some (.error x), o') =>
      rw [hx] at hn
      obtain ⟨g', hn⟩ := hn
      rw [hn]
      have := withEnd_eq e (.error x : Except Fail Block)
      simp only [List.map_cons, List.map_nil, Option.map_some, ← this]
      rfl
    | (some (.ok b), o') =>
      rw [hx] at hn
      obtain ⟨g', hn, ho'⟩ := hn
      rw [hn]
      dsimp only
      rw [ih ho']
      rfl

/-- C96, `cat`: whatever the pieces the file arrives in, and however often reading it is interrupted, the
output is that for the whole file, and so is the outcome. If the reader fails after some bytes, the output
is that for these bytes, and its error is reported if and only if the file with just these bytes is cut
short. -/
theorem C96_cat (s : Script) (stdout : Sink) :
    Cat.runOn Script.reader s stdout =
      (endsWith s.final (Cat.run s.bytes stdout).1, (Cat.run s.bytes stdout).2) := by
  rw [sim_cat (Script.serves s.final) ⟨rfl, rfl⟩, withEnd_eq]

/-- C96, `dump`. -/
theorem C96_dump (dbg : UInt8 → List Char) (s : Script) :
    Dump.runOn Script.reader dbg s = (endsWith s.final (Dump.run dbg s.bytes).1, (Dump.run dbg s.bytes).2) := by
  rw [sim_dump (Script.serves s.final) dbg ⟨rfl, rfl⟩, withEnd_eq]

/-- C96, the header: the same header is returned, and the reader will deliver just the bytes after it. -/
theorem C96_header (s : Script) :
    match Gzip.discardHeader s.bytes with
    | .ok header rest => ∃ s', Gzip.discardHeaderOn Script.reader s = .ok header s' ∧ s'.bytes = rest ∧
        s'.final = s.final
    | .error e _ => ∃ s', Gzip.discardHeaderOn Script.reader s =
        .error (if e = .err .eof then s.final else e) s' := by
  have := sim_discardHeader (Script.serves s.final) s s.bytes ⟨rfl, rfl⟩
  cases hx : Gzip.discardHeader s.bytes with
  | ok header rest => rw [hx] at this; exact this
  | error e rest => rw [hx] at this; exact this

/-- C96, the blocks: a loop over the blocks of a reader sees the blocks of the byte string it delivers; where
the byte string ends too early, it sees the error of the reader. -/
theorem C96_blocks (s : Script) (n : Nat) :
    itemsOn Script.reader n (parseDeflateOn s) =
      (items n (parseDeflate s.bytes)).map (Option.map (endsWith s.final)) :=
  itemsOn_eq (Script.serves s.final) n (onIter_parse ⟨rfl, rfl⟩)

/-- C96, traces: if the reader just ends, the trace read is that of the bytes. If it fails with an error of
another kind than end of input, reading the trace fails with that error, even if the failure is at the end of
a complete trace: what was read before is never returned as if it were all. -/
theorem C96_trace (s : Script) :
    SerialiseTrace.readOn Script.reader s =
      if s.final = .err .eof then SerialiseTrace.read s.bytes else .error s.final :=
  sim_trace (Script.serves s.final) ⟨rfl, rfl⟩

/-- C96: no tool and no function can tell two readers apart that deliver the same bytes, however they
are cut. -/
theorem C96_pieces (s t : Script) (hb : s.bytes = t.bytes) (hf : s.final = t.final) :
    (∀ out, Cat.runOn Script.reader s out = Cat.runOn Script.reader t out) ∧
    (∀ dbg, Dump.runOn Script.reader dbg s = Dump.runOn Script.reader dbg t) ∧
    (∀ n, itemsOn Script.reader n (parseDeflateOn s) = itemsOn Script.reader n (parseDeflateOn t)) ∧
    SerialiseTrace.readOn Script.reader s = SerialiseTrace.readOn Script.reader t := by
  refine ⟨fun out => ?_, fun dbg => ?_, fun n => ?_, ?_⟩
  · rw [C96_cat, C96_cat, hb, hf]
  · rw [C96_dump, C96_dump, hb, hf]
  · rw [C96_blocks, C96_blocks, hb, hf]
  · rw [C96_trace, C96_trace, hb, hf]

/-- A pipe that is cut inside the header and inside the stream, with interrupted calls. -/
def examplePipe : Script :=
  [.interrupted, .data 0x1f [0x8b, 8], .data 8 [0, 0, 0, 0, 0, 3, 97], .interrupted, .interrupted, .data 0 [],
    .data 0x4b [], .interrupted, .data 4 [0, 1, 2]]

example : examplePipe.bytes = [0x1f, 0x8b, 8, 8, 0, 0, 0, 0, 0, 3, 97, 0, 0x4b, 4, 0, 1, 2] ∧
    examplePipe.final = .err .eof ∧
    Cat.runOn Script.reader examplePipe Sink.vec = (.ok (), ⟨[0x61], none⟩) := by
  decide +kernel

/-- The same pipe failing inside the stream, and failing where the stream is complete. -/
example :
    Cat.runOn Script.reader (examplePipe.take 8 ++ [.failure .device]) Sink.vec =
      (.error (.err .device), Sink.vec) ∧
    Cat.runOn Script.reader (examplePipe.take 8 ++ [.data 4 [0], .failure .device, .data 1 []]) Sink.vec =
      (.ok (), ⟨[0x61], none⟩) := by
  decide +kernel

/-- A trace in pieces, and one whose reader fails after a whole number of entries. -/
example :
    SerialiseTrace.readOn Script.reader [.data 2 [], .interrupted, .data 0x80 [0], .data 0 []] =
      .ok [.correct, .correct, .actuallyLiteral] ∧
    SerialiseTrace.readOn Script.reader [.data 2 [], .interrupted, .data 0x80 [0], .data 0 [], .failure .device] =
      .error (.err .device) := by
  decide +kernel

/-! ### C97 -/

/-- C97: reading a header and then all blocks of a stream from a reader, in whatever pieces it delivers them,
takes exactly these bytes from it. Whatever follows, for example the trailer of the gzip file, is still
delivered by the reader, without a byte missing or read ahead, and so is its end or failure. -/
theorem C97_position (hd : GzHeader) (hv : hd.Valid) (blocks : List Block) (d rest : List UInt8)
    (hb : DeflateBytes blocks d) (s : Script) (hs : s.bytes = hd.bytes ++ d ++ rest) :
    ∃ s' it, Gzip.discardHeaderOn Script.reader s = .ok hd.bytes s' ∧
      collectOn Script.reader s' = (.ok (), blocks, it) ∧
      it.inner.inner.bytes = rest ∧ it.inner.inner.final = s.final := by
  have h1 := sim_discardHeader (Script.serves s.final) s s.bytes ⟨rfl, rfl⟩
  rw [hs, List.append_assoc, C57_accepted hd hv] at h1
  obtain ⟨s', h1, h2⟩ := h1
  obtain ⟨it, h3, h4⟩ := sim_collect (Script.serves s.final) h2 ((C22_parse_iff _ _ _).2 ⟨d, rfl, hb⟩)
  exact ⟨s', it, h1, h3, h4.1, h4.2⟩

/-- C97: the same through a `FilterRead`. Its hash is that of the header and the stream, without any of the bytes
that follow. -/
theorem C97_hash {H : Type} (h : Filter.Hasher H) (hi : Filter.Incremental h) (h0 : h.update h.init [] = h.init)
    (hd : GzHeader) (hv : hd.Valid) (blocks : List Block) (d rest : List UInt8) (hb : DeflateBytes blocks d)
    (s : Script) (hs : s.bytes = hd.bytes ++ d ++ rest) :
    ∃ f it, Gzip.discardHeaderOn (Filter.reader h) (Filter.new h s) = .ok hd.bytes f ∧
      Filter.hash h f = h.finalize (h.update h.init hd.bytes) ∧
      collectOn (Filter.reader h) f = (.ok (), blocks, it) ∧
      Filter.hash h it.inner.inner = h.finalize (h.update h.init (hd.bytes ++ d)) ∧
      (Filter.intoInner it.inner.inner).bytes = rest ∧ (Filter.intoInner it.inner.inner).final = s.final := by
  have hsv := Filter.serves h hi s.bytes s.final
  have h1 := sim_discardHeader hsv (Filter.new h s) s.bytes ⟨rfl, rfl, [], rfl, by rw [h0]; rfl⟩
  rw [hs, List.append_assoc, C57_accepted hd hv, ← List.append_assoc, ← hs] at h1
  obtain ⟨f, h1, h2⟩ := h1
  obtain ⟨it, h3, h4⟩ := sim_collect hsv h2 ((C22_parse_iff _ _ _).2 ⟨d, rfl, hb⟩)
  refine ⟨f, it, h1, ?_, h3, ?_, h4.1, h4.2.1⟩
  · obtain ⟨_, _, p, hp, hh⟩ := h2
    rw [hs, List.append_assoc] at hp
    rw [Filter.hash, hh, List.append_cancel_right hp]
  · obtain ⟨_, _, p, hp, hh⟩ := h4
    rw [hs] at hp
    rw [Filter.hash, hh, List.append_cancel_right hp]

/-- The pipe of above: what is left are the two bytes that follow the stream. The hash is one that keeps the
bytes. -/
example :
    (match Gzip.discardHeaderOn (Filter.reader ⟨[], fun s b => s ++ b, id⟩)
        (Filter.new ⟨[], fun s b => s ++ b, id⟩ examplePipe) with
      | .ok _ f =>
        let (r, blocks, it) := collectOn (Filter.reader ⟨[], fun s b => s ++ b, id⟩) f
        (r, blocks, it.inner.inner.hash, it.inner.inner.inner)
      | .error e _ => (.error e, [], [], [])) =
    (.ok (), [.fixedHuffman [.literal 0x61]], [0x1f, 0x8b, 8, 8, 0, 0, 0, 0, 0, 3, 97, 0, 0x4b, 4, 0],
      [.data 1 [2]]) := by
  decide +kernel

end Rezip
