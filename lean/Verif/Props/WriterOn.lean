import Verif.Lemmas.WriterOn
import Verif.Props.Writer
import Verif.Props.Reader

/-!
# C98: the output only depends on what the writer takes, not on the pieces in which it takes it
-/

namespace Rezip

open Parse Serialise

/-- The outcome `x`, with the reader's error `e` where the input ends too early, and the writer's error `e'`
where the output is full. -/
def ioOutcome {α : Type} (e e' : Fail) : Except Fail α → Except Fail α
  | .error (.err .eof) => .error e
  | .error (.err .sink) => .error e'
  | x => x

theorem withBoth_eq {α : Type} (e e' : Fail) (x : Except Fail α) : withBoth e e' x = ioOutcome e e' x := by
  match x with
  | .ok a => rfl
  | .error (.panic p) => rw [withBoth, ioOutcome, if_neg (by simp), if_neg (by simp)] <;> simp
  | .error .diverge => rw [withBoth, ioOutcome, if_neg (by simp), if_neg (by simp)] <;> simp
  | .error (.err y) => cases y <;> rfl

/-- The sink that has what the pipe has and takes what the pipe takes before it fails. -/
def Pipe.sink (p : Pipe) : Sink := ⟨p.out, Pipe.roomOf p.events⟩

theorem Pipe.like (p : Pipe) : Pipe.Like [] (Pipe.failureOf p.events) p p.sink := ⟨rfl, rfl, rfl⟩

/-- C98, `cat`: let the file arrive in any pieces, and be the output taken in any pieces, both with any
interruptions. The bytes written are those that a single `write` of everything would have left, and the
outcome is that for the whole file; where the file ends too early it is the reader's error, and where the
output is refused it is the writer's error. -/
theorem C98_cat (s : Script) (p : Pipe) :
    (Cat.runIO Script.reader Pipe.writer s p).1 =
        ioOutcome s.final (Pipe.failureOf p.events) (Cat.run s.bytes p.sink).1 ∧
      (Cat.runIO Script.reader Pipe.writer s p).2.out = (Cat.run s.bytes p.sink).2.out := by
  obtain ⟨w', h1, h2⟩ := sim_catIO (Script.serves s.final) (Pipe.takes [] (Pipe.failureOf p.events))
    (r := s) (bytes := s.bytes) ⟨rfl, rfl⟩ p.like
  rw [h1, ← withBoth_eq]
  exact ⟨rfl, h2⟩

/-- C98, `cat`, any two ways to read the same bytes and to write to the same room: the same output. -/
theorem C98_pieces (s s' : Script) (p p' : Pipe) (hb : s.bytes = s'.bytes) (hf : s.final = s'.final)
    (ho : p.out = p'.out) (hr : Pipe.roomOf p.events = Pipe.roomOf p'.events)
    (he : Pipe.failureOf p.events = Pipe.failureOf p'.events) :
    (Cat.runIO Script.reader Pipe.writer s p).1 = (Cat.runIO Script.reader Pipe.writer s' p').1 ∧
      (Cat.runIO Script.reader Pipe.writer s p).2.out = (Cat.runIO Script.reader Pipe.writer s' p').2.out := by
  rw [(C98_cat s p).1, (C98_cat s p).2, (C98_cat s' p').1, (C98_cat s' p').2, hb, hf, he, Pipe.sink, Pipe.sink, ho, hr]
  exact ⟨rfl, rfl⟩

/-- Compress blocks and align, to a writer of any kind. -/
def compressOn {ω : Type} (W : Writer ω) (blocks : List Block) (w : ω) : Except Fail Unit × ω :=
  match (do recompressLoopOn W blocks; BitWriterOn.align W) (BitWriterOn.new w) with
  | .ok _ w => (.ok (), w.inner)
  | .error e w => (.error e, w.inner)

/-- The outcome `x`, with the writer's error `e'` where the output is full. -/
def outOutcome {α : Type} (e' : Fail) : Except Fail α → Except Fail α
  | .error (.err .sink) => .error e'
  | x => x

theorem relabelW_eq {α : Type} (e' x : Fail) : (.error (relabelW e' x) : Except Fail α) = outOutcome e' (.error x) := by
  match x with
  | .panic p => rw [relabelW_ne (by simp), outOutcome]; simp
  | .diverge => rw [relabelW_ne (by simp), outOutcome]; simp
  | .err y => cases y <;> rfl

theorem compressOn_like (blocks : List Block) (base : List UInt8) (p : Pipe) (s : Sink)
    (h : Pipe.Like base (Pipe.failureOf p.events) p s) :
    (compressOn Pipe.writer blocks p).1 = outOutcome (Pipe.failureOf p.events) (compressTo blocks s).1 ∧
      (compressOn Pipe.writer blocks p).2.out = base ++ (compressTo blocks s).2.out := by
  have hW := Pipe.takes base (Pipe.failureOf p.events)
  have := ((simW_recompressLoop hW blocks).bind fun _ => simW_align hW) (BitWriterOn.new p) (BitWriter.new s)
    ⟨h, rfl⟩
  unfold SimAt at this
  unfold compressOn compressTo
  cases hx : (do recompressLoop blocks; BitWriter.align) (BitWriter.new s) with
  | ok a w =>
    rw [hx] at this
    obtain ⟨w', h1, h2⟩ := this
    rw [h1]
    exact ⟨rfl, h2.1.1⟩
  | error x w =>
    rw [hx] at this
    obtain ⟨w', h1, h2⟩ := this
    rw [h1, ← relabelW_eq]
    exact ⟨rfl, h2⟩

theorem compressOn_base (blocks : List Block) (p : Pipe) :
    (compressOn Pipe.writer blocks p).1 =
        outOutcome (Pipe.failureOf p.events) (compressTo blocks ⟨[], Pipe.roomOf p.events⟩).1 ∧
      (compressOn Pipe.writer blocks p).2.out = p.out ++ (compressTo blocks ⟨[], Pipe.roomOf p.events⟩).2.out :=
  compressOn_like blocks p.out p _ ⟨by simp, rfl, rfl⟩

theorem compressTo_vec (blocks : List Block) (d : List UInt8) (h : recompress blocks = .ok d) :
    compressTo blocks ⟨[], none⟩ = (.ok (), ⟨d, none⟩) := by
  obtain ⟨res, x, h1, h2, h3⟩ := C79_failing_writer blocks [] 0
  unfold recompress Sink.vec at h
  unfold compressTo at h1 ⊢
  cases hw : (do recompressLoop blocks; BitWriter.align) (BitWriter.new ⟨[], none⟩) with
  | error e w => rw [hw] at h; cases h
  | ok a w =>
    rw [hw] at h h1
    dsimp only at h h1 ⊢
    simp only [List.nil_append, Prod.mk.injEq] at h1
    rw [BitWriter.intoInner] at h
    obtain ⟨s, h4, h5⟩ := Ex.bind_eq_ok.1 h
    obtain ⟨_, _, h6⟩ := Ex.bind_eq_ok.1 h4
    cases h6
    cases h5
    rw [h1.2]

/-- C98, the compressor on any blocks: the bytes written and the outcome. -/
theorem C98_compress (blocks : List Block) (p : Pipe) :
    (compressOn Pipe.writer blocks p).1 = outOutcome (Pipe.failureOf p.events) (compressTo blocks p.sink).1 ∧
      (compressOn Pipe.writer blocks p).2.out = (compressTo blocks p.sink).2.out :=
  compressOn_like blocks [] p p.sink p.like

/-- C98, a stream that can be compressed: all of it is written, or as much as the writer takes, and then its
error is reported. -/
theorem C98_recompress (blocks : List Block) (d : List UInt8) (h : recompress blocks = .ok d) (p : Pipe) :
    (compressOn Pipe.writer blocks p).2.out = p.out ++ (match Pipe.roomOf p.events with
      | none => d
      | some r => d.take r) ∧
    (compressOn Pipe.writer blocks p).1 = (match Pipe.roomOf p.events with
      | none => .ok ()
      | some r => if d.length ≤ r then .ok () else .error (Pipe.failureOf p.events)) := by
  obtain ⟨h1, h2⟩ := compressOn_base blocks p
  rw [h1, h2]
  cases hr : Pipe.roomOf p.events with
  | none =>
    rw [compressTo_vec blocks d h]
    exact ⟨rfl, rfl⟩
  | some r =>
    obtain ⟨h4, h5⟩ := C79_recompress blocks d h r
    dsimp only
    rw [h4]
    refine ⟨rfl, ?_⟩
    by_cases hfit : d.length ≤ r
    · rw [h5.2 hfit, if_pos hfit, outOutcome]
      simp
    · rw [if_neg hfit]
      obtain ⟨res, x, h6, h7, h8⟩ := C79_failing_writer blocks [] r
      rw [compressTo_vec blocks d h] at h6
      simp only [Prod.mk.injEq, Sink.mk.injEq, List.nil_append, and_true] at h6
      obtain ⟨rfl, rfl⟩ := h6
      rw [(h8 (by omega)).1]
      rfl

/-- C98, decompressing a block with any dictionary: the bytes written, the outcome, and the dictionary
afterwards. -/
theorem C98_decompress (b : Block) (dict : CircularBuffer) (p : Pipe) :
    match decompressedBlock b ⟨dict, p.sink⟩ with
    | .ok _ st => ∃ p', decompressedBlockOn Pipe.writer b ⟨dict, p⟩ = .ok () ⟨st.dict, p'⟩ ∧ p'.out = st.into.out ∧
        Pipe.roomOf p'.events = st.into.room ∧ Pipe.failureOf p'.events = Pipe.failureOf p.events
    | .error x st => ∃ w', decompressedBlockOn Pipe.writer b ⟨dict, p⟩ =
          .error (if x = .err .sink then Pipe.failureOf p.events else x) w' ∧ w'.into.out = st.into.out := by
  have hW := Pipe.takes [] (Pipe.failureOf p.events)
  have := simW_decompressedBlock hW b ⟨dict, p⟩ ⟨dict, p.sink⟩ ⟨p.like, rfl⟩
  unfold SimAt at this
  cases hx : decompressedBlock b ⟨dict, p.sink⟩ with
  | ok a st =>
    rw [hx] at this
    obtain ⟨w', h1, h2, h3⟩ := this
    refine ⟨w'.into, ?_, h2⟩
    rw [h1, ← h3]
  | error x st =>
    rw [hx] at this
    exact this

/-- C98, `zero`, on any bytes from its decoder, with or without an error in between: the bytes written, and
the outcome. -/
theorem C98_zero (crc : List UInt8 → Nat) (header : List UInt8) (src : Zero.Source) (p : Pipe)
    (hsrc : ∀ x ∈ src, x ≠ .error (.err .sink)) :
    match Zero.runTo crc header src p.sink with
    | .ok _ s => ∃ p', Zero.runToOn Pipe.writer crc header src p = .ok () p' ∧ p'.out = s.out
    | .error x s => ∃ p', Zero.runToOn Pipe.writer crc header src p =
          .error (if x = .err .sink then Pipe.failureOf p.events else x) p' ∧ p'.out = s.out := by
  have := simW_runTo (Pipe.takes [] (Pipe.failureOf p.events)) crc header src hsrc p p.sink p.like
  unfold SimAt at this
  cases hx : Zero.runTo crc header src p.sink with
  | ok a st =>
    rw [hx] at this
    obtain ⟨w', h1, h2⟩ := this
    exact ⟨w', h1, h2.1⟩
  | error x st =>
    rw [hx] at this
    exact this

/-- The pieces of an output: one byte, an interruption, two bytes, three bytes, then a broken pipe; of a file
in pieces as well. -/
example : Pipe.roomOf [.takes 0, .interrupted, .takes 1, .takes 2, .failure .device] = some 6 ∧
    Pipe.failureOf [.takes 0, .interrupted, .takes 1, .takes 2, .failure .device] = .err .device ∧
    Pipe.roomOf [.takes 0, .interrupted] = none := by decide

/-- A file with the stored block "abc", in pieces, to a pipe that takes pieces: it arrives. To one that breaks
after two bytes: these two, and the error. -/
example :
    Cat.runIO Script.reader Pipe.writer
        [.data 0x1f [0x8b, 8, 0], .interrupted, .data 0 [0, 0, 0, 0, 3, 1, 3, 0], .data 0xfc [0xff, 0x61, 0x62, 0x63]]
        ⟨[0x2a], [.takes 0, .interrupted, .takes 0]⟩ =
      (.ok (), ⟨[0x2a, 0x61, 0x62, 0x63], []⟩) ∧
    Cat.runIO Script.reader Pipe.writer
        [.data 0x1f [0x8b, 8, 0], .interrupted, .data 0 [0, 0, 0, 0, 3, 1, 3, 0], .data 0xfc [0xff, 0x61, 0x62, 0x63]]
        ⟨[0x2a], [.takes 0, .interrupted, .takes 0, .failure .device]⟩ =
      (.error (.err .device), ⟨[0x2a, 0x61, 0x62], []⟩) := by decide +kernel

example : recompress [.fixedHuffman [.literal 0x61], .fixedHuffman [.literal 0x62]] =
      .ok [0x4a, 0x04, 0x2c, 0x09, 0x00] ∧
    compressOn Pipe.writer [.fixedHuffman [.literal 0x61], .fixedHuffman [.literal 0x62]]
        ⟨[], [.interrupted, .takes 0, .takes 1, .failure .device, .takes 7]⟩ =
      (.error (.err .device), ⟨[0x4a, 0x04, 0x2c], [.takes 7]⟩) := by decide +kernel

/-- `zero` with two bytes from its decoder, and with an error from it. -/
example :
    Zero.runToOn Pipe.writer (fun _ => 7) [0x1f] [.ok 1, .ok 2] ⟨[], [.takes 1, .interrupted, .takes 4, .failure .device]⟩ =
      .error (.err .device) ⟨[0x1f, 1, 2, 0, 0xfd, 0xff, 1], []⟩ ∧
    Zero.runToOn Pipe.writer (fun _ => 7) [0x1f] [.ok 1, .error (.err .eof)] ⟨[], [.takes 0, .interrupted]⟩ =
      .error (.err .eof) ⟨[0x1f], [.interrupted]⟩ := by decide +kernel

end Rezip
