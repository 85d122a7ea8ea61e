import Verif.Lemmas.Stdout
import Verif.Props.WriterOn
import Verif.Props.Main

/-!
# C113: what the commands report when standard output cannot take everything

Standard output holds back what comes after the last newline, up to 1024 bytes, and `cat` and `zero` do not flush it.
So the property is false for them: the end of the output can be lost although the command succeeds. It is shown here
what is lost. The property holds for `dump`, whose text ends in a newline.
-/

namespace Rezip

open Rezip.Spec Parse

/-- `x` is what the command would write, and `r` how it would end. The descriptor gets all of `x`, or the beginning
that it has room for. The command ends with `r` if the descriptor takes `d`, all but the end `k`; else it reports the
failure. `k` has at most 1024 bytes and no newline. If there are less than 1024 bytes after the last newline, then `k`
is all of them. -/
def LineBuffered (r : Except Fail Unit) (x : List UInt8) (command : Sink → Except Fail Unit × Sink) : Prop :=
  ∃ d k, x = d ++ k ∧ k.length ≤ 1024 ∧ 10 ∉ k ∧
    (∀ l t, x = l ++ t → (l = [] ∨ ∃ l', l = l' ++ [10]) → 10 ∉ t → t.length < 1024 → d = l) ∧
    ∀ o room, (command ⟨o, room⟩).2.out = o ++ taken room x ∧
      (Fits room d.length → (command ⟨o, room⟩).1 = r) ∧
      (¬ Fits room d.length → (command ⟨o, room⟩).1 = .error (.err .sink))

theorem tailOf_eq {l t : List UInt8} (hl : l = [] ∨ ∃ l', l = l' ++ [10]) (ht : 10 ∉ t) :
    LineWriter.tailOf (l ++ t) = t := by
  rw [LineWriter.tailOf_append' _ _ ht]
  rcases hl with rfl | ⟨l', rfl⟩
  · rfl
  · rw [LineWriter.tailOf_append _ _ (by simp)]
    rfl

theorem lineBuffered_of_writes {f : ∀ ω : Type, Writer ω → EStateM Fail ω Unit} {ps : List (List UInt8)}
    {r : Except Fail Unit} (hf : Writes f ps r) :
    LineBuffered r ps.flatten fun fd => Stdout.finish (f _ LineWriter.writer (.new fd)) := by
  obtain ⟨d, k, h1, h2, h3, h0, h4⟩ := stdout_writes hf
  refine ⟨d, k, h1.symm, h2, h3, fun l t hx hl ht hlen => ?_, fun o room => ?_⟩
  · rw [hx, tailOf_eq hl ht] at h0
    rw [hx, h0 hlen] at h1
    exact List.append_cancel_right h1
  · obtain ⟨h5, h6, h7⟩ := h4 o room
    exact ⟨h7, h5, h6⟩

/-- With an output that takes everything. -/
def sinkWriter : Writer Sink := ⟨writeAll⟩

theorem writeEach_vec (ps : List (List UInt8)) (o : List UInt8) :
    sinkWriter.writeEach ps ⟨o, none⟩ = .ok () ⟨o ++ ps.flatten, none⟩ := by
  induction ps generalizing o with
  | nil => simp [Writer.writeEach]
  | cons p ps ih =>
    show (writeAll p >>= fun _ => sinkWriter.writeEach ps) _ = _
    have h : writeAll p ⟨o, none⟩ = .ok () ⟨o ++ p, none⟩ := rfl
    rw [ES.bind_ok h, ih, List.flatten_cons, List.append_assoc]

/-- How a command ended, and what it had written. -/
def ended : EStateM.Result Fail Sink Unit → Except Fail Unit × List UInt8
  | .ok _ s => (.ok (), s.out)
  | .error e s => (.error e, s.out)

theorem Writes.ended {f : ∀ ω : Type, Writer ω → EStateM Fail ω Unit} {ps : List (List UInt8)}
    {r : Except Fail Unit} (hf : Writes f ps r) : Rezip.ended (f _ sinkWriter Sink.vec) = (r, ps.flatten) := by
  rw [hf _ sinkWriter, Sink.vec, ES.bind_ok (writeEach_vec ps []), List.nil_append]
  cases r <;> rfl

theorem takes_sink : Takes sinkWriter Eq Eq (.err .sink) where
  weaken := id
  ok := by
    rintro w _ s' buf rfl h
    exact ⟨s', h, rfl⟩
  error := by
    rintro w _ s' x buf rfl h
    refine ⟨s', ?_, rfl⟩
    show writeAll buf w = _
    rw [h]
    unfold writeAll at h
    split at h
    · cases h
    · split at h
      · cases h
      · cases h; rfl

/-! ### cat -/

/-- C113, `cat`: it is as if all were written at once, but for the end of the output. -/
theorem C113_cat (s : Script) :
    LineBuffered (ioOutcome s.final (.err .sink) (Cat.run s.bytes Sink.vec).1) (Cat.run s.bytes Sink.vec).2.out
      (Stdout.cat Script.reader s) := by
  obtain ⟨ps, r, h⟩ := writes_cat Script.reader s
  have h1 := h.ended
  obtain ⟨w', h2, h3⟩ := sim_catIO (Script.serves s.final) takes_sink (r := s) (bytes := s.bytes) ⟨rfl, rfl⟩
    (w := Sink.vec) (stdout := Sink.vec) rfl
  rw [h2, withBoth_eq, h3] at h1
  have h4 : LineBuffered r ps.flatten (Stdout.cat Script.reader s) := by
    refine (congrArg (LineBuffered r ps.flatten) (funext fun fd => ?_)).mp (lineBuffered_of_writes h)
    unfold Stdout.cat
    cases Cat.runIO Script.reader LineWriter.writer s (.new fd) with
    | mk a w => cases a <;> rfl
  generalize ioOutcome s.final (.err .sink) (Cat.run s.bytes Sink.vec).1 = a at h1 ⊢
  cases a with
  | ok u => obtain ⟨h5, h6⟩ := Prod.mk.inj h1; rw [h5, h6]; exact h4
  | error e => obtain ⟨h5, h6⟩ := Prod.mk.inj h1; rw [h5, h6]; exact h4

theorem LineBuffered.success {r : Except Fail Unit} {x : List UInt8} {command : Sink → Except Fail Unit × Sink}
    (h : LineBuffered r x command) (o : List UInt8) (room : Option Nat) (hok : (command ⟨o, room⟩).1 = .ok ()) :
    ∃ lost, o ++ x = (command ⟨o, room⟩).2.out ++ lost ∧ lost.length ≤ 1024 ∧ 10 ∉ lost := by
  obtain ⟨d, k, h1, h2, h3, _, h4⟩ := h
  obtain ⟨h5, h6, h7⟩ := h4 o room
  by_cases hd : Fits room d.length
  · rw [h5]
    cases room with
    | none => exact ⟨[], by simp [taken], Nat.zero_le _, by simp⟩
    | some n =>
      have hn := hd n rfl
      refine ⟨k.drop (n - d.length), ?_, by rw [List.length_drop]; omega, fun hm => h3 (List.mem_of_mem_drop hm)⟩
      rw [taken, h1, List.append_assoc, List.take_append, List.take_of_length_le hn, List.append_assoc,
        List.take_append_drop]
  · rw [h7 hd] at hok
    cases hok

/-- C113, `cat`, what holds: if it reports success, then at most the last 1024 bytes are missing, and what is missing
has no newline. Missing in the theorem: that nothing is. That is false, see `C113_cat_lost`. -/
theorem C113_cat_partial (s : Script) (o : List UInt8) (room : Option Nat)
    (hok : (Stdout.cat Script.reader s ⟨o, room⟩).1 = .ok ()) :
    ∃ lost, o ++ (Cat.run s.bytes Sink.vec).2.out = (Stdout.cat Script.reader s ⟨o, room⟩).2.out ++ lost ∧
      lost.length ≤ 1024 ∧ 10 ∉ lost :=
  (C113_cat s).success o room hok

/-- C113, `cat`, what does not hold: of every file whose data ends in `t`, less than 1024 bytes after the last newline,
any number of bytes of `t` can be lost, and the command reports success. -/
theorem C113_cat_lost (hd : GzHeader) (hv : hd.Valid) (d rest x l t : List UInt8) (blocks : List Block)
    (hb : DeflateBytes blocks d) (hx : lzExpand 32768 [] (blocks.flatMap lzCodes) = some x) (s : Script)
    (hs : s.bytes = hd.bytes ++ d ++ rest) (hlt : x = l ++ t) (hl : l = [] ∨ ∃ l', l = l' ++ [10]) (ht : 10 ∉ t)
    (hlen : t.length < 1024) (o : List UInt8) (n : Nat) (hn : n ≤ t.length) :
    (Stdout.cat Script.reader s ⟨o, some (l.length + n)⟩).1 = .ok () ∧
      (Stdout.cat Script.reader s ⟨o, some (l.length + n)⟩).2.out = o ++ l ++ t.take n := by
  have hc := C62_cat hd hv d rest [] x blocks hb hx
  obtain ⟨d', k, h1, h2, h3, h4, h5⟩ := C113_cat s
  rw [hs, Sink.vec, hc, List.nil_append] at h1 h4 h5
  have hd' := h4 l t hlt hl ht hlen
  obtain ⟨h6, h7, _⟩ := h5 o (some (l.length + n))
  refine ⟨h7 ?_, ?_⟩
  · rintro r hr
    cases hr
    rw [hd']
    omega
  · rw [h6, hlt, taken, List.take_append, List.take_of_length_le (by omega), List.append_assoc,
      show l.length + n - l.length = n by omega]

/-- C113 is false of `cat`: of a file with the byte `a`, to a full disk, it writes nothing and succeeds. -/
theorem C113_cat_false : ¬ ∀ (s : Script) (o : List UInt8) (room : Option Nat),
    (Stdout.cat Script.reader s ⟨o, room⟩).1 = .ok () →
      (Stdout.cat Script.reader s ⟨o, room⟩).2.out = o ++ (Cat.run s.bytes Sink.vec).2.out := by
  intro h
  exact absurd (h [.data 0x1f [0x8b, 8, 0, 0, 0, 0, 0, 0, 3, 1, 1, 0, 0xfe, 0xff, 0x61]] [] (some 0) (by decide +kernel))
    (by decide +kernel)

/-! ### zero -/

theorem zeroLoop_sink (take : EStateM Fail Zero.Source (List UInt8)) (fuel : Nat) (src : Zero.Source) (len : Nat)
    (all : List UInt8) : Zero.loopOn sinkWriter take fuel src len all = Zero.loop take fuel src len all := by
  induction fuel generalizing src len all with
  | zero => rfl
  | succ fuel ih =>
    rw [Zero.loopOn, Zero.loop]
    cases take src with
    | error e s => rfl
    | ok buf src' =>
      dsimp only
      split
      · rfl
      · simp only [ih]
        rfl

theorem toolOn_sink (crc : List UInt8 → Nat) (inflate : List UInt8 → Zero.Source) (input : List UInt8) :
    Zero.toolOn sinkWriter crc inflate input = Zero.tool crc inflate input := by
  unfold Zero.toolOn Zero.tool
  cases Gzip.discardHeader input with
  | error e s => rfl
  | ok header rest =>
    dsimp only
    unfold Zero.runToOn Zero.runTo
    simp only [zeroLoop_sink]
    rfl

/-- C113, `zero`: it is as if all were written at once, but for the end of the output. -/
theorem C113_zero (crc : List UInt8 → Nat) (inflate : List UInt8 → Zero.Source) (input : List UInt8) :
    LineBuffered (ended (Zero.tool crc inflate input Sink.vec)).1 (ended (Zero.tool crc inflate input Sink.vec)).2
      (Stdout.zero crc inflate input) := by
  obtain ⟨ps, r, h⟩ := writes_zero crc inflate input
  have h1 := h.ended
  rw [toolOn_sink] at h1
  rw [h1]
  exact lineBuffered_of_writes h

/-- C113, `zero`, what holds: if it reports success, then at most the last 1024 bytes are missing, and what is missing
has no newline. Missing in the theorem: that nothing is. That is false, see `C113_zero_lost`. -/
theorem C113_zero_partial (crc : List UInt8 → Nat) (inflate : List UInt8 → Zero.Source) (input o : List UInt8)
    (room : Option Nat) (hok : (Stdout.zero crc inflate input ⟨o, room⟩).1 = .ok ()) :
    ∃ lost, o ++ (ended (Zero.tool crc inflate input Sink.vec)).2 = (Stdout.zero crc inflate input ⟨o, room⟩).2.out ++ lost ∧
      lost.length ≤ 1024 ∧ 10 ∉ lost :=
  (C113_zero crc inflate input).success o room hok

/-- C113, `zero`, what does not hold: if the file it should write ends in `t`, less than 1024 bytes after the last
newline, then any number of bytes of `t` can be lost, and the command reports success. -/
theorem C113_zero_lost (crc : List UInt8 → Nat) (inflate : List UInt8 → Zero.Source) (input l t : List UInt8)
    (room : Option Nat) (hz : Zero.tool crc inflate input Sink.vec = .ok () ⟨l ++ t, room⟩)
    (hl : l = [] ∨ ∃ l', l = l' ++ [10]) (ht : 10 ∉ t) (hlen : t.length < 1024) (o : List UInt8) (n : Nat)
    (hn : n ≤ t.length) :
    (Stdout.zero crc inflate input ⟨o, some (l.length + n)⟩).1 = .ok () ∧
      (Stdout.zero crc inflate input ⟨o, some (l.length + n)⟩).2.out = o ++ l ++ t.take n := by
  obtain ⟨d', k, h1, h2, h3, h4, h5⟩ := C113_zero crc inflate input
  rw [hz] at h1 h4 h5
  have hd' := h4 l t rfl hl ht hlen
  obtain ⟨h6, h7, _⟩ := h5 o (some (l.length + n))
  refine ⟨h7 ?_, ?_⟩
  · rintro r hr
    cases hr
    rw [hd']
    omega
  · rw [h6]
    show o ++ taken _ (l ++ t) = _
    rw [taken, List.take_append, List.take_of_length_le (by omega), List.append_assoc,
      show l.length + n - l.length = n by omega]

/-- C113 is false of `zero`: its file of 24 bytes, to a disk with room for 20 bytes, loses half of the trailer, and the
command succeeds. -/
theorem C113_zero_false : ¬ ∀ (crc : List UInt8 → Nat) (inflate : List UInt8 → Zero.Source) (input o : List UInt8)
    (room : Option Nat), (Stdout.zero crc inflate input ⟨o, room⟩).1 = .ok () →
      (Stdout.zero crc inflate input ⟨o, room⟩).2.out = o ++ (ended (Zero.tool crc inflate input Sink.vec)).2 := by
  intro h
  exact absurd (h (fun _ => 0x01020304) ownInflate ([0x1f, 0x8b, 8, 0, 0, 0, 0, 0, 0, 3] ++ exampleStream ++ [1, 2, 3]) []
    (some 20) (by decide +kernel)) (by decide +kernel)

/-! ### dump -/

namespace Dump

/-- Nothing is held back between the lines. -/
def Between (w : LineWriter) (s : Sink) : Prop := w = .new s

/-- After a failure, the same is in the descriptor. -/
def Left (w : LineWriter) (s : Sink) : Prop := w.atExit.out = s.out

theorem between_left {w : LineWriter} {s : Sink} (h : Between w s) : Left w s := by
  subst h
  obtain ⟨o, room⟩ := s
  unfold Left LineWriter.new LineWriter.atExit LineWriter.flushBuf writeAll
  cases room <;> simp

theorem relabel_self (x : Fail) : relabelW (.err .sink) x = x := by
  unfold relabelW
  split
  · rename_i h; exact h.symm
  · rfl

theorem sim_println (cut : List Char → List (List UInt8)) (hcut : ∀ line, (cut line).flatten = utf8 (line ++ ['\n']))
    (line : List Char) :
    SimW (.err .sink) Between Left (printlnOn LineWriter.writer cut line) (println line) := by
  rintro w ⟨o, room⟩ rfl
  obtain ⟨d, k, h1, h2, h3, h0, h4⟩ := LineWriter.does_each 1024 (cut line) [] (Nat.zero_le _) (by simp)
  have hnew : ∀ x : List UInt8, LineWriter.mid 1024 o room x [] = LineWriter.new (LineWriter.fd o room x) := fun _ => rfl
  have hfd : LineWriter.fd o room [] = ⟨o, room⟩ := by
    unfold LineWriter.fd
    cases room <;> simp
  have ht : utf8 (line ++ ['\n']) = utf8 line ++ [10] := by
    rw [utf8_append]
    rfl
  rw [List.nil_append, hcut] at h1 h0
  have hk : k = [] := by
    rw [ht, LineWriter.tailOf_append _ _ (by simp)] at h0
    exact h0 (by decide)
  subst hk
  rw [List.append_nil] at h1
  obtain ⟨h5, h6⟩ := h4 o room [] (fun _ _ => Nat.zero_le _)
  rw [List.nil_append, hnew, hfd] at h5 h6
  obtain ⟨h7, h8⟩ := LineWriter.writeAll_fd o room [] d (fun _ _ => Nat.zero_le _)
  rw [List.nil_append, hfd] at h7 h8
  unfold SimAt println printlnOn
  have he : (line ++ ['\n']).flatMap String.utf8EncodeChar = d := h1.symm
  rw [he]
  by_cases hd : Fits room d.length
  · rw [h7 hd, h5 hd]
    exact ⟨_, rfl, rfl⟩
  · obtain ⟨r, g1, g2, g3⟩ := h8 hd
    obtain ⟨w, g4, g5⟩ := h6 hd
    rw [g3, g4]
    refine ⟨w, by rw [relabel_self], ?_⟩
    have := g5.atExit []
    rw [List.append_nil, g1] at this
    exact this

theorem sim_liftE {α : Type} (x : Except Fail α) : SimW (.err .sink) Between Left (liftE x) (liftE x) := by
  intro w s hs
  cases x with
  | ok a => exact ⟨w, rfl, hs⟩
  | error e => exact ⟨w, by rw [relabel_self]; rfl, between_left hs⟩

theorem sim_printBlock (cut : List Char → List (List UInt8)) (hcut : ∀ line, (cut line).flatten = utf8 (line ++ ['\n']))
    (dbg : UInt8 → List Char) (id : Nat) (b : Block) :
    SimW (.err .sink) Between Left (printBlockOn LineWriter.writer cut dbg id b) (printBlock dbg id b) := by
  have hcodes : ∀ cs, SimW (.err .sink) Between Left (printCodesOn LineWriter.writer cut dbg cs) (printCodes dbg cs) := by
    intro cs
    induction cs with
    | nil => exact .pure _
    | cons c cs ih => exact (sim_println cut hcut _).bind fun _ => ih
  cases b with
  | uncompressed data => exact (sim_println cut hcut _).bind fun _ => sim_println cut hcut _
  | fixedHuffman cs => exact (sim_println cut hcut _).bind fun _ => (sim_println cut hcut _).bind fun _ => hcodes _
  | dynamicHuffman t cs =>
    exact (sim_println cut hcut _).bind fun _ => (sim_liftE _).bind fun _ => (sim_println cut hcut _).bind fun _ => hcodes _

theorem sim_runTo (cut : List Char → List (List UInt8)) (hcut : ∀ line, (cut line).flatten = utf8 (line ++ ['\n']))
    (dbg : UInt8 → List Char) (input : List UInt8) :
    SimW (.err .sink) Between Left (runToOn LineWriter.writer cut dbg input) (runTo dbg input) := by
  have hloop : ∀ fuel it id, SimW (.err .sink) Between Left (loopToOn LineWriter.writer cut dbg fuel it id)
      (loopTo dbg fuel it id) := by
    intro fuel
    induction fuel with
    | zero => intro it id; exact sim_liftE _
    | succ fuel ih =>
      intro it id
      rw [loopToOn, loopTo]
      cases it.next with
      | mk o it1 =>
        match o with
        | none => exact .pure _
        | some (.error e) => exact sim_liftE _
        | some (.ok b) => exact (sim_printBlock cut hcut dbg id b).bind fun _ => ih _ _
  unfold runToOn runTo
  cases Gzip.discardHeader input with
  | error e s => exact sim_liftE _
  | ok header rest => exact hloop _ _ _

end Dump

/-- C113, `dump`: however the formatting machinery cuts the lines into pieces, the descriptor gets the text, or the
beginning that it has room for, and if that is not all, the command panics. So if it succeeds, all has been written. -/
theorem C113_dump (cut : List Char → List (List UInt8))
    (hcut : ∀ line, (cut line).flatten = Dump.utf8 (line ++ ['\n'])) (dbg : UInt8 → List Char) (input o : List UInt8)
    (room : Option Nat) :
    let text := Dump.utf8 (Dump.run dbg input).2
    (Stdout.dump cut dbg input ⟨o, room⟩).2.out = o ++ taken room text ∧
      (Fits room text.length → (Stdout.dump cut dbg input ⟨o, room⟩).1 = (Dump.run dbg input).1) ∧
      (¬ Fits room text.length → (Stdout.dump cut dbg input ⟨o, room⟩).1 = .error (.panic .explicit)) := by
  dsimp only
  have h := Dump.sim_runTo cut hcut dbg input (.new ⟨o, room⟩) ⟨o, room⟩ rfl
  have key : ∀ r out room', Dump.runTo dbg input ⟨o, room⟩ = liftE r ⟨out, room'⟩ →
      (Stdout.dump cut dbg input ⟨o, room⟩).1 = r ∧ (Stdout.dump cut dbg input ⟨o, room⟩).2.out = out := by
    intro r out room' hr
    unfold SimAt at h
    unfold Stdout.dump
    cases r with
    | ok u =>
      rw [hr] at h
      obtain ⟨w', h1, h2⟩ := h
      rw [h1]
      exact ⟨rfl, Dump.between_left h2⟩
    | error e =>
      rw [hr] at h
      obtain ⟨w', h1, h2⟩ := h
      rw [h1, Dump.relabel_self]
      exact ⟨rfl, h2⟩
  by_cases hf : Fits room (Dump.utf8 (Dump.run dbg input).2).length
  · obtain ⟨room', h1⟩ := C107_fits dbg input o room hf
    obtain ⟨h2, h3⟩ := key _ _ _ h1
    exact ⟨by rw [h3, LineWriter.taken_fits hf], fun _ => h2, fun h => absurd hf h⟩
  · obtain ⟨n, rfl, hn⟩ := not_fits hf
    obtain ⟨h2, h3⟩ := key (.error (.panic .explicit)) _ _ (C107_full dbg input o n hn)
    exact ⟨h3, fun h => absurd h hf, fun _ => h2⟩

/-! ### Examples -/

/-- The file with the stored block "a\nbc": `cat` needs room for two bytes only. -/
example :
    let file : Script := [.data 0x1f [0x8b, 8, 0, 0, 0, 0, 0, 0, 3, 1, 4, 0, 0xfb, 0xff, 0x61, 10, 0x62, 0x63]]
    Stdout.cat Script.reader file ⟨[], some 4⟩ = (.ok (), ⟨[0x61, 10, 0x62, 0x63], some 0⟩) ∧
      Stdout.cat Script.reader file ⟨[], some 3⟩ = (.ok (), ⟨[0x61, 10, 0x62], some 0⟩) ∧
      Stdout.cat Script.reader file ⟨[], some 2⟩ = (.ok (), ⟨[0x61, 10], some 0⟩) ∧
      Stdout.cat Script.reader file ⟨[], some 1⟩ = (.error (.err .sink), ⟨[0x61], some 0⟩) := by
  decide +kernel

/-- `zero` on a full disk: nothing is written, and it succeeds. -/
example :
    let file : List UInt8 := [0x1f, 0x8b, 8, 0, 0, 0, 0, 0, 0, 3] ++ exampleStream ++ [1, 2, 3]
    Zero.tool (fun _ => 0x01020304) ownInflate file Sink.vec =
        .ok () ⟨[0x1f, 0x8b, 8, 0, 0, 0, 0, 0, 0, 3, 1, 1, 0, 254, 255, 0x61, 4, 3, 2, 1, 1, 0, 0, 0], none⟩ ∧
      Stdout.zero (fun _ => 0x01020304) ownInflate file ⟨[], some 0⟩ = (.ok (), ⟨[], some 0⟩) ∧
      Stdout.zero (fun _ => 0x01020304) ownInflate file ⟨[], some 20⟩ =
        (.ok (), ⟨[0x1f, 0x8b, 8, 0, 0, 0, 0, 0, 0, 3, 1, 1, 0, 254, 255, 0x61, 4, 3, 2, 1], some 0⟩) := by
  decide +kernel

/-- `dump`, with every character written by itself. -/
example :
    let input : List UInt8 := [31, 139, 8, 0, 0, 0, 0, 0, 0, 3, 0x7b, 0x09, 0x00]
    let cut := fun line : List Char => (line ++ ['\n']).map String.utf8EncodeChar
    (∀ line, (cut line).flatten = Dump.utf8 (line ++ ['\n'])) ∧
      Stdout.dump cut Render.charDebug input ⟨[], some 49⟩ =
        (.ok (), ⟨Dump.utf8 "block 0:\n - fixed huffman:\n    - lit: 0xe9: 'é'\n".toList, some 0⟩) ∧
      (Stdout.dump cut Render.charDebug input ⟨[], some 48⟩).1 = .error (.panic .explicit) := by
  refine ⟨fun line => by rw [Dump.utf8, List.flatMap_def], ?_, ?_⟩ <;> decide +kernel

end Rezip
