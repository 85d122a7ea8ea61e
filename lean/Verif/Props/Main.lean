import Verif.Model.Main
import Verif.Model.Debug
import Verif.Props.Dump
import Verif.Props.ZeroTool

/-!
# C107, C108: the dump tool with an output that may fail, and the program as a whole
-/

namespace Rezip

open Rezip.Spec Parse

namespace Dump

open Render

/-- A text in UTF-8. -/
def utf8 (text : List Char) : List UInt8 := text.flatMap String.utf8EncodeChar

theorem utf8_append (a b : List Char) : utf8 (a ++ b) = utf8 a ++ utf8 b := List.flatMap_append

/-- Write what fits, and panic unless all of it did; then end with `r`. -/
def onSink (r : Except Fail Unit) (bytes : List UInt8) : EStateM Fail Sink Unit := fun s =>
  match s.room with
  | none => liftE r ⟨s.out ++ bytes, none⟩
  | some n =>
    if bytes.length ≤ n then liftE r ⟨s.out ++ bytes, some (n - bytes.length)⟩
    else .error (.panic .explicit) ⟨s.out ++ bytes.take n, some 0⟩

theorem onSink_nil (r : Except Fail Unit) : onSink r [] = liftE r := by
  funext s
  obtain ⟨out, room⟩ := s
  cases room <;> simp [onSink]

theorem println_eq (line : List Char) : println line = onSink (.ok ()) (utf8 (line ++ ['\n'])) := by
  funext s
  obtain ⟨out, room⟩ := s
  unfold println onSink utf8
  generalize (line ++ ['\n']).flatMap String.utf8EncodeChar = bytes
  cases room with
  | none => rfl
  | some n =>
    dsimp only [writeAll]
    by_cases h : bytes.length ≤ n
    · rw [if_pos h, if_pos h]; rfl
    · rw [if_neg h, if_neg h]

theorem onSink_bind (r : Except Fail Unit) (a b : List UInt8) :
    (onSink (.ok ()) a >>= fun _ => onSink r b) = onSink r (a ++ b) := by
  funext s
  obtain ⟨out, room⟩ := s
  cases room with
  | none =>
    rw [ES.bind_ok (a := ()) (s' := ⟨out ++ a, none⟩) (by simp [onSink, liftE])]
    simp [onSink]
  | some n =>
    by_cases h : a.length ≤ n
    · rw [ES.bind_ok (a := ()) (s' := ⟨out ++ a, some (n - a.length)⟩) (by simp [onSink, h, liftE])]
      unfold onSink
      dsimp only
      by_cases h2 : b.length ≤ n - a.length
      · rw [if_pos h2, if_pos (by simp; omega), List.append_assoc, List.length_append,
          Nat.sub_sub]
      · rw [if_neg h2, if_neg (by simp; omega), List.append_assoc, List.take_append,
          List.take_of_length_le h]
    · rw [ES.bind_err (e := .panic .explicit) (s' := ⟨out ++ a.take n, some 0⟩) (by simp [onSink, h])]
      unfold onSink
      dsimp only
      rw [if_neg (by simp; omega), List.take_append_of_le_length (by omega)]

theorem printCodes_eq (dbg : UInt8 → List Char) (codes : List Code) :
    printCodes dbg codes = onSink (.ok ()) (utf8 (print (codes.map (codeLine dbg)))) := by
  induction codes with
  | nil => exact (onSink_nil (.ok ())).symm
  | cons c codes ih =>
    rw [printCodes, ih, println_eq, onSink_bind, ← utf8_append]
    rfl

theorem printBlock_eq (dbg : UInt8 → List Char) (id : Nat) (b : Block) (lines : List (List Char))
    (h : blockLines dbg id b = .ok lines) : printBlock dbg id b = onSink (.ok ()) (utf8 (print lines)) := by
  have e2 : ∀ a b, print [a, b] = (a ++ ['\n']) ++ (b ++ ['\n']) := by simp [print]
  have e3 : ∀ a b l, print (a :: b :: l) = (a ++ ['\n']) ++ ((b ++ ['\n']) ++ print l) := by simp [print]
  unfold printBlock
  cases b with
  | uncompressed data =>
    cases h
    dsimp only
    rw [println_eq, println_eq, onSink_bind, ← utf8_append, e2]
  | fixedHuffman codes =>
    cases h
    dsimp only
    rw [println_eq, println_eq, printCodes_eq, onSink_bind, onSink_bind, ← utf8_append, ← utf8_append, e3]
  | dynamicHuffman trees codes =>
    cases hb : bitVec trees with
    | error e => rw [blockLines, hb] at h; cases h
    | ok t =>
      rw [blockLines, hb] at h
      cases h
      dsimp only
      have : (liftE (.ok t) >>= fun t => do println (" - dynamic huffman: ".toList ++ t); printCodes dbg codes) =
          (do println (" - dynamic huffman: ".toList ++ t); printCodes dbg codes) := by
        funext s
        rw [ES.liftE_bind_ok]
      rw [hb, this, println_eq, println_eq, printCodes_eq, onSink_bind, onSink_bind, ← utf8_append, ← utf8_append, e3]

theorem loopTo_eq (dbg : UInt8 → List Char) (fuel : Nat) (it : BlockIter) (id : Nat)
    (hb : ∀ n b, item n it = some (.ok b) → ∃ off bs, BlockBits LengthSym off b bs) :
    loopTo dbg fuel it id = onSink (loop dbg fuel it id).1 (utf8 (loop dbg fuel it id).2) := by
  induction fuel generalizing it id with
  | zero => exact (onSink_nil _).symm
  | succ fuel ih =>
    rw [loopTo, loop]
    cases hn : it.next with
    | mk o it1 =>
      cases o with
      | none => exact (onSink_nil (.ok ())).symm
      | some x =>
        cases x with
        | error e => exact (onSink_nil _).symm
        | ok b =>
          obtain ⟨off, bs, hbb⟩ := hb 0 b (by show it.next.1 = _; rw [hn])
          obtain ⟨lines, k1, _⟩ := blockLines_eq dbg id hbb
          dsimp only
          rw [k1, printBlock_eq dbg id b lines k1, ih it1 (id + 1), onSink_bind, ← utf8_append]
          intro n b' hx
          refine hb (n + 1) b' ?_
          show (after n it.next.2).next.1 = _
          rw [hn]
          exact hx

theorem runTo_eq (dbg : UInt8 → List Char) (input : List UInt8) :
    runTo dbg input = onSink (run dbg input).1 (utf8 (run dbg input).2) := by
  unfold runTo run
  cases Gzip.discardHeader input with
  | error e s => exact (onSink_nil _).symm
  | ok hd rest => exact loopTo_eq dbg _ _ 0 fun n b hx => item_blockBits hx

end Dump

/-! ### C107 -/

/-- C107. When the output takes the whole text, it gets the whole text, and the outcome is that of the input. -/
theorem C107_fits (dbg : UInt8 → List Char) (input out : List UInt8) (room : Option Nat)
    (h : ∀ n, room = some n → (Dump.utf8 (Dump.run dbg input).2).length ≤ n) :
    ∃ room', Dump.runTo dbg input ⟨out, room⟩ =
      liftE (Dump.run dbg input).1 ⟨out ++ Dump.utf8 (Dump.run dbg input).2, room'⟩ := by
  rw [Dump.runTo_eq]
  cases room with
  | none => exact ⟨_, rfl⟩
  | some n => exact ⟨_, by rw [Dump.onSink]; dsimp only; rw [if_pos (h n rfl)]⟩

/-- C107. When it does not, it gets the first part of the text, as much as it takes, and dump panics: also when the
input is damaged further on, so that the error is not reported. -/
theorem C107_full (dbg : UInt8 → List Char) (input out : List UInt8) (n : Nat)
    (h : n < (Dump.utf8 (Dump.run dbg input).2).length) :
    Dump.runTo dbg input ⟨out, some n⟩ =
      .error (.panic .explicit) ⟨out ++ (Dump.utf8 (Dump.run dbg input).2).take n, some 0⟩ := by
  rw [Dump.runTo_eq, Dump.onSink]
  dsimp only
  rw [if_neg (by omega)]

/-- A fixed block with the byte of `é`: all of it, and an output with room for 46 bytes, where `é` is cut in half. -/
example :
    let input : List UInt8 := [31, 139, 8, 0, 0, 0, 0, 0, 0, 3, 0x7b, 0x09, 0x00]
    Dump.run Render.charDebug input = (.ok (), "block 0:\n - fixed huffman:\n    - lit: 0xe9: 'é'\n".toList) ∧
      Dump.runTo Render.charDebug input ⟨[], some 49⟩ = .ok () ⟨Dump.utf8 (Dump.run Render.charDebug input).2, some 0⟩ ∧
      Dump.runTo Render.charDebug input ⟨[], some 46⟩ =
        .error (.panic .explicit) ⟨(Dump.utf8 (Dump.run Render.charDebug input).2).take 46, some 0⟩ := by
  decide +kernel

/-! ### C108 -/

namespace Main

/-- The same command on another input. -/
def Command.on : Command → Option String → Command
  | .cat _, file => .cat file
  | .dump _, file => .dump file
  | .zero _, file => .zero file

/-- The file a command names. -/
def Command.file : Command → Option String
  | .cat file => file
  | .dump file => file
  | .zero file => file

end Main

open Main

/-- C108. A command with a file does what it does with the contents on standard input. -/
theorem C108_input (env : Env) (w : World) (c : Command) (path : String) (data : List UInt8)
    (h : w.files path = some data) :
    run env w (c.on (some path)) = run env { w with stdin := data } (c.on none) := by
  cases c <;> simp [run, Command.on, openFile, h]

/-- C108. A file that cannot be opened: an error, and nothing is written. -/
theorem C108_missing (env : Env) (w : World) (c : Command) (path : String) (s : Sink) (hc : c.file = some path)
    (h : w.files path = none) : ∃ e, run env w c s = .error (.err e) s := by
  refine ⟨.device, ?_⟩
  cases c <;> simp only [Command.file] at hc <;> subst hc <;>
    simp [run, openFile, h, ES.liftE_bind_error]

/-- C108. `zero file | cat` writes what `cat file` writes, and `zero file | zero` what `zero file` writes, unless the
data is empty or has a chunk of 65536 bytes. -/
theorem C108_pipe (env : Env) (w : World) (hi : Inflates env.inflate) (path : String) (hd : GzHeader) (hv : hd.Valid)
    (d x rest o : List UInt8) (blocks : List Block) (hb : DeflateBytes blocks d)
    (hx : lzExpand 32768 [] (blocks.flatMap lzCodes) = some x) (hne : x ≠ [])
    (h64 : ∀ cs, Chunks x cs → ∀ c ∈ cs, c.length ≠ 65536)
    (hf : w.files path = some (hd.bytes ++ d ++ rest)) :
    ∃ z, run env w (.zero (some path)) Sink.vec = .ok () ⟨z, none⟩ ∧
      run env { w with stdin := z } (.cat none) ⟨o, none⟩ = run env w (.cat (some path)) ⟨o, none⟩ ∧
      run env { w with stdin := z } (.cat none) ⟨o, none⟩ = .ok () ⟨o ++ x, none⟩ ∧
      run env { w with stdin := z } (.zero none) Sink.vec = .ok () ⟨z, none⟩ := by
  obtain ⟨cs, hc, _⟩ := taken_chunks x
  obtain ⟨d', h1, h2⟩ := C80_file env.crc env.inflate hi hd hv d x rest [] blocks hb hx hne cs hc (h64 cs hc)
  have hx' : lzExpand 32768 [] ((cs.map Block.uncompressed).flatMap lzCodes) = some x := by
    rw [Zero.lzExpand_stored, hc.facts.1]
  have hcat1 := C62_cat hd hv d rest o x blocks hb hx
  have hcat2 := C62_cat hd hv d' (Zero.u32le (env.crc x) ++ Zero.u32le (x.length % 2 ^ 32)) o x _ h1 hx'
  rw [← List.append_assoc] at hcat2
  rw [List.nil_append] at h2
  have k : ∀ (w : World) (data : List UInt8) (file : Option String), openFile w file = .ok data →
      run env w (.cat file) = Main.cat data ∧ run env w (.zero file) = Zero.tool env.crc env.inflate data := by
    intro w data file h
    constructor <;> (funext s; simp only [run, h]; rw [ES.liftE_bind_ok])
  have hfile : openFile w (some path) = .ok (hd.bytes ++ d ++ rest) := by simp [openFile, hf]
  refine ⟨_, by rw [(k w _ _ hfile).2]; exact h2, ?_, ?_, ?_⟩
  · rw [(k _ _ none rfl).1, (k w _ _ hfile).1, Main.cat, Main.cat]
    rw [hcat1, hcat2]
  · rw [(k _ _ none rfl).1, Main.cat, hcat2]
  · rw [(k _ _ none rfl).2]
    exact C80_idempotent env.crc env.inflate hi hd hv d x rest _ blocks hb hx h64 h2

/-- C108. `dump FILE` writes the text of the blocks, and `zero FILE | dump` shows the chunks, one stored block each. -/
theorem C108_dump (env : Env) (w : World) (hi : Inflates env.inflate) (path : String) (hd : GzHeader) (hv : hd.Valid)
    (d x rest o : List UInt8) (blocks : List Block) (hb : DeflateBytes blocks d)
    (hx : lzExpand 32768 [] (blocks.flatMap lzCodes) = some x) (hne : x ≠ []) (cs : List (List UInt8))
    (hc : Chunks x cs) (h64 : ∀ c ∈ cs, c.length ≠ 65536)
    (hf : w.files path = some (hd.bytes ++ d ++ rest)) :
    let text := fun blocks => Dump.utf8 (Dump.joined (dumpText (fun b => String.ofList (env.dbg b)) 0 blocks))
    run env w (.dump (some path)) ⟨o, none⟩ = .ok () ⟨o ++ text blocks, none⟩ ∧
    ∃ z, run env w (.zero (some path)) Sink.vec = .ok () ⟨z, none⟩ ∧
      run env { w with stdin := z } (.dump none) ⟨o, none⟩ = .ok () ⟨o ++ text (cs.map .uncompressed), none⟩ := by
  obtain ⟨d', h1, h2⟩ := C80_file env.crc env.inflate hi hd hv d x rest [] blocks hb hx hne cs hc h64
  rw [List.nil_append] at h2
  have k : ∀ (w : World) (data : List UInt8) (file : Option String), openFile w file = .ok data →
      run env w (.dump file) = Dump.runTo env.dbg data ∧ run env w (.zero file) = Zero.tool env.crc env.inflate data := by
    intro w data file h
    constructor <;> (funext s; simp only [run, h]; rw [ES.liftE_bind_ok])
  have hfile : openFile w (some path) = .ok (hd.bytes ++ d ++ rest) := by simp [openFile, hf]
  refine ⟨?_, _, by rw [(k w _ _ hfile).2]; exact h2, ?_⟩
  · rw [(k w _ _ hfile).1, Dump.runTo_eq, C75_dump env.dbg hd hv d rest blocks hb]
    rfl
  · have e := C75_dump env.dbg hd hv d' (Zero.u32le (env.crc x) ++ Zero.u32le (x.length % 2 ^ 32)) _ h1
    rw [← List.append_assoc] at e
    rw [(k _ _ none rfl).1, Dump.runTo_eq]
    dsimp only
    rw [e]
    rfl

/-- A world with one file, and what comes out of the pipes. -/
example :
    let file : List UInt8 := [0x1f, 0x8b, 8, 0, 0, 0, 0, 0, 0, 3] ++ exampleStream ++ [1, 2, 3]
    let z : List UInt8 := [0x1f, 0x8b, 8, 0, 0, 0, 0, 0, 0, 3, 1, 1, 0, 254, 255, 0x61, 4, 3, 2, 1, 1, 0, 0, 0]
    let env : Env := ⟨fun _ => 0x01020304, ownInflate, Render.charDebug⟩
    let w : World := ⟨fun path => if path = "a.gz" then some file else none, []⟩
    run env w (.zero (some "a.gz")) Sink.vec = .ok () ⟨z, none⟩ ∧
      run env { w with stdin := z } (.cat none) Sink.vec = .ok () ⟨[0x61], none⟩ ∧
      run env w (.cat (some "a.gz")) Sink.vec = .ok () ⟨[0x61], none⟩ ∧
      run env w (.cat (some "b.gz")) Sink.vec = .error (.err .device) Sink.vec ∧
      run env w (.dump (some "a.gz")) ⟨[], some 9⟩ =
        .error (.panic .explicit) ⟨Dump.utf8 "block 0:\n".toList, some 0⟩ := by
  decide +kernel

end Rezip
