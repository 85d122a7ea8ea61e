import Verif.Model.Writer
import Verif.Model.Main

/-!
# Standard output

The commands write to `io::stdout()` (cat.rs:11-12, zero.rs:59-60, `println!` in dump.rs), which is a
`LineWriter` around the file descriptor: it holds back what comes after the last newline. Nothing in the commands
flushes it. The runtime does when the process ends, and ignores errors then. Here the descriptor is a `Sink`.

Simplification: that a closed descriptor (`EBADF`) takes everything silently is left out.
-/

namespace Rezip

/-- `write_all` of one piece after the other, until one fails. (What cat.rs, zero.rs and dump.rs do with standard
output.) -/
def Writer.writeEach {ω : Type} (W : Writer ω) : List (List UInt8) → EStateM Fail ω Unit
  | [] => pure ()
  | p :: ps => do
    W.writeAll p
    W.writeEach ps

/-- std's `LineWriter`: what is held back, the capacity (1024 for standard output), and the descriptor.
(`io::stdout()` in cat.rs:11 and zero.rs:59.) -/
structure LineWriter where
  buf : List UInt8
  cap : Nat
  inner : Sink
deriving DecidableEq, Repr

namespace LineWriter

/-- `BufWriter::flush_buf`: writes what is held back; what could not be written stays. (Standard output in
cat.rs:11 and zero.rs:59.) -/
def flushBuf : EStateM Fail LineWriter Unit := fun s =>
  match writeAll s.buf s.inner with
  | .ok _ inner => .ok () { s with buf := [], inner := inner }
  | .error e inner =>
    .error e { s with buf := s.buf.drop (inner.out.length - s.inner.out.length), inner := inner }

/-- `self.get_mut().write_all(data)`. (Standard output in cat.rs:11 and zero.rs:59.) -/
def writeInner (data : List UInt8) : EStateM Fail LineWriter Unit := fun s =>
  match writeAll data s.inner with
  | .ok _ inner => .ok () { s with inner := inner }
  | .error e inner => .error e { s with inner := inner }

/-- `BufWriter::write_all` and `write_all_cold`. (Standard output in cat.rs:11 and zero.rs:59.) -/
def bufWriteAll (data : List UInt8) : EStateM Fail LineWriter Unit := do
  let s ← get
  if data.length < s.cap - s.buf.length then
    set { s with buf := s.buf ++ data }
  else
    if data.length > s.cap - s.buf.length then flushBuf else pure ()
    let s ← get
    if data.length ≥ s.cap then writeInner data
    else set { s with buf := s.buf ++ data }

/-- `LineWriterShim::flush_if_completed_line`. (Standard output in cat.rs:11 and zero.rs:59.) -/
def flushIfCompletedLine : EStateM Fail LineWriter Unit := do
  let s ← get
  if s.buf.getLast? = some 10 then flushBuf else pure ()

/-- What comes after the last newline (`memrchr`). (Standard output in cat.rs:11 and zero.rs:59.) -/
def tailOf (data : List UInt8) : List UInt8 := (data.reverse.takeWhile (· != 10)).reverse

/-- `LineWriterShim::write_all`. (Standard output in cat.rs:11 and zero.rs:59.) -/
def writeAllLines (data : List UInt8) : EStateM Fail LineWriter Unit := do
  if data.contains 10 then
    let tail := tailOf data
    let lines := data.take (data.length - tail.length)
    let s ← get
    if s.buf.isEmpty then
      writeInner lines
    else
      bufWriteAll lines
      flushBuf
    bufWriteAll tail
  else
    flushIfCompletedLine
    bufWriteAll data

/-- (Standard output in cat.rs:11 and zero.rs:59.) -/
def writer : Writer LineWriter := { writeAll := writeAllLines }

/-- The end of the process: the rest is written, and an error is ignored. (After main.rs:34-42.) -/
def atExit (s : LineWriter) : Sink :=
  match flushBuf s with
  | .ok _ s => s.inner
  | .error _ s => s.inner

/-- Standard output at the start. (cat.rs:11, zero.rs:59.) -/
def new (fd : Sink) : LineWriter := { buf := [], cap := 1024, inner := fd }

end LineWriter

namespace Dump

open Render

variable {ω : Type}

/-- `println!`, where `cut` says in which pieces the formatting machinery writes a line. (dump.rs:14-49.) -/
def printlnOn (W : Writer ω) (cut : List Char → List (List UInt8)) (line : List Char) : EStateM Fail ω Unit := fun w =>
  match W.writeEach (cut line) w with
  | .ok u w => .ok u w
  | .error _ w => .error (.panic .explicit) w

/-- dump.rs:33-51 `print`. -/
def printCodesOn (W : Writer ω) (cut : List Char → List (List UInt8)) (dbg : UInt8 → List Char) :
    List Code → EStateM Fail ω Unit
  | [] => pure ()
  | c :: cs => do
    printlnOn W cut (codeLine dbg c)
    printCodesOn W cut dbg cs

/-- dump.rs:14-27: what happens for a block. -/
def printBlockOn (W : Writer ω) (cut : List Char → List (List UInt8)) (dbg : UInt8 → List Char) (id : Nat) (b : Block) :
    EStateM Fail ω Unit := do
  printlnOn W cut ("block ".toList ++ decimal id ++ ":".toList)
  match b with
  | .uncompressed data => printlnOn W cut (" - uncompressed: ".toList ++ decimal data.length ++ " bytes".toList)
  | .fixedHuffman codes => do
    printlnOn W cut " - fixed huffman:".toList
    printCodesOn W cut dbg codes
  | .dynamicHuffman trees codes => do
    let t ← liftE (bitVec trees)
    printlnOn W cut (" - dynamic huffman: ".toList ++ t)
    printCodesOn W cut dbg codes

/-- dump.rs:11-28: from block `id` on. -/
def loopToOn (W : Writer ω) (cut : List Char → List (List UInt8)) (dbg : UInt8 → List Char) :
    Nat → Parse.BlockIter → Nat → EStateM Fail ω Unit
  | 0, _, _ => liftE (.error .diverge)
  | fuel + 1, it, id =>
    match it.next with
    | (none, _) => pure ()
    | (some (.error e), _) => liftE (.error e)
    | (some (.ok b), it) => do
      printBlockOn W cut dbg id b
      loopToOn W cut dbg fuel it (id + 1)

/-- dump.rs:9-31 `run`. -/
def runToOn (W : Writer ω) (cut : List Char → List (List UInt8)) (dbg : UInt8 → List Char) (input : List UInt8) :
    EStateM Fail ω Unit :=
  match Gzip.discardHeader input with
  | .error e _ => liftE (.error e)
  | .ok _ rest => loopToOn W cut dbg (8 * rest.length + 2) (Parse.parseDeflate rest) 0

end Dump

/-- zero.rs:54-98 `run`. -/
def Zero.toolOn {ω : Type} (W : Writer ω) (crc : List UInt8 → Nat) (inflate : List UInt8 → Zero.Source)
    (input : List UInt8) : EStateM Fail ω Unit :=
  match Gzip.discardHeader input with
  | .error e _ => liftE (.error e)
  | .ok header rest => Zero.runToOn W crc header (inflate rest)

namespace Stdout

/-- What the process leaves: the outcome of the command, and the descriptor after the end. (main.rs:34-42.) -/
def finish : EStateM.Result Fail LineWriter Unit → Except Fail Unit × Sink
  | .ok _ w => (.ok (), w.atExit)
  | .error e w => (.error e, w.atExit)

/-- main.rs:38 with cat.rs:8-21. -/
def cat {ρ : Type} (R : Reader ρ) (input : ρ) (fd : Sink) : Except Fail Unit × Sink :=
  let (r, w) := Cat.runIO R LineWriter.writer input (.new fd)
  (r, w.atExit)

/-- main.rs:39 with dump.rs:9-31. -/
def dump (cut : List Char → List (List UInt8)) (dbg : UInt8 → List Char) (input : List UInt8) (fd : Sink) :
    Except Fail Unit × Sink :=
  finish (Dump.runToOn LineWriter.writer cut dbg input (.new fd))

/-- main.rs:40 with zero.rs:54-98. -/
def zero (crc : List UInt8 → Nat) (inflate : List UInt8 → Zero.Source) (input : List UInt8) (fd : Sink) :
    Except Fail Unit × Sink :=
  finish (Zero.toolOn LineWriter.writer crc inflate input (.new fd))

end Stdout

end Rezip
