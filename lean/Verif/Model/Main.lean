import Verif.Model.Dump
import Verif.Model.Tools

/-!
# rezippers/src/main.rs, and rezippers/src/dump.rs with an output that may fail

Reading the command line (clap) is not modelled: a command is what comes of it.
-/

namespace Rezip

namespace Dump

open Render

/-- `println!`: the line and its end, in UTF-8, to standard output; it panics when that fails. (dump.rs:14-49.) -/
def println (line : List Char) : EStateM Fail Sink Unit := fun s =>
  match writeAll ((line ++ ['\n']).flatMap String.utf8EncodeChar) s with
  | .ok u s => .ok u s
  | .error _ s => .error (.panic .explicit) s

/-- dump.rs:33-51 `print`. -/
def printCodes (dbg : UInt8 → List Char) : List Code → EStateM Fail Sink Unit
  | [] => pure ()
  | c :: cs => do
    println (codeLine dbg c)
    printCodes dbg cs

/-- dump.rs:14-27: what happens for a block. -/
def printBlock (dbg : UInt8 → List Char) (id : Nat) (b : Block) : EStateM Fail Sink Unit := do
  println ("block ".toList ++ decimal id ++ ":".toList)
  match b with
  | .uncompressed data => println (" - uncompressed: ".toList ++ decimal data.length ++ " bytes".toList)
  | .fixedHuffman codes => do
    println " - fixed huffman:".toList
    printCodes dbg codes
  | .dynamicHuffman trees codes => do
    let t ← liftE (bitVec trees)
    println (" - dynamic huffman: ".toList ++ t)
    printCodes dbg codes

/-- dump.rs:11-28: from block `id` on. -/
def loopTo (dbg : UInt8 → List Char) : Nat → Parse.BlockIter → Nat → EStateM Fail Sink Unit
  | 0, _, _ => liftE (.error .diverge)
  | fuel + 1, it, id =>
    match it.next with
    | (none, _) => pure ()
    | (some (.error e), _) => liftE (.error e)
    | (some (.ok b), it) => do
      printBlock dbg id b
      loopTo dbg fuel it (id + 1)

/-- dump.rs:9-31 `run`, writing to the given standard output. -/
def runTo (dbg : UInt8 → List Char) (input : List UInt8) : EStateM Fail Sink Unit :=
  match Gzip.discardHeader input with
  | .error e _ => liftE (.error e)
  | .ok _ rest => loopTo dbg (8 * rest.length + 2) (Parse.parseDeflate rest) 0

end Dump

namespace Main

/-- main.rs:27-32 `Command`. A path is a string. -/
inductive Command
  | cat (file : Option String)
  | dump (file : Option String)
  | zero (file : Option String)
deriving DecidableEq, Repr

/-- What the program can read: the contents of the files that can be opened, and standard input.
(main.rs:44-49.) -/
structure World where
  files : String → Option (List UInt8)
  stdin : List UInt8

/-- main.rs:44-49 `open_file`. A `BufReader` gives the same bytes as the file. -/
def openFile (w : World) : Option String → Except Fail (List UInt8)
  | some path =>
    match w.files path with
    | some data => .ok data
    | none => .error (.err .device)
  | none => .ok w.stdin

/-- What the tools need from outside: the checksum and the decompressor of the zero tool, and `{:?}` of a
character. (zero.rs:9-14, dump.rs:40.) -/
structure Env where
  crc : List UInt8 → Nat
  inflate : List UInt8 → Zero.Source
  dbg : UInt8 → List Char

/-- `cat::run` as a command. (cat.rs:8-21.) -/
def cat (input : List UInt8) : EStateM Fail Sink Unit := fun s =>
  match Cat.run input s with
  | (.ok u, s) => .ok u s
  | (.error e, s) => .error e s

/-- main.rs:34-42 `main`. -/
def run (env : Env) (w : World) : Command → EStateM Fail Sink Unit
  | .cat file => do
    let input ← liftE (openFile w file)
    cat input
  | .dump file => do
    let input ← liftE (openFile w file)
    Dump.runTo env.dbg input
  | .zero file => do
    let input ← liftE (openFile w file)
    Zero.tool env.crc env.inflate input

end Main

end Rezip
