import Verif.Model.Debug
import Verif.Model.Main
import Verif.Model.TraceExample

/-!
# The text that lib/examples/trace.rs prints

`{:?}` of a string is a parameter `hint`, given by the bytes of which `from_utf8_lossy` makes the string (see Model/Quote.lean).
(The width in `{:10?}` has no effect on a string.)
-/

namespace Rezip.TraceExample

open Render

/-- `{:4}` of a number: right-aligned. (trace.rs:139, 146.) -/
def four (n : Nat) : List Char := List.replicate (4 - (decimal n).length) ' ' ++ decimal n

/-- `#[derive(Debug)]` of `Option`. (wams.rs:10, 13.) -/
def optionText {α : Type} (f : α → List Char) : Option α → List Char
  | none => "None".toList
  | some x => "Some(".toList ++ f x ++ ")".toList

/-- `{:?}` of a `bool`. (technique.rs:17.) -/
def boolText (b : Bool) : List Char := if b then "true".toList else "false".toList

/-- `#[derive(Debug)]`, lookahead.rs:5-10. -/
def lookaheadText : Lookahead → List Char
  | .greedy => "Greedy".toList
  | .gzip => "Gzip".toList
  | .threeZip => "ThreeZip".toList

/-- `#[derive(Debug)]`, picker.rs:4-8. -/
def pickerText : Picker → List Char
  | .longest => "Longest".toList
  | .dropFarThrees => "DropFarThrees".toList

/-- `#[derive(Debug)]`, wams.rs:16-23. -/
def lookaheadConfigText (c : LookaheadConfig) : List Char :=
  "LookaheadConfig { apathetic_above_length: ".toList ++ decimal c.apatheticAboveLength ++
    ", abort_above_length: ".toList ++ decimal c.abortAboveLength ++ " }".toList

/-- `#[derive(Debug)]`, wams.rs:1-14. -/
def wamsText (w : WamsOptimisations) : List Char :=
  "WamsOptimisations { quit_search_above_length: ".toList ++ decimal w.quitSearchAboveLength ++
    ", limit_count_of_distances: ".toList ++ decimal w.limitCountOfDistances ++
    ", insert_only_below_length: ".toList ++ optionText decimal w.insertOnlyBelowLength ++
    ", lookahead: ".toList ++ optionText lookaheadConfigText w.lookahead ++ " }".toList

/-- `#[derive(Debug)]`, technique.rs:15-21. -/
def configText (c : Config) : List Char :=
  "Config { first_byte_bug: ".toList ++ boolText c.firstByteBug ++ ", lookahead: ".toList ++
    lookaheadText c.lookahead ++ ", picker: ".toList ++ pickerText c.picker ++ ", wams: ".toList ++
    wamsText c.wams ++ " }".toList

/-- `{:?}` of an `Obscure`, a pair. (lib.rs:58, technique.rs:84.) -/
def obscureText (o : Nat × Nat) : List Char :=
  "(".toList ++ decimal o.1 ++ ", ".toList ++ decimal o.2 ++ ")".toList

/-- all_refs.rs:185-189: `{:?}` of the index of these bytes. -/
def indexText (preroll data : List UInt8) : Except Fail (List Char) := do
  let a ← AllRefs.withSixteen preroll data 0
  a.debug

/-- `#[derive(Debug)]`, technique.rs:23-27 and 81-87, given the text of the index. -/
def scannerText (c : Config) (index : List Char) (s : Scanner) : List Char :=
  "Scanner { technique: Technique { config: ".toList ++ configText c ++ ", all_refs: ".toList ++ index ++
    " }, obscured: ".toList ++ list obscureText s.obscured ++ ", pos: ".toList ++ decimal s.pos ++ " }".toList

/-- trace.rs:138-150: what follows `trace: `. A line is printed for these two only. -/
def actualText : Trace → List Char
  | .correct => []
  | .actuallyLiteral => "literal".toList
  | .actually r => ref r

/-- The text of a line, without its end. (trace.rs:32, 36, 40, 44, 128, 138-150, 156, 158.) -/
def lineText (hint : List UInt8 → List Char) : Line → Except Fail (List Char)
  | .block id => pure ("block ".toList ++ decimal id ++ ":".toList)
  | .stored len => pure (" - uncompressed: ".toList ++ decimal len ++ " bytes".toList)
  | .fixed => pure " - fixed huffman:".toList
  | .dynamic trees => do
    let t ← bitVec trees
    pure (" - dynamic huffman: ".toList ++ t)
  | .trace name size => pure ("   * trace: ".toList ++ name.toList ++ " -> ".toList ++ decimal size)
  | .miss pos bytes guess actual =>
    pure ("   ".toList ++ four pos ++ ". ".toList ++ hint bytes ++ " guess: ".toList ++
      list (code charDebug) guess ++ " trace: ".toList ++ actualText actual)
  | .guesser config preroll data s => do
    let index ← indexText preroll data
    pure ("   * guesser: ".toList ++ scannerText config index s)
  | .blank => pure []

/-- One `println!` after the other. (trace.rs:32-158.) -/
def printLines (hint : List UInt8 → List Char) : List Line → EStateM Fail Sink Unit
  | [] => pure ()
  | l :: ls => do
    let text ← liftE (lineText hint l)
    Dump.println text
    printLines hint ls

/-- trace.rs:20-51 `main`, given the file and the standard output. What the program does depends on its output
only in that it stops where `println!` panics. -/
def runTo (hint : List UInt8 → List Char) (p : Profile) (file : List UInt8) : EStateM Fail Sink Unit := do
  printLines hint (run p file).out
  liftE (run p file).result

end Rezip.TraceExample
