import Verif.Spec.Dump
import Verif.Spec.TraceExample
import Verif.Model.Debug

/-!
# What the lines of the example `trace` should look like
-/

namespace Rezip

open Spec TraceExample

/-- A number, with spaces in front up to four characters. -/
def padded (n : Nat) : String := String.ofList (List.replicate (4 - (toString n).length) ' ') ++ toString n

/-- Several things in brackets. -/
def bracketed (items : List String) : String := s!"[{", ".intercalate items}]"

/-- A code. -/
def codeSays : Code → String
  | .literal b => s!"L(0x{hexByte b} {String.ofList (Render.charDebug b)})"
  | .reference r => s!"R(-{r.dist.toNat}, {r.run})"

/-- The code that a trace has. -/
def actualSays : Trace → String
  | .correct => ""
  | .actuallyLiteral => "literal"
  | .actually r => s!"R[{r.dist.toNat}, {r.run}]"

/-- The configuration of `gzip --fast`, and that of `gzip`. -/
def configSays (c : Config) : String :=
  if c = fastConfig then
    "Config { first_byte_bug: true, lookahead: Greedy, picker: Longest, wams: WamsOptimisations { " ++
    "quit_search_above_length: 8, limit_count_of_distances: 4, insert_only_below_length: Some(4), lookahead: None } }"
  else
    "Config { first_byte_bug: true, lookahead: Greedy, picker: DropFarThrees, wams: WamsOptimisations { " ++
    "quit_search_above_length: 128, limit_count_of_distances: 128, insert_only_below_length: None, " ++
    "lookahead: Some(LookaheadConfig { apathetic_above_length: 8, abort_above_length: 16 }) } }"

/-- A field that may be absent. -/
def maybeSays : Option String → String
  | none => "None"
  | some x => s!"Some({x})"

/-- Any configuration, as `{:?}` writes it: the fields in the order of their declaration. -/
def anyConfigSays (c : Config) : String :=
  let bug := match c.firstByteBug with | true => "true" | false => "false"
  let ahead := match c.lookahead with | .greedy => "Greedy" | .gzip => "Gzip" | .threeZip => "ThreeZip"
  let picker := match c.picker with | .longest => "Longest" | .dropFarThrees => "DropFarThrees"
  let insert := maybeSays (c.wams.insertOnlyBelowLength.map fun n => s!"{n}")
  let lazy := maybeSays (c.wams.lookahead.map fun l =>
    s!"LookaheadConfig \{ apathetic_above_length: {l.apatheticAboveLength}, " ++
    s!"abort_above_length: {l.abortAboveLength} }")
  s!"Config \{ first_byte_bug: {bug}, lookahead: {ahead}, picker: {picker}, wams: WamsOptimisations \{ " ++
  s!"quit_search_above_length: {c.wams.quitSearchAboveLength}, " ++
  s!"limit_count_of_distances: {c.wams.limitCountOfDistances}, " ++
  s!"insert_only_below_length: {insert}, lookahead: {lazy} } }"

/-- The bits of the header of a dynamic block. -/
def treeBits (trees : BitVector) : List Bool := headerBits (.dynamicHuffman trees [])

/-- A line, given how strings are quoted and the text of the index. -/
def lineSays (hint : List UInt8 → String) (index : String) : Line → String
  | .block id => s!"block {id}:"
  | .stored len => s!" - uncompressed: {len} bytes"
  | .fixed => " - fixed huffman:"
  | .dynamic trees => s!" - dynamic huffman: BitVec: {(treeBits trees).length}: {bitText (treeBits trees)}"
  | .trace name size => s!"   * trace: {name} -> {size}"
  | .miss pos bytes guess actual =>
    s!"   {padded pos}. {hint bytes} guess: {bracketed (guess.map codeSays)} trace: {actualSays actual}"
  | .guesser config _ _ s =>
    let runs := bracketed (s.obscured.map fun o => s!"({o.1}, {o.2})")
    s!"   * guesser: Scanner \{ technique: Technique \{ config: {configSays config}, all_refs: {index} }, " ++
      s!"obscured: {runs}, pos: {s.pos} }"
  | .blank => ""

end Rezip
