import Verif.Model.Gzip
import Verif.Model.Serialise
import Verif.Model.Trace

/-!
# lib/examples/trace.rs

The output is a list of lines with their contents; see `Model/TraceText.lean` for the text. The
branches under `if false` are left out. `println!` does not fail.
-/

namespace Rezip.TraceExample

/-- What one `println!` prints. (trace.rs:32-44, 128-158.) -/
inductive Line
  /-- line 32 -/
  | block (id : Nat)
  /-- line 36 -/
  | stored (len : Nat)
  /-- line 40 -/
  | fixed
  /-- line 44 -/
  | dynamic (trees : BitVector)
  /-- line 128: the name of the preset, and the size of the serialised trace -/
  | trace (name : String) (size : Nat)
  /-- lines 138-150: position, bytes around it, guess, and the actual entry -/
  | miss (pos : Nat) (hint : List UInt8) (guess : List Code) (actual : Trace)
  /-- line 156: the configuration, what the index was made from, and the scanner's own fields -/
  | guesser (config : Config) (preroll data : List UInt8) (s : Scanner)
  /-- line 158 -/
  | blank
deriving DecidableEq

/-- A computation that prints: what was printed is kept when it fails. (trace.rs:20-51, 53-118.) -/
structure Printing (α : Type) where
  result : Except Fail α
  out : List Line

namespace Printing

/-- Print one line. (`println!`, trace.rs:32.) -/
def say (l : Line) : Printing Unit := ⟨.ok (), [l]⟩

/-- Print nothing. (`?`, trace.rs:30.) -/
def lift {α : Type} (x : Except Fail α) : Printing α := ⟨x, []⟩

/-- `;` and `?` (trace.rs:20-51). -/
def bind {α β : Type} (x : Printing α) (f : α → Printing β) : Printing β :=
  match x with
  | ⟨.ok a, out⟩ => ⟨(f a).result, out ++ (f a).out⟩
  | ⟨.error e, out⟩ => ⟨.error e, out⟩

/-- `;` and `?` (trace.rs:20-51). -/
instance : Monad Printing where
  pure a := lift (.ok a)
  bind := bind

end Printing

open Printing

/-- `&xs[from..to]`, with `to` inside: panics if `from > to`. (trace.rs:133.) -/
def slice (xs : List UInt8) (from_ to : Nat) : Except Fail (List UInt8) :=
  if from_ ≤ to ∧ to ≤ xs.length then .ok ((xs.take to).drop from_) else .error (.panic .index)

/-- trace.rs:132-151: one iteration, up to the `feedback`. -/
def showOne (t : Technique) (decompressed : List UInt8) (s : Scanner) (x : Trace) : Printing Unit := do
  let hint ← lift (slice decompressed (s.pos - 5) (min (s.pos + 5) decompressed.length))
  match x with
  | .correct => pure ()
  | x => do
    let guess ← lift (t.codes s)
    say (.miss s.pos hint guess x)

/-- trace.rs:131-154: the loop over `trace.iter().zip(codes.iter())`. -/
def showLoop (t : Technique) (decompressed : List UInt8) : Scanner → List Trace → List Code →
    Printing Scanner
  | s, x :: xs, c :: cs => do
    showOne t decompressed s x
    showLoop t decompressed (t.feedback s c) xs cs
  | s, _, _ => pure s

/-- trace.rs:124-159. -/
def tryTrace (allRefs : AllRefs) (name : String) (config : Config) (codes : List Code)
    (decompressed : List UInt8) : Printing Unit := do
  let technique : Technique := { config := config, allRefs := allRefs }
  let trace ← lift (Tracing.validate codes technique)
  let serialise ← lift (SerialiseTrace.verify trace)
  say (.trace name serialise.length)
  let scanner ← showLoop technique decompressed technique.scanner trace codes
  say (.guesser config allRefs.preroll allRefs.data scanner)
  say .blank

/-- `?` on an operation on `&mut` state. (trace.rs:57.) -/
def question {σ : Type} : EStateM.Result Fail σ Unit → Except Fail σ
  | .ok _ s => .ok s
  | .error e _ => .error e

/-- trace.rs:53-122. -/
def print (p : Profile) (dictionary : CircularBuffer) (codes : List Code) : Printing CircularBuffer := do
  let oldDictionary ← lift (dictionary.vec p)
  let st ← lift (question (Serialise.decompressedCodes codes { dict := dictionary, into := Sink.vec }))
  let decompressed := st.into.out
  let refs1 ← lift (AllRefs.withSixteen oldDictionary decompressed 4)
  let _refs3 ← lift (AllRefs.withSixteen oldDictionary decompressed 6)
  let allRefs ← lift (AllRefs.withSixteen oldDictionary decompressed 65535)
  let fast ← lift (Config.gzip 1)
  tryTrace refs1 "gzip --fast" fast codes decompressed
  let default ← lift Config.gzip16Default
  tryTrace allRefs "gzip [--default]" default codes decompressed
  pure st.dict

/-- trace.rs:32-47: one block; the new dictionary. -/
def onBlock (p : Profile) (id : Nat) (block : Block) (dictionary : CircularBuffer) :
    Printing CircularBuffer := do
  say (.block id)
  match block with
  | .uncompressed data => do
    say (.stored data.length)
    lift (dictionary.extend data)
  | .fixedHuffman codes => do
    say .fixed
    print p dictionary codes
  | .dynamicHuffman trees codes => do
    say (.dynamic trees)
    print p dictionary codes

/-- trace.rs:29-48: the loop over the blocks, from block `id` on. -/
def loop (p : Profile) : Nat → Parse.BlockIter → Nat → CircularBuffer → Printing Unit
  | 0, _, _, _ => lift (.error .diverge)
  | fuel + 1, it, id, dictionary =>
    match it.next with
    | (none, _) => pure ()
    | (some x, it) => do
      let block ← lift x
      let dictionary ← onBlock p id block dictionary
      loop p fuel it (id + 1) dictionary

/-- trace.rs:20-51 `main`, given the file. -/
def run (p : Profile) (file : List UInt8) : Printing Unit :=
  match Gzip.discardHeader file with
  | .error e _ => lift (.error e)
  | .ok _ reader => do
    let dictionary ← lift CircularBuffer.new
    loop p (8 * reader.length + 2) (Parse.parseDeflate reader) 0 dictionary

end Rezip.TraceExample
