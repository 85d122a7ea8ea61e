import Verif.Spec.RefRestore
import Verif.Model.Technique

/-!
# What a guesser with any configuration should say

The reference description of Spec/Guess.lean with lookahead. From `Config` only the settings are used.
-/

namespace Rezip.Spec

/-- What matters of a configuration, apart from the lookahead. -/
def settingsOf (config : Config) : Settings :=
  { nice := config.wams.quitSearchAboveLength, chain := config.wams.limitCountOfDistances,
    dropFar := config.picker == .dropFarThrees, insert := config.wams.insertOnlyBelowLength }

/-- The match (distance and length) found at `pos`, where `beat` is the length of a match already found. With a match
shorter than the abort length there is no search, and with one longer than the apathetic length only a quarter of the
candidates is compared. -/
def lookAt (config : Config) (search : Nat) (w : List UInt8) (runs : List (Nat × Nat)) (pos : Nat)
    (beat : Option Nat) : Option (Nat × Nat) :=
  let st := settingsOf config
  match beat, config.wams.lookahead with
  | some run, some la =>
    if run < la.abortAboveLength then none
    else guess { st with chain := if la.apatheticAboveLength < run then st.chain / 4 else st.chain } search w pos runs
  | _, _ => guess st search w pos runs

/-- Lazy evaluation, with the match `m` at `pos`: as long as there is a longer match one byte later, the byte. At most
`steps` times. -/
def lazyCodes (look : Nat → Option Nat → Option (Nat × Nat)) (w : List UInt8) : Nat → Nat → Nat × Nat → List Code
  | 0, pos, m => [guessedCode w pos (some m)]
  | steps + 1, pos, m =>
    match look (pos + 1) (some m.2) with
    | some m' =>
      if m.2 < m'.2 then guessedCode w pos none :: lazyCodes look w steps (pos + 1) m'
      else [guessedCode w pos (some m)]
    | none => [guessedCode w pos (some m)]

/-- The three step lookahead, with the match `m` at `pos`: a match of length three gives way to a longer one that starts
one byte later; both give way to one that starts two bytes later, if it is longer than four and than the second. -/
def threeCodes (look : Nat → Option Nat → Option (Nat × Nat)) (w : List UInt8) (pos : Nat) (m : Nat × Nat) : List Code :=
  if 3 < m.2 then [guessedCode w pos (some m)]
  else
    let second := (look (pos + 1) none).filter fun x => 3 < x.2
    let third := (look (pos + 2) none).filter fun x => 4 < x.2 && second.all fun y => y.2 < x.2
    match third, second with
    | some x, _ => [guessedCode w pos none, guessedCode w (pos + 1) none, guessedCode w (pos + 2) (some x)]
    | none, some y => [guessedCode w pos none, guessedCode w (pos + 1) (some y)]
    | none, none => [guessedCode w pos (some m)]

/-- The codes guessed at `pos`: the byte there if there is no match, otherwise what the lookahead makes of it. -/
def guessCodes (config : Config) (search : Nat) (w : List UInt8) (pos : Nat) (runs : List (Nat × Nat)) : List Code :=
  let look := lookAt config search w runs
  match look pos none with
  | none => [guessedCode w pos none]
  | some m =>
    match config.lookahead with
    | .greedy => [guessedCode w pos (some m)]
    | .gzip => lazyCodes look w 255 pos m
    | .threeZip => threeCodes look w pos m

/-- The code and the rest of the guesses: new ones are made when there are none left. -/
def pendingAt (config : Config) (search : Nat) (w : List UInt8) (pos : Nat) (runs : List (Nat × Nat))
    (pending : List Code) : List Code :=
  if pending = [] then guessCodes config search w pos runs else pending

/-- The entry of a code that was not guessed. -/
def entryOf : Code → Trace
  | .literal _ => .actuallyLiteral
  | .reference r => .actually r

/-- The trace of codes standing at `pos`, with `pending` guesses left: one entry per code until the end of the data,
`Correct` if the code is as guessed and otherwise the code. After a wrong guess the others are dropped. -/
def refTraceAny (config : Config) (search : Nat) (w : List UInt8) :
    Nat → List (Nat × Nat) → List Code → List Code → Except Panic (List Trace)
  | pos, _, _, [] => if pos < w.length then .error .explicit else .ok []
  | pos, runs, pending, c :: cs =>
    if pos < w.length then
      let pending := pendingAt config search w pos runs pending
      (refTraceAny config search w (pos + c.emittedBytes) (runsAfter (settingsOf config) pos runs c)
        (if pending.head? = some c then pending.tail else []) cs).map
          ((if pending.head? = some c then .correct else entryOf c) :: ·)
    else .ok []

/-- The code an entry stands for. -/
def meantCode (guessed : Option Code) (byte : Option UInt8) : Trace → Option Code
  | .correct => guessed
  | .actually r => some (.reference r)
  | .actuallyLiteral => byte.map .literal

/-- The codes a trace stands for, from `pos` on, with `pending` guesses left and literals that were not guessed looked
up in `look`. `unwrap` if there are too few entries, `index` if a literal cannot be looked up. -/
def refRestoreAny (config : Config) (search : Nat) (w look : List UInt8) :
    Nat → List (Nat × Nat) → List Code → List Trace → Except Panic (List Code)
  | pos, _, _, [] => if pos < w.length then .error .unwrap else .ok []
  | pos, runs, pending, x :: xs =>
    if pos < w.length then
      let pending := pendingAt config search w pos runs pending
      match meantCode pending.head? look[pos]? x with
      | none => .error .index
      | some c => (refRestoreAny config search w look (pos + c.emittedBytes)
          (runsAfter (settingsOf config) pos runs c) (if x = .correct then pending.tail else []) xs).map (c :: ·)
    else .ok []

end Rezip.Spec
