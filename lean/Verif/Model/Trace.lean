import Verif.Model.Technique
import Verif.Model.SerialiseTrace

/-!
# lib/src/trace.rs and lib/src/tracer.rs
-/

namespace Rezip

namespace Tracing

/-- trace.rs:86-100 `shared_prefix`: the longest common prefix, and the codes left in the
iterator. -/
def sharedPrefix : List Code → List Code → List Code × List Code
  | g :: gs, c :: cs =>
    if c = g then
      let (m, rest) := sharedPrefix gs cs
      (g :: m, rest)
    else ([], c :: cs)
  | _, cs => ([], cs)

/-- trace.rs:19-22: feed back every matched code. -/
def feedAll (t : Technique) (s : Scanner) : List Code → Scanner
  | [] => s
  | c :: cs => feedAll t (t.feedback s c) cs

/-- trace.rs:30-33. -/
def hintFor : Code → Trace
  | .literal _ => .actuallyLiteral
  | .reference r => .actually r

/-- trace.rs:14-38: the `while scanner.more_data()` loop. Every iteration advances `pos`, so
`data_len + 1` steps of fuel are enough. -/
def traceLoop (t : Technique) : Nat → Scanner → List Code → Except Fail (List Trace)
  | 0, _, _ => .error .diverge
  | fuel + 1, s, codes => do
    if t.moreData s then
      let guesses ← t.codes s
      assert (!guesses.isEmpty)
      let (matches_, codes) := sharedPrefix guesses codes
      let s := feedAll t s matches_
      let here := List.replicate matches_.length Trace.correct
      if matches_.length = guesses.length then
        let rest ← traceLoop t fuel s codes
        pure (here ++ rest)
      else
        match codes with
        | code :: codes =>
          let rest ← traceLoop t fuel (t.feedback s code) codes
          pure (here ++ [hintFor code] ++ rest)
        | [] => .error (.panic .explicit)
    else pure []

/-- trace.rs:8-41 `trace`. -/
def trace (codes : List Code) (t : Technique) : Except Fail (List Trace) :=
  traceLoop t (t.dataLen + 1) t.scanner codes

/-- trace.rs:54-59. -/
def restoreOne (t : Technique) (s : Scanner) (guess : Code) : Trace → Except Fail Code
  | .correct => pure guess
  | .actually r => pure (.reference r)
  | .actuallyLiteral => do
    let b ← t.byteAt s.pos
    pure (.literal b)

/-- trace.rs:53-71: the inner loop over guesses. Returns the scanner, the codes pushed, and the
remaining trace. -/
def restoreInner (t : Technique) : List Code → Scanner → List Trace →
    Except Fail (Scanner × List Code × List Trace)
  | [], s, trace => pure (s, [], trace)
  | guess :: guesses, s, trace => do
    match trace with
    | [] => .error (.panic .unwrap)
    | hint :: trace =>
      let orig ← restoreOne t s guess hint
      let s := t.feedback s orig
      match hint with
      | .correct => do
        let (s, out, trace) ← restoreInner t guesses s trace
        pure (s, orig :: out, trace)
      | _ => pure (s, [orig], trace)

/-- trace.rs:49-72: the outer loop. -/
def restoreLoop (t : Technique) : Nat → Scanner → List Trace → Except Fail (List Code)
  | 0, _, _ => .error .diverge
  | fuel + 1, s, trace => do
    if t.moreData s then
      let guesses ← t.codes s
      assert (!guesses.isEmpty)
      let (s, out, trace) ← restoreInner t guesses s trace
      let rest ← restoreLoop t fuel s trace
      pure (out ++ rest)
    else pure []

/-- trace.rs:43-75 `restore`. -/
def restore (trace : List Trace) (t : Technique) : Except Fail (List Code) :=
  restoreLoop t (t.dataLen + 1) t.scanner trace

/-- trace.rs:77-84 `validate`. -/
def validate (codes : List Code) (t : Technique) : Except Fail (List Trace) := do
  let tr ← trace codes t
  let restored ← restore tr t
  assert (codes == restored)
  pure tr

end Tracing

namespace Tracer

/-- tracer.rs:15-26 `try`. -/
def try_ (config : Config) (preroll data : List UInt8) (codes : List Code) :
    Except Fail (List Trace) := do
  let limit := config.wams.insertOnlyBelowLength.getD 65535
  let allRefs ← AllRefs.withSixteen preroll data limit
  let traces ← Tracing.validate codes { config := config, allRefs := allRefs }
  let _ ← SerialiseTrace.verify traces
  pure traces

/-- tracer.rs:11-13 `try_gzip`. -/
def tryGzip (level : Nat) (preroll data : List UInt8) (codes : List Code) :
    Except Fail (List Trace) := do
  let config ← Config.gzip level
  try_ config preroll data codes

end Tracer

end Rezip
