import Verif.Model.Base

/-!
# lib/src/serialise_trace.rs
-/

namespace Rezip

namespace SerialiseTrace

/-- `write_u16::<LE>` into a vector. (serialise_trace.rs:34, 38, 47 and 54.) -/
def u16le (v : Nat) : List UInt8 := [(v % 256).toUInt8, (v / 256).toUInt8]

/-- serialise_trace.rs:46-57: write a run of `corrects` correct guesses; `32_768 + 32_767` as long
as more than 32767 are left, then the rest (asserted to be non-zero). -/
def writeCorrects (corrects : Nat) : Except Fail (List UInt8) :=
  if h : corrects > 32767 then do
    let rest ← writeCorrects (corrects - 32767)
    pure (u16le (32768 + 32767) ++ rest)
  else if corrects = 0 then .error (.panic .assertion)
  else pure (u16le (32768 + corrects))
termination_by corrects
decreasing_by omega

/-- serialise_trace.rs:43: `peeking_take_while(|x| Trace::Correct == **x)`: the number of leading
`Correct` entries and the rest. -/
def takeCorrects : List Trace → Nat × List Trace
  | .correct :: rest => let (n, r) := takeCorrects rest; (n + 1, r)
  | other => (0, other)

/-- serialise_trace.rs:27-63 `write`: `while let Some(trace) = traces.peek()`. Fuel: every
iteration consumes at least one entry. -/
def writeLoop : Nat → List Trace → Except Fail (List UInt8)
  | _, [] => pure []
  | 0, _ => .error .diverge
  | fuel + 1, .actuallyLiteral :: rest => do
    let out ← writeLoop fuel rest
    pure (u16le 0 ++ out)
  | fuel + 1, .actually r :: rest => do
    let out ← writeLoop fuel rest
    -- `(r.run() - 3) as u8`
    pure (u16le r.dist.toNat ++ [(r.run - 3).toUInt8] ++ out)
  | fuel + 1, .correct :: rest => do
    let (corrects, rest') := takeCorrects (.correct :: rest)
    let head ← writeCorrects corrects
    let out ← writeLoop fuel rest'
    pure (head ++ out)

/-- serialise_trace.rs:27-63. -/
def write (traces : List Trace) : Except Fail (List UInt8) := writeLoop traces.length traces

/-- serialise_trace.rs:65-90 `read`. Fuel: every iteration consumes at least two bytes.
`read_u16` hitting end of input (also after one byte) ends the loop; `read_u8` hitting it is an
error. -/
def readLoop : Nat → List UInt8 → Except Fail (List Trace)
  | 0, _ => .error .diverge
  | fuel + 1, b0 :: b1 :: rest =>
    let first := b0.toNat + 256 * b1.toNat
    if first = 0 then do
      let out ← readLoop fuel rest
      pure (.actuallyLiteral :: out)
    else if first ≤ 32768 then
      match rest with
      | [] => .error (.err .eof)
      | runMinus3 :: rest => do
        let r ← Ref.new first (runMinus3.toNat + 3)
        let out ← readLoop fuel rest
        pure (.actually r :: out)
    else do
      let out ← readLoop fuel rest
      pure (List.replicate (first - 32768) .correct ++ out)
  | _ + 1, _ => pure []

/-- serialise_trace.rs:65-90. -/
def read (data : List UInt8) : Except Fail (List Trace) := readLoop (data.length + 1) data

/-- serialise_trace.rs:16-25 `verify`. -/
def verify (traces : List Trace) : Except Fail (List UInt8) := do
  let data ← write traces
  match read data with
  | .ok back => do
    assert (traces == back)
    pure data
  | .error (.err _) => .error (.panic .unwrap)
  | .error e => .error e

end SerialiseTrace

end Rezip
