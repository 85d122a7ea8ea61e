import Verif.Model.Gzip
import Verif.Model.Serialise
import Verif.Model.Trace

/-!
# The drivers in lib/src/lib.rs (test `round_trip`) and lib/tests/tracing_size.rs

These show how the library is meant to be used: read a whole gzip file, and check that it can be recreated.
-/

namespace Rezip

/-- `Result::unwrap`: an error becomes a panic. (lib.rs:221 and 234.) -/
def unwrap {α : Type} : Except Fail α → Except Fail α
  | .error (.err _) => .error (.panic .unwrap)
  | x => x

/-- `.unwrap()` after an operation on `&mut` state: the new state. (lib.rs:240-243.) -/
def unwrapState {σ : Type} : EStateM.Result Fail σ Unit → Except Fail σ
  | .ok _ s => .ok s
  | .error e _ => unwrap (.error e)

namespace RoundTrip

/-- lib.rs:232-250: the loop over the peekable iterator. `cur` is the item that `it.next()` gives now; the
item after it is what `it.peek()` sees and what the next `it.next()` gives. -/
def loop : Nat → Option (Except Fail Block) → Parse.BlockIter → DecState → BitWriter →
    Except Fail (Parse.BlockIter × DecState × BitWriter)
  | 0, _, _, _, _ => .error .diverge
  | _ + 1, none, it, dec, w => .ok (it, dec, w)
  | fuel + 1, some x, it, dec, w => do
    let block ← unwrap x
    let (peeked, it) := it.next
    let dec ← unwrapState (Serialise.decompressedBlock block dec)
    let w ← unwrapState (BitWriter.writeBit peeked.isNone w)
    let w ← unwrapState (Serialise.compressedBlock block w)
    loop fuel peeked it dec w

/-- lib.rs:219-260 `round_trip`: succeeds if nothing panics. -/
def run (orig : List UInt8) (expectedLen : Nat) : Except Fail Unit :=
  match Gzip.discardHeader orig with
  | .error e _ => unwrap (.error e)
  | .ok header raw => do
    let dict ← CircularBuffer.withCapacity (32 * 1024)
    let (cur, it) := (Parse.parseDeflate raw).next
    let (it, dec, w) ← loop (8 * raw.length + 2) cur it { dict := dict, into := Sink.vec }
      (BitWriter.new { out := header, room := none })
    let w ← unwrapState (BitWriter.align w)
    let recompressed ← w.intoInner
    assert (orig == recompressed.out ++ it.inner.inner)
    assert (expectedLen == dec.into.out.length)

end RoundTrip

namespace RunGzip

/-- tracing_size.rs:19-30: the loop over the blocks. -/
def loop (p : Profile) (level : Nat) : Nat → Parse.BlockIter → CircularBuffer →
    Except Fail (List (List Trace))
  | 0, _, _ => .error .diverge
  | fuel + 1, it, dict =>
    match it.next with
    | (none, _) => pure []
    | (some x, it) => do
      let codes ← match ← unwrap x with
        | .uncompressed _ => .error (.panic .explicit)
        | .fixedHuffman codes => pure codes
        | .dynamicHuffman _ codes => pure codes
      let preroll ← dict.vec p
      let st ← unwrapState (Serialise.decompressedCodes codes { dict := dict, into := Sink.vec })
      let part ← Tracer.tryGzip level preroll st.into.out codes
      let parts ← loop p level fuel it st.dict
      pure (part :: parts)

/-- tracing_size.rs:12-33 `run_gzip`. -/
def run (p : Profile) (level : Nat) (file : List UInt8) : Except Fail (List (List Trace)) :=
  match Gzip.discardHeader file with
  | .error e _ => unwrap (.error e)
  | .ok _ reader => do
    let dict ← CircularBuffer.new
    loop p level (8 * reader.length + 2) (Parse.parseDeflate reader) dict

/-- tracing_size.rs:35-46 `try_gzip`: every entry of every part must be `Correct`. -/
def tryGzip (p : Profile) (level : Nat) (file : List UInt8) : Except Fail Unit := do
  let parts ← run p level file
  if parts.all fun part => part.all fun x => x == .correct then pure ()
  else .error (.panic .explicit)

end RunGzip

end Rezip
