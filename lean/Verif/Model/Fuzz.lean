import Verif.Model.Parse
import Verif.Model.Trace

/-!
# The fuzz targets in lib/fuzz/fuzz_targets

The program `gzip` and the encoder of `flate2` are parameters: any function from data to bytes. What is
printed is left out; a run either ends (`ok`) or is reported as a crash by the fuzzer.
-/

namespace Rezip.Fuzz

/-- exec_gzip.rs:30, trace_gzip_1.rs:52: `&file[10..file.len()-8]`. -/
def body (file : List UInt8) : Except Fail (List UInt8) :=
  if file.length < 8 then .error (.panic .overflow)
  else if file.length - 8 < 10 then .error (.panic .index)
  else .ok ((file.take (file.length - 8)).drop 10)

/-- exec_gzip.rs:32-35, trace_gzip_1.rs:33-36: the first block. -/
def firstBlock (compressed : List UInt8) : Except Fail Block :=
  match (Parse.parseDeflate compressed).next with
  | (some (.ok block), _) => .ok block
  | (some (.error .diverge), _) => .error .diverge
  | _ => .error (.panic .explicit)

/-- exec_gzip.rs:37-41, trace_gzip_1.rs:38-42: the codes, or `none` for a stored block. -/
def codesOf : Block → Option (List Code)
  | .fixedHuffman codes => some codes
  | .dynamicHuffman _ codes => some codes
  | .uncompressed _ => none

/-- exec_gzip.rs:23-56 `run`. -/
def execGzip (gzip : List UInt8 → List UInt8) (data : List UInt8) : Except Fail Unit :=
  if data.isEmpty then .ok ()
  else do
    let compressed ← body (gzip data)
    let block ← firstBlock compressed
    match codesOf block with
    | none => .ok ()
    | some codes =>
      let slice ← Tracer.tryGzip 1 [] data codes
      if slice.all (Trace.correct == ·) then .ok () else .error (.panic .explicit)

/-- trace_gzip_1.rs:23-63 `run`. `flate` is what `DeflateEncoder` gives at level `fast` after one `write`
of the data and `finish`; `none` if one of them fails (both are unwrapped). -/
def traceGzip1 (flate : List UInt8 → Option (List UInt8)) (gzip : List UInt8 → List UInt8)
    (data : List UInt8) : Except Fail Unit :=
  if data.isEmpty then .ok ()
  else
    match flate data with
    | none => .error (.panic .unwrap)
    | some compressed => do
      let block ← firstBlock compressed
      match codesOf block with
      | none => .ok ()
      | some codes =>
        let slice ← Tracer.tryGzip 1 [] data codes
        if slice.all (Trace.correct == ·) then .ok ()
        else do
          let b ← body (gzip data)
          if compressed != b then .ok () else .error (.panic .explicit)

end Rezip.Fuzz
