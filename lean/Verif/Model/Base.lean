/-!
# Base: failures, byte sources and sinks, shared data types

Models the `Result`/panic discipline, `std::io::Read`/`Write` as used by the crate, and the
plain data types of `lib/src/lib.rs`.
-/

namespace Rezip

/-- The `Err(..)` values produced by the crate, one constructor per `ensure!`/`bail!`/`?` site
(the error text is not modelled). The sites are cited below: bit.rs:64 to gzip.rs:17. -/
inductive Err
  /-- `io::ErrorKind::UnexpectedEof` from `read_exact` -/
  | eof
  /-- a failing `Write::write_all` -/
  | sink
  /-- any other `io::Error` of a reader -/
  | device
  /-- bit.rs:64 -/
  | padding
  /-- bit.rs:80-83 -/
  | storedLength
  /-- bit.rs:153-156 -/
  | storedTooLong
  /-- code_tree.rs:19 -/
  | tooFewLengths
  /-- code_tree.rs:21-24 -/
  | tooManyLengths
  /-- code_tree.rs:30 -/
  | notATree
  /-- code_tree.rs:56 -/
  | nonCanonical
  /-- huffman.rs:69 -/
  | invalidState
  /-- huffman.rs:80 -/
  | noValueToCopy
  /-- huffman.rs:98 -/
  | runExceeds
  /-- huffman.rs:169 -/
  | decompressorBug
  /-- huffman.rs:191 -/
  | reservedRunSymbol
  /-- huffman.rs:227 -/
  | reservedDistSymbol
  /-- huffman.rs:229 -/
  | invalidDistSymbol
  /-- parse.rs:69 -/
  | reservedBlock
  /-- parse.rs:102 -/
  | noDistanceTable
  /-- parse.rs:107 -/
  | invalidDistance
  /-- circles.rs:49-54 -/
  | distMustFit
  /-- serialise.rs:154 -/
  | invalidLiteral
  /-- serialise.rs:196 -/
  | noDistanceTree
  /-- gzip.rs:13 -/
  | gzipMagic
  /-- gzip.rs:14 -/
  | gzipMethod
  /-- gzip.rs:17 -/
  | gzipFlags
  /-- an error item of the inflated byte iterator of `zero.rs` -/
  | inflate
deriving DecidableEq, Repr

/-- Panic sites. For example circles.rs:88 (index), bit.rs:362 (unwrap), circles.rs:19 (assertion),
circles.rs:74-79 (debug assertion), trace.rs:36 (explicit). -/
inductive Panic
  /-- slice/array index out of range -/
  | index
  /-- arithmetic overflow (overflow checks are on in the dev/test profile) -/
  | overflow
  /-- `unwrap()` / `expect()` on `None`/`Err` -/
  | unwrap
  /-- a failed `assert!`, `assert_eq!`, `assert_ge!`, ... -/
  | assertion
  /-- a failed `debug_assert!` -/
  | debugAssertion
  /-- an explicit `panic!(..)` / `unreachable!()` -/
  | explicit
deriving DecidableEq, Repr

/-- How a call can fail to return normally. `diverge` is not a behaviour of the code: it marks
running out of the model's loop fuel, and the theorems show it is never produced. (`?` as in parse.rs:63,
panics as in trace.rs:36.) -/
inductive Fail
  | err (e : Err)
  | panic (p : Panic)
  | diverge
deriving DecidableEq, Repr

/-- Build profile, used only where `debug_assert!`/overflow checks change the outcome. (circles.rs:74-79 and
103.) -/
inductive Profile
  | dev
  | release
deriving DecidableEq, Repr

/-- `ensure!(cond, ..)` (anyhow): return an error unless `cond`. For example bit.rs:64, gzip.rs:13. -/
def ensure (c : Bool) (e : Err) : Except Fail Unit :=
  if c then .ok () else .error (.err e)

/-- `assert!(cond)`. For example bit.rs:36, circles.rs:19. -/
def assert (c : Bool) : Except Fail Unit :=
  if c then .ok () else .error (.panic .assertion)

/-- `xs[i]` on a slice: panics when out of range. For example bit.rs:225, technique.rs:67. -/
def index {α : Type} (xs : List α) (i : Nat) : Except Fail α :=
  match xs[i]? with
  | some x => .ok x
  | none => .error (.panic .index)

/-- `xs[i] = v` on a slice: panics when out of range. For example huffman.rs:50, 68 and 76. -/
def indexSet {α : Type} (xs : List α) (i : Nat) (v : α) : Except Fail (List α) :=
  if i < xs.length then .ok (xs.set i v) else .error (.panic .index)

/-- Run a non-mutating fallible computation inside a stateful one. (For example `compressed_block`,
serialise.rs:57-85, which looks up tables and writes.) -/
def liftE {σ α : Type} (x : Except Fail α) : EStateM Fail σ α := fun s =>
  match x with
  | .ok a => .ok a s
  | .error e => .error e s

/-- `Read::read_exact` for a buffer of `n` bytes on an in-memory reader (`Cursor`, `&[u8]`):
succeeds iff `n` bytes are left; on end of input the rest is consumed.
Simplification: the reader has no failure other than end of input. (bit.rs:43, 87 and 98, gzip.rs:10-61.) -/
def readExact (n : Nat) : EStateM Fail (List UInt8) (List UInt8) := fun s =>
  if n ≤ s.length then .ok (s.take n) (s.drop n) else .error (.err .eof) []

/-- A `W: Write`: the bytes accepted so far, and how many more will be accepted before every
write fails (`none`: never fails, e.g. `Vec<u8>`). (serialise.rs:15, circles.rs:46, bit.rs:20-23.) -/
structure Sink where
  out : List UInt8
  room : Option Nat
deriving DecidableEq, Repr

/-- An empty `Vec<u8>` used as a sink. (bit.rs:399, lib.rs:223.) -/
def Sink.vec : Sink := { out := [], room := none }

/-- `Write::write_all`: either accepts the whole buffer, or accepts the part that fits and then
fails. (bit.rs:125, 160 and 165, circles.rs:65, serialise.rs:25 and 46.) -/
def writeAll (buf : List UInt8) : EStateM Fail Sink Unit := fun s =>
  match s.room with
  | none => .ok () { s with out := s.out ++ buf }
  | some r =>
    if buf.length ≤ r then
      .ok () { out := s.out ++ buf, room := some (r - buf.length) }
    else
      .error (.err .sink) { out := s.out ++ buf.take r, room := some 0 }

/-- lib.rs:39-43 `Ref`. `run_minus_3` is private; `dist` is public, so any `u16` can occur. -/
structure Ref where
  dist : UInt16
  runMinus3 : UInt8
deriving DecidableEq, Repr

/-- lib.rs:132-135 `Ref::run`. -/
def Ref.run (r : Ref) : Nat := r.runMinus3.toNat + 3

/-- lib.rs:121-130 `Ref::new` (the four assertions panic). -/
def Ref.new (dist run : Nat) : Except Fail Ref := do
  assert (run ≥ 3)
  assert (run ≤ 258)
  assert (dist ≥ 1)
  assert (dist ≤ 32768)
  .ok { dist := dist.toUInt16, runMinus3 := (run - 3).toUInt8 }

/-- lib.rs:45-49 `Code`. -/
inductive Code
  | literal (b : UInt8)
  | reference (r : Ref)
deriving DecidableEq, Repr

/-- lib.rs:110-117 `Code::emitted_bytes`. -/
def Code.emittedBytes : Code → Nat
  | .literal _ => 1
  | .reference r => r.run

/-- lib.rs:103-108 `Trace`. -/
inductive Trace
  | correct
  | actuallyLiteral
  | actually (r : Ref)
deriving DecidableEq, Repr

/-- lib.rs:58 `type Obscure = (usize, u16)`. -/
abbrev Obscure := Nat × Nat

end Rezip
