import Verif.Model.Base

/-!
# examples/hard.rs: endless lines of random visible characters

The random number generator is a parameter: `draws n` decides what the `n`-th call of `choose` takes. The seed in
the code fixes one such sequence; nothing below depends on which.
-/

namespace Rezip.Hard

/-- `char::is_ascii_graphic`, of a byte as a character. (hard.rs:12.) -/
def isAsciiGraphic (c : UInt8) : Bool := 0x21 ≤ c && c ≤ 0x7e

/-- hard.rs:11-14. `32..128` is a range of bytes. -/
def chars : List UInt8 := ((List.range (128 - 32)).map fun i => (32 + i).toUInt8).filter isAsciiGraphic

/-- `SliceRandom::choose`: nothing of an empty slice, otherwise an element at an index in range. (hard.rs:26.) -/
def choose (xs : List UInt8) (draw : Nat) : Option UInt8 :=
  if xs.isEmpty then none else xs[draw % xs.length]?

/-- `.expect(..)` of an option. (hard.rs:26.) -/
def expect {α : Type} : Option α → Except Fail α
  | some x => .ok x
  | none => .error (.panic .unwrap)

/-- hard.rs:25-27: the loop over `k`, from `k` on, with `count` more to go; `n` draws were made before. -/
def fill (draws : Nat → Nat) : Nat → Nat → Nat → List UInt8 → Except Fail (List UInt8)
  | 0, _, _, buf => .ok buf
  | count + 1, k, n, buf => do
    let c ← expect (choose chars (draws n))
    let buf ← indexSet buf k c
    fill draws count (k + 1) (n + 1) buf

/-- hard.rs:22-27: the next line, after `n` draws. -/
def line (draws : Nat → Nat) (n : Nat) : Except Fail (List UInt8) := do
  let buf := List.replicate 8 0
  let buf ← indexSet buf (buf.length - 1) 10
  fill draws (buf.length - 1) 0 n buf

/-- `stdout.write_all(..).unwrap()`. (hard.rs:29.) -/
def writeUnwrap (buf : List UInt8) : EStateM Fail Sink Unit := fun s =>
  match writeAll buf s with
  | .ok u s => .ok u s
  | .error _ s => .error (.panic .unwrap) s

/-- hard.rs:21-30: the loop, after `n` draws. It does not end by itself; the fuel is the number of lines after which
we stop watching, and then the outcome is `diverge`. -/
def loop (draws : Nat → Nat) : Nat → Nat → EStateM Fail Sink Unit
  | 0, _ => liftE (.error .diverge)
  | fuel + 1, n => do
    let buf ← liftE (line draws n)
    writeUnwrap buf
    loop draws fuel (n + 7)

/-- hard.rs:10-31 `main`, watched for the given number of lines. -/
def main (draws : Nat → Nat) (lines : Nat) : EStateM Fail Sink Unit := loop draws lines 0

end Rezip.Hard
