import Verif.Model.Base

/-!
# The documented codes of a byte repeated

lib/src/lib.rs:79-99: gzip encodes "aaaaaa" as "aa{ref one back, run=..}", and a longer file as two literals, then
references one back of 258 bytes each, then what is left.
-/

namespace Rezip.Spec

/-- A reference. -/
def back (dist run : Nat) : Code := .reference ⟨dist.toUInt16, (run - 3).toUInt8⟩

/-- The last bytes: a reference, or literals if they are fewer than three. -/
def lastCodes (b : UInt8) (dist left : Nat) : List Code :=
  if left < 3 then List.replicate left (.literal b) else [back dist left]

/-- The codes of `n` times `b`. -/
def runCodes (b : UInt8) (n : Nat) : List Code :=
  List.replicate (min n 2) (.literal b) ++
    (List.replicate ((n - 2) / 258) (back 1 258) ++ lastCodes b 1 ((n - 2) % 258))

/-- The codes of `n` times `b` at the fast levels: the bytes inside a reference are not searched, so the second
reference refers to the first one. -/
def fastRunCodes (b : UInt8) (n : Nat) : List Code :=
  List.replicate (min n 2) (.literal b) ++
    (if n - 2 < 258 then lastCodes b 1 (n - 2)
      else back 1 258 :: (List.replicate ((n - 2) / 258 - 1) (back 258 258) ++ lastCodes b 258 ((n - 2) % 258)))

end Rezip.Spec
