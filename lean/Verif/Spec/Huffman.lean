import Verif.Spec.Bits

/-!
# Specification: prefix codes described by code lengths (RFC 1951, 3.2.2)
-/

namespace Rezip.Spec

/-- The Kraft sum of the code lengths, scaled by `2^15`: each used symbol of length `l` covers
`2^(15-l)` of the `2^15` bit strings of length 15. -/
def kraft (lens : List Nat) : Nat :=
  (lens.map fun l => if l = 0 then 0 else 2 ^ (15 - l)).sum

/-- The lengths describe a complete prefix code: the sum of `2^-l` over used symbols is one. -/
def Complete (lens : List Nat) : Prop := kraft lens = 2 ^ 15

/-- RFC 1951, 3.2.2 step 1: `bl_count[n]`, where `bl_count[0]` is taken as zero. -/
def blCount (lens : List Nat) (n : Nat) : Nat := if n = 0 then 0 else lens.count n

/-- RFC 1951, 3.2.2 step 2: `next_code[n] = (next_code[n-1] + bl_count[n-1]) << 1`. -/
def nextCode (lens : List Nat) : Nat → Nat
  | 0 => 0
  | n + 1 => 2 * (nextCode lens n + blCount lens n)

/-- RFC 1951, 3.2.2 step 3: symbols of the same length get consecutive values in symbol order. -/
def codeValue (lens : List Nat) (sym : Nat) : Nat :=
  nextCode lens (lens.getD sym 0) + (lens.take sym).count (lens.getD sym 0)

/-- The code of a symbol as the bits that appear in the stream, most significant bit first
(RFC 1951, 3.1.1); `none` for unused symbols and symbols outside the alphabet. -/
def codeOf (lens : List Nat) (sym : Nat) : Option (List Bool) :=
  if lens.getD sym 0 = 0 then none
  else some (msbBits (lens.getD sym 0) (codeValue lens sym))

end Rezip.Spec
