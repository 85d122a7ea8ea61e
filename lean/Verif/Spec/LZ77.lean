import Verif.Model.Circles
import Verif.Model.Parse

/-!
# LZ77 expansion

Written over the whole history of bytes, with no buffer: `h` is everything produced so far, oldest
byte first, and `W` is the window size (how far back a reference may reach).
-/

namespace Rezip

/-- The `n` bytes a copy from `dist` back appends to the history `h`, one at a time, so that a copy
may overlap itself. Used only for `1 ≤ dist ≤ h.length`. -/
def lzCopy (h : List UInt8) (dist : Nat) : Nat → List UInt8
  | 0 => []
  | n + 1 =>
    let b := h.getD (h.length - dist) 0
    b :: lzCopy (h ++ [b]) dist n

/-- The bytes one code stands for, after history `h`; none if it reaches before the window. -/
def lzCode (W : Nat) (h : List UInt8) : Code → Option (List UInt8)
  | .literal b => some [b]
  | .reference r =>
    if 1 ≤ r.dist.toNat ∧ r.dist.toNat ≤ min W h.length then some (lzCopy h r.dist.toNat r.run)
    else none

/-- The bytes a list of codes stands for, after history `h`. -/
def lzExpand (W : Nat) (h : List UInt8) : List Code → Option (List UInt8)
  | [] => some []
  | c :: cs =>
    match lzCode W h c with
    | none => none
    | some x =>
      match lzExpand W (h ++ x) cs with
      | none => none
      | some y => some (x ++ y)

/-- The bytes of the codes before the first one that reaches before the window. -/
def lzDecodable (W : Nat) (h : List UInt8) : List Code → List UInt8
  | [] => []
  | c :: cs =>
    match lzCode W h c with
    | none => []
    | some x => x ++ lzDecodable W (h ++ x) cs

/-- A block as a list of codes: a stored block is a list of literals. -/
def lzCodes : Block → List Code
  | .uncompressed data => data.map .literal
  | .fixedHuffman codes => codes
  | .dynamicHuffman _ codes => codes

end Rezip
