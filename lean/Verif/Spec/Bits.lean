/-!
# Specification vocabulary: bits and bytes

Independent of the model. DEFLATE packs bits into bytes starting with the least significant bit
(RFC 1951, 3.1.1).
-/

namespace Rezip.Spec

/-- The number whose binary digits, least significant first, are the given bits. -/
def bitsVal : List Bool → Nat
  | [] => 0
  | b :: bs => b.toNat + 2 * bitsVal bs

/-- The `n` low binary digits of `v`, least significant first. -/
def lsbBits : Nat → Nat → List Bool
  | 0, _ => []
  | n + 1, v => (v % 2 == 1) :: lsbBits n (v / 2)

/-- The `n` low binary digits of `v`, most significant first. -/
def msbBits (n v : Nat) : List Bool := (lsbBits n v).reverse

/-- The bits of a byte in stream order. -/
def byteBits (b : UInt8) : List Bool := lsbBits 8 b.toNat

/-- The bits of a byte string in stream order. -/
def bytesBits (bs : List UInt8) : List Bool := bs.flatMap byteBits

/-- Number of zero bits that pad a bit string of length `n` to whole bytes. -/
def padLen (n : Nat) : Nat := (8 - n % 8) % 8

/-- A bit string padded with zero bits to whole bytes. -/
def padded (bs : List Bool) : List Bool := bs ++ List.replicate (padLen bs.length) false

end Rezip.Spec
