import Verif.Model.Base

/-!
# RFC 1952 member headers

Section 2.3 of the RFC: ID1 ID2 CM FLG MTIME XFL OS, then the optional fields in this order: FEXTRA
(XLEN and that many bytes), FNAME and FCOMMENT (zero-terminated), FHCRC (two bytes). The flag bits are
FTEXT 1, FHCRC 2, FEXTRA 4, FNAME 8, FCOMMENT 16; the others must be zero.
-/

namespace Rezip

structure GzHeader where
  text : Bool
  mtime : UInt8 × UInt8 × UInt8 × UInt8
  xfl : UInt8
  os : UInt8
  extra : Option (List UInt8)
  name : Option (List UInt8)
  comment : Option (List UInt8)
  hcrc : Option (UInt8 × UInt8)

namespace GzHeader

/-- The extra field must fit its 16 bit length; names and comments contain no zero byte. -/
def Valid (h : GzHeader) : Prop :=
  (∀ x, h.extra = some x → x.length < 65536) ∧
  (∀ x, h.name = some x → ∀ b ∈ x, b ≠ 0) ∧
  (∀ x, h.comment = some x → ∀ b ∈ x, b ≠ 0)

def flagByte (text hcrc extra name comment : Bool) : UInt8 :=
  (if text then 1 else 0) + (if hcrc then 2 else 0) + (if extra then 4 else 0) +
    (if name then 8 else 0) + (if comment then 16 else 0)

def extraField : Option (List UInt8) → List UInt8
  | none => []
  | some x => [(x.length % 256).toUInt8, (x.length / 256).toUInt8] ++ x

def zeroTerminated : Option (List UInt8) → List UInt8
  | none => []
  | some x => x ++ [0]

def crcField : Option (UInt8 × UInt8) → List UInt8
  | none => []
  | some (a, b) => [a, b]

/-- The bytes of the header. -/
def bytes (h : GzHeader) : List UInt8 :=
  [0x1f, 0x8b, 8,
    flagByte h.text h.hcrc.isSome h.extra.isSome h.name.isSome h.comment.isSome,
    h.mtime.1, h.mtime.2.1, h.mtime.2.2.1, h.mtime.2.2.2, h.xfl, h.os] ++
  extraField h.extra ++ zeroTerminated h.name ++ zeroTerminated h.comment ++ crcField h.hcrc

end GzHeader

end Rezip
