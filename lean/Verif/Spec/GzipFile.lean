import Verif.Spec.GzipHeader
import Verif.Spec.Deflate
import Verif.Spec.LZ77

/-!
# RFC 1952: gzip files

A gzip file is a series of members: a header, a deflate stream, the CRC-32 of the data and its length modulo
2^32.
-/

namespace Rezip.Spec

open Rezip

/-- One bit of the CRC-32 of RFC 1952 section 8 (reflected polynomial edb88320). -/
def crcStep (c : UInt32) : UInt32 := if c % 2 = 1 then (0xedb88320 : UInt32) ^^^ (c >>> 1) else c >>> 1

/-- One byte. -/
def crcByte (c : UInt32) (b : UInt8) : UInt32 :=
  crcStep (crcStep (crcStep (crcStep (crcStep (crcStep (crcStep (crcStep (c ^^^ b.toUInt32))))))))

/-- The CRC-32 of some data. -/
def crc32 (data : List UInt8) : Nat := (data.foldl crcByte 0xffffffff ^^^ 0xffffffff).toNat

/-- Four bytes, least significant first. -/
def le32 (n : Nat) : List UInt8 :=
  [(n % 256).toUInt8, (n / 256 % 256).toUInt8, (n / 65536 % 256).toUInt8, (n / 16777216 % 256).toUInt8]

/-- `bytes` is a member that holds `data`. -/
def GzMember (data bytes : List UInt8) : Prop :=
  ∃ (hd : GzHeader) (blocks : List Block) (d : List UInt8), hd.Valid ∧ DeflateBytes blocks d ∧
    lzExpand 32768 [] (blocks.flatMap lzCodes) = some data ∧
    bytes = hd.bytes ++ d ++ le32 (crc32 data) ++ le32 (data.length % 2 ^ 32)

/-- `bytes` is a gzip file that holds `data`: at least one member. -/
inductive GzFile : List UInt8 → List UInt8 → Prop
  | one (data bytes : List UInt8) : GzMember data bytes → GzFile data bytes
  | more (data bytes data' bytes' : List UInt8) : GzMember data bytes → GzFile data' bytes' →
      GzFile (data ++ data') (bytes ++ bytes')

/-- The check value of this CRC: the digits 1 to 9. -/
example : crc32 [0x31, 0x32, 0x33, 0x34, 0x35, 0x36, 0x37, 0x38, 0x39] = 0xcbf43926 := by decide +kernel

end Rezip.Spec
