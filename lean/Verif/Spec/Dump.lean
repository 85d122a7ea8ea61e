import Verif.Model.Parse

/-!
# What the dump tool should print

`dbg` is how a byte is shown as a character.
-/

namespace Rezip.Spec

/-- Two hexadecimal digits. -/
def hexByte (b : UInt8) : String :=
  String.ofList (if b.toNat < 16 then '0' :: Nat.toDigits 16 b.toNat else Nat.toDigits 16 b.toNat)

def dumpCode (dbg : UInt8 → String) : Code → String
  | .literal b => s!"    - lit: 0x{hexByte b}: {dbg b}"
  | .reference r => s!"    - backref: {r.dist.toNat} byte(s) back, {r.run} bytes long"

/-- Bits as text. -/
def bitText (bits : List Bool) : String := String.ofList (bits.map fun b => if b then '1' else '0')

/-- The lines for block number `id`; `hdr` are the bits of its recorded header, if it is dynamic. -/
def dumpBlock (dbg : UInt8 → String) (id : Nat) (hdr : List Bool) : Block → List String
  | .uncompressed data => [s!"block {id}:", s!" - uncompressed: {data.length} bytes"]
  | .fixedHuffman codes => s!"block {id}:" :: " - fixed huffman:" :: codes.map (dumpCode dbg)
  | .dynamicHuffman _ codes =>
    s!"block {id}:" :: s!" - dynamic huffman: BitVec: {hdr.length}: {bitText hdr}" ::
      codes.map (dumpCode dbg)

/-- The header bits of a block: what its recorded bit vector iterates to. -/
def headerBits : Block → List Bool
  | .dynamicHuffman trees _ => trees.toBits.toOption.getD []
  | _ => []

/-- All lines, the first block having number `id`. -/
def dumpText (dbg : UInt8 → String) : Nat → List Block → List String
  | _, [] => []
  | id, b :: bs => dumpBlock dbg id (headerBits b) b ++ dumpText dbg (id + 1) bs

/-- A block without the contents of its stored payload. -/
def eraseStored : Block → Block
  | .uncompressed data => .uncompressed (List.replicate data.length 0)
  | b => b

end Rezip.Spec
