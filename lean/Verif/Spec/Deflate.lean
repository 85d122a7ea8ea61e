import Verif.Spec.Huffman
import Verif.Spec.Source
import Verif.Spec.Drive
import Verif.Model.Parse

/-!
# Specification: the DEFLATE format (RFC 1951)

Relations between data and the bit strings that represent it. Only the data types `Code`, `Ref`,
`Block` and `BitVector` are shared with the model.
-/

namespace Rezip.Spec

open Rezip

/-! ## Match lengths and distances (3.2.5) -/

/-- Smallest length of symbols 257..285. -/
def lengthBase : List Nat :=
  [3, 4, 5, 6, 7, 8, 9, 10, 11, 13, 15, 17, 19, 23, 27, 31, 35, 43, 51, 59, 67, 83, 99, 115, 131,
    163, 195, 227, 258]

/-- Number of extra bits of symbols 257..285. -/
def lengthExtra : List Nat :=
  [0, 0, 0, 0, 0, 0, 0, 0, 1, 1, 1, 1, 2, 2, 2, 2, 3, 3, 3, 3, 4, 4, 4, 4, 5, 5, 5, 5, 0]

/-- Smallest distance of symbols 0..29. -/
def distBase : List Nat :=
  [1, 2, 3, 4, 5, 7, 9, 13, 17, 25, 33, 49, 65, 97, 129, 193, 257, 385, 513, 769, 1025, 1537, 2049,
    3073, 4097, 6145, 8193, 12289, 16385, 24577]

/-- Number of extra bits of symbols 0..29. -/
def distExtra : List Nat :=
  [0, 0, 0, 0, 1, 1, 2, 2, 3, 3, 4, 4, 5, 5, 6, 6, 7, 7, 8, 8, 9, 9, 10, 10, 11, 11, 12, 12, 13, 13]

/-- `i` is the length symbol (minus 257) and `v` the value of its extra bits for a match of length
`len`. Note that 258 has two representations, `(28, 0)` and `(27, 31)`; the RFC table excludes the
second, decoders accept it. -/
def LengthSym (len i v : Nat) : Prop :=
  i < 29 ∧ v < 2 ^ lengthExtra.getD i 0 ∧ len = lengthBase.getD i 0 + v

/-- As the table of the RFC has it: 258 is symbol 285 (`i = 28`), never 284 with extra bits 31. -/
def StrictLengthSym (len i v : Nat) : Prop := LengthSym len i v ∧ (len = 258 → i = 28)

/-- `i` is the distance symbol and `v` the value of its extra bits for distance `dist`. -/
def DistSym (dist i v : Nat) : Prop :=
  i < 30 ∧ v < 2 ^ distExtra.getD i 0 ∧ dist = distBase.getD i 0 + v

/-! ## Compressed data (3.2.3) -/

/-- The bits of one literal or match. `L` says which length symbols represent a match length
(`LengthSym` or `StrictLengthSym`). `lit` and `dist` are the code lengths of the two alphabets;
`dist = none` means no distance codes at all. -/
inductive CodeBits (L : Nat → Nat → Nat → Prop) (lit : List Nat) (dist : Option (List Nat)) :
    Code → List Bool → Prop
  | literal (b : UInt8) (c : List Bool) : codeOf lit b.toNat = some c →
      CodeBits L lit dist (.literal b) c
  | reference (r : Ref) (i v j w : Nat) (dl : List Nat) (lc dc : List Bool) :
      dist = some dl →
      L r.run i v → codeOf lit (257 + i) = some lc →
      DistSym r.dist.toNat j w → codeOf dl j = some dc →
      CodeBits L lit dist (.reference r)
        (lc ++ lsbBits (lengthExtra.getD i 0) v ++ (dc ++ lsbBits (distExtra.getD j 0) w))

/-- A sequence of codes followed by the end of block symbol. -/
inductive CodesBits (L : Nat → Nat → Nat → Prop) (lit : List Nat) (dist : Option (List Nat)) :
    List Code → List Bool → Prop
  | nil (c : List Bool) : codeOf lit 256 = some c → CodesBits L lit dist [] c
  | cons (c : Code) (cs : List Code) (a b : List Bool) : CodeBits L lit dist c a →
      CodesBits L lit dist cs b → CodesBits L lit dist (c :: cs) (a ++ b)

/-! ## Fixed codes (3.2.6) -/

/-- Code lengths of the fixed literal/length alphabet. -/
def fixedLit : List Nat :=
  List.replicate 144 8 ++ List.replicate 112 9 ++ List.replicate 24 7 ++ List.replicate 8 8

/-- Code lengths of the fixed distance alphabet. -/
def fixedDist : List Nat := List.replicate 32 5

/-- The code the RFC lists for a literal/length symbol. -/
def fixedLitCode (s : Nat) : List Bool :=
  if s ≤ 143 then msbBits 8 (0b00110000 + s)
  else if s ≤ 255 then msbBits 9 (0b110010000 + (s - 144))
  else if s ≤ 279 then msbBits 7 (0b0000000 + (s - 256))
  else msbBits 8 (0b11000000 + (s - 280))

/-! ## Dynamic codes (3.2.7) -/

/-- The order in which code length code lengths are sent. -/
def clOrder : List Nat := [16, 17, 18, 0, 8, 7, 9, 6, 10, 5, 11, 4, 12, 3, 13, 2, 14, 1, 15]

/-- Run-length coded code lengths. The first argument is the previous code length, if any. -/
inductive LensBits (cl : List Nat) : Option Nat → List Nat → List Bool → Prop
  | nil (prev : Option Nat) : LensBits cl prev [] []
  | len (prev : Option Nat) (l : Nat) (ls : List Nat) (c bs : List Bool) :
      l ≤ 15 → codeOf cl l = some c → LensBits cl (some l) ls bs →
      LensBits cl prev (l :: ls) (c ++ bs)
  | copy (p v : Nat) (ls : List Nat) (c bs : List Bool) :
      v < 4 → codeOf cl 16 = some c → LensBits cl (some p) ls bs →
      LensBits cl (some p) (List.replicate (3 + v) p ++ ls) (c ++ lsbBits 2 v ++ bs)
  | zeros (prev : Option Nat) (v : Nat) (ls : List Nat) (c bs : List Bool) :
      v < 8 → codeOf cl 17 = some c → LensBits cl (some 0) ls bs →
      LensBits cl prev (List.replicate (3 + v) 0 ++ ls) (c ++ lsbBits 3 v ++ bs)
  | manyZeros (prev : Option Nat) (v : Nat) (ls : List Nat) (c bs : List Bool) :
      v < 128 → codeOf cl 18 = some c → LensBits cl (some 0) ls bs →
      LensBits cl prev (List.replicate (11 + v) 0 ++ ls) (c ++ lsbBits 7 v ++ bs)

/-- The bits of a dynamic header announcing literal/length code lengths `lit` and distance code
lengths `dist`. -/
inductive HeaderBits (lit dist : List Nat) : List Bool → Prop
  | mk (cl : List Nat) (n : Nat) (body : List Bool) :
      -- HLIT, HDIST, HCLEN in range
      257 ≤ lit.length → lit.length ≤ 288 → 1 ≤ dist.length → dist.length ≤ 32 →
      4 ≤ n → n ≤ 19 →
      -- the code length code: nineteen lengths below eight, forming a complete code,
      -- zero where not sent
      cl.length = 19 → (∀ l ∈ cl, l < 8) → Complete cl →
      (∀ s ∈ clOrder.drop n, cl.getD s 0 = 0) →
      LensBits cl none (lit ++ dist) body →
      HeaderBits lit dist
        (lsbBits 5 (lit.length - 257) ++ lsbBits 5 (dist.length - 1) ++ lsbBits 4 (n - 4) ++
          (clOrder.take n).flatMap (fun s => lsbBits 3 (cl.getD s 0)) ++ body)

/-- The distance alphabet in use for announced distance code lengths: `some none` for a lone zero
(no distance codes), a lone code of length one is completed with the unused symbol 31, otherwise
the lengths must be complete. `none` means the lengths are refused. -/
inductive DistAlphabet : List Nat → Option (List Nat) → Prop
  | unused : DistAlphabet [0] none
  | single (a b : Nat) : a ≤ 30 → a + 1 + b ≤ 32 →
      DistAlphabet (List.replicate a 0 ++ [1] ++ List.replicate b 0)
        (some (List.replicate a 0 ++ [1] ++ List.replicate (30 - a) 0 ++ [1]))
  | complete (ls : List Nat) : 2 ≤ ls.length → Complete ls → DistAlphabet ls (some ls)

/-! ## Blocks and streams (3.2.3, 3.2.4) -/

/-- A 16 bit number as two bytes, least significant first. -/
def le16 (n : Nat) : List UInt8 := [(n % 256).toUInt8, (n / 256).toUInt8]

/-- The bits of a block (after its final-block flag), when `off` bits precede it in the stream.
A dynamic block keeps its header as the bit vector obtained by pushing the header bits. -/
inductive BlockBits (L : Nat → Nat → Nat → Prop) (off : Nat) : Block → List Bool → Prop
  | stored (data : List UInt8) : data.length ≤ 65535 →
      BlockBits L off (.uncompressed data)
        (lsbBits 2 0 ++ List.replicate (padLen (off + 2)) false ++
          bytesBits (le16 data.length ++ le16 (65535 - data.length) ++ data))
  | fixed (codes : List Code) (bs : List Bool) : CodesBits L fixedLit (some fixedDist) codes bs →
      BlockBits L off (.fixedHuffman codes) (lsbBits 2 1 ++ bs)
  | dynamic (lit dist : List Nat) (alpha : Option (List Nat)) (codes : List Code)
      (trees : BitVector) (hdr bs : List Bool) :
      HeaderBits lit dist hdr → Complete lit → DistAlphabet dist alpha →
      pushAll hdr BitVector.new = .ok trees →
      CodesBits L lit alpha codes bs →
      BlockBits L off (.dynamicHuffman trees codes) (lsbBits 2 2 ++ hdr ++ bs)

/-- The bits of a sequence of blocks, when `off` bits precede it in the stream. -/
inductive StreamBits (L : Nat → Nat → Nat → Prop) : Nat → List Block → List Bool → Prop
  | last (off : Nat) (b : Block) (bs : List Bool) : BlockBits L (off + 1) b bs →
      StreamBits L off [b] (true :: bs)
  | cons (off : Nat) (b : Block) (rest : List Block) (bs rs : List Bool) :
      BlockBits L (off + 1) b bs → StreamBits L (off + 1 + bs.length) rest rs →
      StreamBits L off (b :: rest) (false :: bs ++ rs)

/-- A byte string is a DEFLATE stream for the blocks: their bits, zero padded to whole bytes.
Length 258 may be written as 284 with extra bits 31, as decoders accept. -/
def DeflateBytes (blocks : List Block) (bytes : List UInt8) : Prop :=
  ∃ bits, StreamBits LengthSym 0 blocks bits ∧ bytesBits bytes = padded bits

/-- A byte string is a DEFLATE stream for the blocks, following the length table of the RFC. -/
def StrictDeflateBytes (blocks : List Block) (bytes : List UInt8) : Prop :=
  ∃ bits, StreamBits StrictLengthSym 0 blocks bits ∧ bytesBits bytes = padded bits

/-! ## What can be written -/

/-- The code has a bit string under the given code lengths. -/
def CodeOk (lit : List Nat) (dist : Option (List Nat)) (c : Code) : Prop :=
  ∃ bits, CodeBits StrictLengthSym lit dist c bits

/-- The code lengths a block announces. For a dynamic block they are sent by some prefix of its
recorded bits. -/
inductive TreesOf : Block → List Nat → Option (List Nat) → Prop
  | fixed (codes : List Code) : TreesOf (.fixedHuffman codes) fixedLit (some fixedDist)
  | dynamic (lit dist : List Nat) (alpha : Option (List Nat)) (codes : List Code)
      (trees : BitVector) (hdr extra : List Bool) :
      HeaderBits lit dist hdr → Complete lit → DistAlphabet dist alpha →
      pushAll (hdr ++ extra) BitVector.new = .ok trees →
      TreesOf (.dynamicHuffman trees codes) lit alpha

/-- A block that has a representation: a payload that is not too long, or codes that are
expressible in trees which are announced by exactly the recorded bits. -/
inductive Encodable : Block → Prop
  | stored (data : List UInt8) : data.length ≤ 65535 → Encodable (.uncompressed data)
  | fixed (codes : List Code) : (∀ c ∈ codes, CodeOk fixedLit (some fixedDist) c) →
      Encodable (.fixedHuffman codes)
  | dynamic (lit dist : List Nat) (alpha : Option (List Nat)) (codes : List Code)
      (trees : BitVector) (hdr : List Bool) :
      HeaderBits lit dist hdr → Complete lit → DistAlphabet dist alpha →
      pushAll hdr BitVector.new = .ok trees → codeOf lit 256 ≠ none →
      (∀ c ∈ codes, CodeOk lit alpha c) → Encodable (.dynamicHuffman trees codes)

/-- Stored blocks whose length reads the same with its two bytes exchanged (and all others). -/
def SwapSafe : Block → Prop
  | .uncompressed data => data.length / 256 = data.length % 256
  | _ => True

/-- Extra bits of a match length (RFC 1951 table). -/
def runExtraBits (len : Nat) : Nat :=
  if len ≤ 10 ∨ len = 258 then 0
  else if len ≤ 18 then 1
  else if len ≤ 34 then 2
  else if len ≤ 66 then 3
  else if len ≤ 130 then 4
  else 5

/-- Extra bits of the match length of a code; a literal has none. -/
def codeRunExtra : Code → Nat
  | .literal _ => 0
  | .reference r => runExtraBits r.run

end Rezip.Spec
