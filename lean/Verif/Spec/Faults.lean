import Verif.Spec.Deflate

/-!
# Specification: what is wrong with a DEFLATE stream

For every way in which a bit string is not a stream that was merely cut: which error it deserves, and the bits which
show that.
-/

namespace Rezip.Spec

open Rezip

/-- Why code lengths are refused: there are less than two; the codes of some length do not pair up (the Kraft sum is
not a whole number); or the sum is a whole number other than one (zero, or two and more). -/
def treeError (lens : List Nat) : Err :=
  if lens.length < 2 then .tooFewLengths
  else if kraft lens % 2 ^ 15 ≠ 0 then .notATree
  else .nonCanonical

/-- What can be wrong where a literal, a match or the end of the block should be: one of the two length symbols
without a meaning; a match, but there are no distance codes; a match with one of the two distance symbols without a
meaning. -/
inductive CodeFault (lit : List Nat) (dist : Option (List Nat)) : Err → List Bool → Prop
  | length (i : Nat) (c : List Bool) : i = 29 ∨ i = 30 → codeOf lit (257 + i) = some c →
      CodeFault lit dist .reservedRunSymbol c
  | noDistances (len i v : Nat) (c : List Bool) : dist = none → LengthSym len i v → codeOf lit (257 + i) = some c →
      CodeFault lit dist .noDistanceTable (c ++ lsbBits (lengthExtra.getD i 0) v)
  | distance (len i v j : Nat) (dl : List Nat) (c dc : List Bool) : dist = some dl → LengthSym len i v →
      codeOf lit (257 + i) = some c → j = 30 ∨ j = 31 → codeOf dl j = some dc →
      CodeFault lit dist .reservedDistSymbol (c ++ lsbBits (lengthExtra.getD i 0) v ++ dc)

/-- Literals and matches, then a fault. -/
inductive CodesFault (lit : List Nat) (dist : Option (List Nat)) : Err → List Bool → Prop
  | here (e : Err) (a : List Bool) : CodeFault lit dist e a → CodesFault lit dist e a
  | after (c : Code) (e : Err) (a b : List Bool) : CodeBits LengthSym lit dist c a → CodesFault lit dist e b →
      CodesFault lit dist e (a ++ b)

/-- A run of `k` code lengths `v`, as sent by one symbol; the first argument is the previous code length, if any. -/
inductive RunBits (cl : List Nat) : Option Nat → Nat → Nat → List Bool → Prop
  | copy (p v : Nat) (c : List Bool) : v < 4 → codeOf cl 16 = some c → RunBits cl (some p) (3 + v) p (c ++ lsbBits 2 v)
  | zeros (prev : Option Nat) (v : Nat) (c : List Bool) : v < 8 → codeOf cl 17 = some c →
      RunBits cl prev (3 + v) 0 (c ++ lsbBits 3 v)
  | manyZeros (prev : Option Nat) (v : Nat) (c : List Bool) : v < 128 → codeOf cl 18 = some c →
      RunBits cl prev (11 + v) 0 (c ++ lsbBits 7 v)

/-- What can be wrong with `n` run-length coded code lengths: the first symbol asks for copies of the previous length,
or a run goes past the last length. -/
inductive LensFault (cl : List Nat) (n : Nat) : Err → List Bool → Prop
  | noValue (c : List Bool) : codeOf cl 16 = some c → LensFault cl n .noValueToCopy c
  | tooLong (ls : List Nat) (k v : Nat) (a b : List Bool) : LensBits cl none ls a → ls.length < n →
      RunBits cl ls.getLast? k v b → n < ls.length + k → LensFault cl n .runExceeds (a ++ b)

/-- The beginning of a dynamic header: `nl` literal/length code lengths and `nd` distance code lengths are announced,
then `n` lengths of the code length code `cl` are sent. -/
inductive StartBits (nl nd : Nat) (cl : List Nat) : List Bool → Prop
  | mk (n : Nat) : 257 ≤ nl → nl ≤ 288 → 1 ≤ nd → nd ≤ 32 → 4 ≤ n → n ≤ 19 → cl.length = 19 → (∀ l ∈ cl, l < 8) →
      (∀ s ∈ clOrder.drop n, cl.getD s 0 = 0) →
      StartBits nl nd cl (lsbBits 5 (nl - 257) ++ lsbBits 5 (nd - 1) ++ lsbBits 4 (n - 4) ++
        (clOrder.take n).flatMap (fun s => lsbBits 3 (cl.getD s 0)))

/-- What can be wrong with a dynamic header: the code length code, the code lengths sent in it, the literal/length
code, or else the distance code. -/
inductive HeaderFault : Err → List Bool → Prop
  | lengthCode (nl nd : Nat) (cl : List Nat) (a : List Bool) : StartBits nl nd cl a → ¬ Complete cl →
      HeaderFault (treeError cl) a
  | lens (nl nd : Nat) (cl : List Nat) (e : Err) (a b : List Bool) : StartBits nl nd cl a → Complete cl →
      LensFault cl (nl + nd) e b → HeaderFault e (a ++ b)
  | literals (lit dist : List Nat) (hdr : List Bool) : HeaderBits lit dist hdr → ¬ Complete lit →
      HeaderFault (treeError lit) hdr
  | distances (lit dist : List Nat) (hdr : List Bool) : HeaderBits lit dist hdr → Complete lit →
      (∀ alpha, ¬ DistAlphabet dist alpha) → HeaderFault (treeError dist) hdr

/-- What can be wrong with a block (after its final-block flag), when `off` bits precede it in the stream. -/
inductive BlockFault (off : Nat) : Err → List Bool → Prop
  | reserved : BlockFault off .reservedBlock (lsbBits 2 3)
  | padding (k : Nat) : k < padLen (off + 2) →
      BlockFault off .padding (lsbBits 2 0 ++ (List.replicate k false ++ [true]))
  | storedLength (a b c d : UInt8) : a.toNat + 256 * b.toNat + (c.toNat + 256 * d.toNat) ≠ 65535 →
      BlockFault off .storedLength
        (lsbBits 2 0 ++ (List.replicate (padLen (off + 2)) false ++ bytesBits [a, b, c, d]))
  | fixed (e : Err) (bs : List Bool) : CodesFault fixedLit (some fixedDist) e bs → BlockFault off e (lsbBits 2 1 ++ bs)
  | header (e : Err) (bs : List Bool) : HeaderFault e bs → BlockFault off e (lsbBits 2 2 ++ bs)
  | dynamic (lit dist : List Nat) (alpha : Option (List Nat)) (e : Err) (hdr bs : List Bool) :
      HeaderBits lit dist hdr → Complete lit → DistAlphabet dist alpha → CodesFault lit alpha e bs →
      BlockFault off e (lsbBits 2 2 ++ (hdr ++ bs))

/-- What can be wrong with a stream, after some blocks and when `off` bits precede it: the next block, or the padding
after the last block. -/
inductive StreamFault : Nat → List Block → Err → List Bool → Prop
  | block (off : Nat) (f : Bool) (e : Err) (bs : List Bool) : BlockFault (off + 1) e bs →
      StreamFault off [] e (f :: bs)
  | padding (off k : Nat) (b : Block) (bs : List Bool) : BlockBits LengthSym (off + 1) b bs →
      k < padLen (off + 1 + bs.length) →
      StreamFault off [b] .padding (true :: (bs ++ (List.replicate k false ++ [true])))
  | after (off : Nat) (b : Block) (blocks : List Block) (e : Err) (bs rs : List Bool) :
      BlockBits LengthSym (off + 1) b bs → StreamFault (off + 1 + bs.length) blocks e rs →
      StreamFault off (b :: blocks) e (false :: (bs ++ rs))

end Rezip.Spec
