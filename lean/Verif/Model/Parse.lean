import Verif.Model.Huffman

/-!
# lib/src/parse.rs (and `Block` from lib/src/lib.rs)
-/

namespace Rezip

/-- lib.rs:51-56 `Block`. -/
inductive Block
  | uncompressed (data : List UInt8)
  | fixedHuffman (codes : List Code)
  | dynamicHuffman (trees : BitVector) (codes : List Code)
deriving DecidableEq, Repr

namespace Parse

/-- One iteration of the loop parse.rs:81-110: `none` for the end of block symbol.
It only uses `read_bit`/`read_part` of the reader. -/
def scanCode (length : CodeTree) (distance : Option CodeTree) : BitProg (Option Code) := do
  let sym ← length.decodeSymbol
  if sym == 256 then
    pure none
  else if sym < 256 then
    pure (some (.literal sym.toUInt8))
  else
    let run ← Huffman.decodeRunLength sym
    let distSym ←
      match distance with
      | some distCode => distCode.decodeSymbol
      | none => BitProg.fail (.err .noDistanceTable)
    let dist ← Huffman.decodeDistance distSym
    BitProg.ofExcept (ensure (dist ≥ 1 && dist ≤ 32786) .invalidDistance)
    let r ← BitProg.ofExcept (Ref.new dist run)
    pure (some (.reference r))

/-- parse.rs:79-112: the loop, with fuel (one step per code). `ret` accumulates. -/
def scanLoop (length : CodeTree) (distance : Option CodeTree) : Nat → List Code →
    BitProg (List Code)
  | 0, _ => .fail .diverge
  | fuel + 1, ret => do
    match ← scanCode length distance with
    | none => pure ret
    | some c => scanLoop length distance fuel (ret ++ [c])

/-- Number of bits a reader can still deliver: each code consumes at least one, so this bounds
the number of iterations of `scan_huffman_data`. (The loop is parse.rs:81-110.) -/
def bitsLeft (r : BitReader) : Nat := 8 * r.inner.length + r.remainingBits

/-- parse.rs:74-113 `scan_huffman_data`. -/
def scanHuffmanData (length : CodeTree) (distance : Option CodeTree) :
    EStateM Fail BitReader (List Code) := fun r =>
  BitReader.run (scanLoop length distance (bitsLeft r + 1) []) r

/-- parse.rs:47-72 `read_block`. -/
def readBlock : EStateM Fail BitReader Block := do
  let kind ← BitReader.readPart 2
  match kind with
  | 0 =>
    BitReader.align
    let data ← BitReader.readLengthPrefixed
    pure (.uncompressed data)
  | 1 =>
    let length ← liftE Huffman.fixedLengthTree
    let distance ← liftE Huffman.fixedDistanceTree
    let codes ← scanHuffmanData length (some distance)
    pure (.fixedHuffman codes)
  | 2 =>
    let ((length, distance), trees) ← BitReader.run (Huffman.readCodes.collect BitVector.new)
    let codes ← scanHuffmanData length distance
    pure (.dynamicHuffman trees codes)
  | 3 => liftE (.error (.err .reservedBlock))
  | _ => liftE (.error (.panic .explicit))

/-- parse.rs:22-25 `BlockIter`. -/
structure BlockIter where
  inner : BitReader
  ended : Bool
deriving DecidableEq, Repr

/-- parse.rs:15-20 `parse_deflate`. -/
def parseDeflate (bytes : List UInt8) : BlockIter :=
  { inner := BitReader.new bytes, ended := false }

/-- parse.rs:27-45 `BlockIter::next`: the item (if any) and the iterator afterwards.
A panic is represented as an error item carrying `Fail.panic`. -/
def BlockIter.next (it : BlockIter) : Option (Except Fail Block) × BlockIter :=
  if it.ended then
    match BitReader.align it.inner with
    | .ok _ r => (none, { it with inner := r })
    | .error e r => (some (.error e), { it with inner := r })
  else
    match BitReader.readBit it.inner with
    | .error e r => (some (.error e), { it with inner := r })
    | .ok ended r =>
      match readBlock r with
      | .ok b r => (some (.ok b), { inner := r, ended := ended })
      | .error e r => (some (.error e), { inner := r, ended := ended })

/-- `for block in parse_deflate(..) { let block = block?; .. }`: the blocks before the first error
or the end, whether the end was reached (`.ok ()`), and the iterator. Fuel: each block takes at
least one bit. (dump.rs:11-12, cat.rs:16-17.) -/
def collectLoop : Nat → BlockIter → List Block → Except Fail Unit × List Block × BlockIter
  | 0, it, acc => (.error .diverge, acc, it)
  | fuel + 1, it, acc =>
    match it.next with
    | (none, it) => (.ok (), acc, it)
    | (some (.error e), it) => (.error e, acc, it)
    | (some (.ok b), it) => collectLoop fuel it (acc ++ [b])

/-- Drive the iterator over a byte string until its first error or its end. (dump.rs:11-12, cat.rs:16-17.) -/
def collect (bytes : List UInt8) : Except Fail Unit × List Block × BlockIter :=
  collectLoop (8 * bytes.length + 2) (parseDeflate bytes) []

/-- All blocks and the unread bytes, if the whole stream parses. (As serialise.rs:226-240 uses it.) -/
def parseAll (bytes : List UInt8) : Except Fail (List Block × List UInt8) :=
  match collect bytes with
  | (.ok (), blocks, it) => .ok (blocks, it.inner.inner)
  | (.error e, _, _) => .error e

end Parse

end Rezip
