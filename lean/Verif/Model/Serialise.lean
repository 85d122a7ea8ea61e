import Verif.Model.Parse
import Verif.Model.Circles

/-!
# lib/src/serialise.rs
-/

namespace Rezip

namespace Serialise

/-- One iteration of serialise.rs:42-52. -/
def decompressedCode : Code → EStateM Fail DecState Unit
  | .literal byte => do
    DecState.push byte
    DecState.write [byte]
  | .reference r => DecState.copy r.dist.toNat r.run

/-- serialise.rs:35-55. -/
def decompressedCodes : List Code → EStateM Fail DecState Unit
  | [] => pure ()
  | c :: cs => do
    decompressedCode c
    decompressedCodes cs

/-- serialise.rs:15-33. -/
def decompressedBlock : Block → EStateM Fail DecState Unit
  | .uncompressed data => do
    DecState.extend data
    DecState.write data
  | .fixedHuffman codes => decompressedCodes codes
  | .dynamicHuffman _ codes => decompressedCodes codes

/-- `table[i].as_ref().unwrap()`. (serialise.rs:165, 175-178 and 198.) -/
def lookupUnwrap (table : List (Option BitVector)) (i : Nat) : Except Fail BitVector := do
  match ← index table i with
  | some v => pure v
  | none => .error (.panic .unwrap)

/-- serialise.rs:170-186. -/
def encodeRun (lengthTree : List (Option BitVector)) (run : Nat) :
    EStateM Fail BitWriter Unit := do
  let sym ← liftE (Huffman.encodeRunLength run)
  let v ← liftE (lookupUnwrap lengthTree sym)
  BitWriter.writeVec v
  match ← liftE (Huffman.extraRunLength run) with
  | some (bits, val) => BitWriter.writeBitsVal bits val
  | none => pure ()

/-- serialise.rs:188-206. -/
def encodeDistance (tree : Option (List (Option BitVector))) (dist : Nat) :
    EStateM Fail BitWriter Unit := do
  let (code, bits, val) ← liftE (Huffman.encodeDistance dist)
  match tree with
  | none => liftE (.error (.err .noDistanceTree))
  | some distanceTree =>
    let v ← liftE (lookupUnwrap distanceTree code)
    BitWriter.writeVec v
    if bits > 0 then
      BitWriter.writeBitsVal bits val
    else
      pure ()

/-- One iteration of serialise.rs:148-162. -/
def compressedCode (lengthTree : List (Option BitVector))
    (distanceTree : Option (List (Option BitVector))) : Code → EStateM Fail BitWriter Unit
  | .literal byte => do
    match ← liftE (index lengthTree byte.toNat) with
    | some v => BitWriter.writeVec v
    | none => liftE (.error (.err .invalidLiteral))
  | .reference r => do
    encodeRun lengthTree r.run
    encodeDistance distanceTree r.dist.toNat

/-- serialise.rs:148-162. -/
def compressedCodesLoop (lengthTree : List (Option BitVector))
    (distanceTree : Option (List (Option BitVector))) : List Code → EStateM Fail BitWriter Unit
  | [] => pure ()
  | c :: cs => do
    compressedCode lengthTree distanceTree c
    compressedCodesLoop lengthTree distanceTree cs

/-- `distance_tree.map(|tree| tree.invert())` (serialise.rs:142). -/
def invertOption : Option CodeTree → Except Fail (Option (List (Option BitVector)))
  | none => pure none
  | some t => do
    let inv ← t.invert
    pure (some inv)

/-- serialise.rs:135-168 `compressed_codes`. -/
def compressedCodes (length : CodeTree) (distance : Option CodeTree) (codes : List Code) :
    EStateM Fail BitWriter Unit := do
  let lengthTree ← liftE length.invert
  let distanceTree ← liftE (invertOption distance)
  liftE (assert (lengthTree.length > 256))
  compressedCodesLoop lengthTree distanceTree codes
  let eob ← liftE (lookupUnwrap lengthTree 256)
  BitWriter.writeVec eob

/-- `huffman::read_codes(&mut trees.iter())` (serialise.rs:81). -/
def readCodesOf (trees : BitVector) : Except Fail (CodeTree × Option CodeTree) :=
  match BitProg.runIter Huffman.readCodes trees.iter with
  | .ok r _ => .ok r
  | .error e _ => .error e

/-- serialise.rs:57-85 `compressed_block`. -/
def compressedBlock : Block → EStateM Fail BitWriter Unit
  | .uncompressed data => do
    BitWriter.writeBitsVal 2 0
    BitWriter.writeLengthPrefixed data
  | .fixedHuffman codes => do
    BitWriter.writeBitsVal 2 1
    let length ← liftE Huffman.fixedLengthTree
    let distance ← liftE Huffman.fixedDistanceTree
    compressedCodes length (some distance) codes
  | .dynamicHuffman trees codes => do
    BitWriter.writeBitsVal 2 2
    BitWriter.writeVec trees
    let (length, distance) ← liftE (readCodesOf trees)
    compressedCodes length distance codes

/-- The recompression loop of lib.rs:232-250 (also serialise.rs:228-239): before each block the
"is this the last block" bit, then the block. -/
def recompressLoop : List Block → EStateM Fail BitWriter Unit
  | [] => pure ()
  | b :: bs => do
    BitWriter.writeBit bs.isEmpty
    compressedBlock b
    recompressLoop bs

/-- lib.rs:224-254: recompress a list of blocks into an empty vector (without the gzip header),
align, and take the bytes. -/
def recompress (blocks : List Block) : Except Fail (List UInt8) :=
  match (do recompressLoop blocks; BitWriter.align) (BitWriter.new Sink.vec) with
  | .ok _ w => do
    let s ← w.intoInner
    pure s.out
  | .error e _ => .error e

/-- serialise.rs:93-98: `vec.len() as u8`. -/
def treeToLengths (t : CodeTree) : Except Fail (List (Option Nat)) := do
  let inv ← t.invert
  pure (inv.map fun o => o.map fun v => v.len % 256)

/-- serialise.rs:87-91. -/
structure Lengths where
  length : List (Option Nat)
  distance : List (Option Nat)
  meanLiteralLen : Nat
deriving DecidableEq, Repr

/-- serialise.rs:101-110. -/
def Lengths.new (lengthTree distanceTree : CodeTree) : Except Fail Lengths := do
  let length ← treeToLengths lengthTree
  let allLengths := (length.filterMap id).sum
  let populatedLengths := 1 + (length.filterMap id).length
  let distance ← treeToLengths distanceTree
  pure { length := length, distance := distance,
         meanLiteralLen := ((allLengths + populatedLengths) / populatedLengths) % 256 }

/-- serialise.rs:112-132. The `u8` sum panics on overflow. -/
def Lengths.lengthOf (l : Lengths) : Code → Except Fail (Option Nat)
  | .literal byte => index l.length byte.toNat
  | .reference r => do
    let runSymbol ← Huffman.encodeRunLength r.run
    match ← index l.length runSymbol with
    | none => pure none
    | some runSymbolLen =>
      let (code, bitCount, _) ← Huffman.encodeDistance r.dist.toNat
      match ← index l.distance code with
      | none => pure none
      | some distanceSymbolLen =>
        if runSymbolLen + distanceSymbolLen + bitCount > 255 then .error (.panic .overflow)
        else pure (some (runSymbolLen + distanceSymbolLen + bitCount))

end Serialise

end Rezip
