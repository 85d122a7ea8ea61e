import Verif.Model.Serialise

/-!
# serialise.rs in a release build

Without overflow checks, arithmetic wraps. In `compressed_block` this matters in `huffman::encode_distance` only:
the other operations stay in range (`write_bits_val`, which is here too, is called with at most 13 bits). The functions that lead
there are given again, with the loop limited to `fuel` iterations; `diverge` means that it is still going on then.
-/

namespace Rezip.Release

/-- huffman.rs:199-207 with `u8` and `u16` arithmetic that wraps. -/
def encodeDistanceLoop (distance : Nat) : Nat → Nat → Nat → Nat → Except Fail (Nat × Nat × Nat)
  | 0, _, _, _ => .error .diverge
  | fuel + 1, extraBits, code, base =>
    if base * 2 % 65536 < distance then
      encodeDistanceLoop distance fuel ((extraBits + 1) % 256) ((code + 2) % 256) (base * 2 % 65536)
    else .ok (extraBits, code, base)

/-- huffman.rs:195-218 `encode_distance`. `% half` panics for zero. -/
def distanceSymbol (fuel distance : Nat) : Except Fail (Nat × Nat × Nat) := do
  if distance ≤ 4 then
    .ok ((distance + 255) % 256, 0, 0)
  else
    let (extraBits, code, base) ← encodeDistanceLoop distance fuel 1 4 4
    let half := base / 2
    let delta := (distance + 65536 - base + 65535) % 65536
    if half = 0 then .error (.panic .overflow)
    else if distance ≤ (base + half) % 65536 then .ok (code, extraBits, delta % half)
    else .ok ((code + 1) % 256, extraBits, delta % half)

/-- serialise.rs:188-206. -/
def encodeDistance (fuel : Nat) (tree : Option (List (Option BitVector))) (dist : Nat) :
    EStateM Fail BitWriter Unit := do
  let (code, bits, val) ← liftE (distanceSymbol fuel dist)
  match tree with
  | none => liftE (.error (.err .noDistanceTree))
  | some distanceTree =>
    let v ← liftE (Serialise.lookupUnwrap distanceTree code)
    BitWriter.writeVec v
    if bits > 0 then
      BitWriter.writeBitsVal bits val
    else
      pure ()

/-- One iteration of serialise.rs:148-162. -/
def compressedCode (fuel : Nat) (lengthTree : List (Option BitVector))
    (distanceTree : Option (List (Option BitVector))) : Code → EStateM Fail BitWriter Unit
  | .literal byte => do
    match ← liftE (index lengthTree byte.toNat) with
    | some v => BitWriter.writeVec v
    | none => liftE (.error (.err .invalidLiteral))
  | .reference r => do
    Serialise.encodeRun lengthTree r.run
    encodeDistance fuel distanceTree r.dist.toNat

/-- serialise.rs:148-162. -/
def compressedCodesLoop (fuel : Nat) (lengthTree : List (Option BitVector))
    (distanceTree : Option (List (Option BitVector))) : List Code → EStateM Fail BitWriter Unit
  | [] => pure ()
  | c :: cs => do
    compressedCode fuel lengthTree distanceTree c
    compressedCodesLoop fuel lengthTree distanceTree cs

/-- serialise.rs:135-168 `compressed_codes`. -/
def compressedCodes (fuel : Nat) (length : CodeTree) (distance : Option CodeTree) (codes : List Code) :
    EStateM Fail BitWriter Unit := do
  let lengthTree ← liftE length.invert
  let distanceTree ← liftE (Serialise.invertOption distance)
  liftE (assert (lengthTree.length > 256))
  compressedCodesLoop fuel lengthTree distanceTree codes
  let eob ← liftE (Serialise.lookupUnwrap lengthTree 256)
  BitWriter.writeVec eob

/-- serialise.rs:57-85 `compressed_block`. -/
def compressedBlock (fuel : Nat) : Block → EStateM Fail BitWriter Unit
  | .uncompressed data => do
    BitWriter.writeBitsVal 2 0
    BitWriter.writeLengthPrefixed data
  | .fixedHuffman codes => do
    BitWriter.writeBitsVal 2 1
    let length ← liftE Huffman.fixedLengthTree
    let distance ← liftE Huffman.fixedDistanceTree
    compressedCodes fuel length (some distance) codes
  | .dynamicHuffman trees codes => do
    BitWriter.writeBitsVal 2 2
    BitWriter.writeVec trees
    let (length, distance) ← liftE (Serialise.readCodesOf trees)
    compressedCodes fuel length distance codes

/-- The loop of bit.rs:131-133: `1 << i` on a `u16` takes `i` modulo 16. -/
def writeBitsValLoop (val : Nat) : Nat → Nat → EStateM Fail BitWriter Unit
  | _, 0 => pure ()
  | i, n + 1 => do
    BitWriter.writeBit ((val &&& (1 <<< (i % 16))) != 0)
    writeBitsValLoop val (i + 1) n

/-- bit.rs:130-135. -/
def writeBitsVal (bits val : Nat) : EStateM Fail BitWriter Unit := writeBitsValLoop val 0 bits

end Rezip.Release
