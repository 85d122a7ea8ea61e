import Verif.Model.CodeTree

/-!
# lib/src/huffman.rs
-/

namespace Rezip

namespace Huffman

/-- huffman.rs:16-28. -/
def fixedLengths : List Nat :=
  List.replicate 144 8 ++ List.replicate 112 9 ++ List.replicate 24 7 ++ List.replicate 8 8

/-- `.expect(..)` on a result. (huffman.rs:30 and 33.) -/
def expect {α : Type} : Except Fail α → Except Fail α
  | .ok a => .ok a
  | .error (.err _) => .error (.panic .unwrap)
  | .error e => .error e

/-- huffman.rs:15-31 `FIXED_LENGTH_TREE`; dereferencing the lazy static panics if building
fails. -/
def fixedLengthTree : Except Fail CodeTree := expect (CodeTree.new fixedLengths)

/-- huffman.rs:32-33 `FIXED_DISTANCE_TREE`. -/
def fixedDistanceTree : Except Fail CodeTree := expect (CodeTree.new (List.replicate 32 5))

/-- huffman.rs:49: position of the `i`-th of the variable code length code lengths. -/
def codeLenPos (i : Nat) : Nat := if i % 2 == 0 then 8 + i / 2 else 7 - i / 2

/-- huffman.rs:48-51: `i` is the loop variable, `n` the number of iterations left. -/
def readCodeLenLens : Nat → Nat → List Nat → BitProg (List Nat)
  | _, 0, lens => .done lens
  | i, n + 1, lens => do
    let v ← BitProg.readPart 3
    let lens ← BitProg.ofExcept (indexSet lens (codeLenPos i) v)
    readCodeLenLens (i + 1) n lens

/-- huffman.rs:61-98: the run length decoding loop. `i`, `runVal`, `runLen` and `codeLens` are the
local variables. The Rust loop is unbounded; two steps per code length are enough. -/
def codeLensLoop (codeLenCode : CodeTree) (codeLensLen : Nat) :
    Nat → Nat → Option Nat → Nat → List Nat → BitProg (List Nat)
  | 0, _, _, _, _ => .fail .diverge
  | fuel + 1, i, runVal, runLen, codeLens => do
    let (i, runVal, runLen, codeLens) ←
      (if runLen > 0 then
        match runVal with
        | some val => do
          let codeLens ← BitProg.ofExcept (indexSet codeLens i val)
          pure (i + 1, runVal, runLen - 1, codeLens)
        | none => BitProg.fail (.err .invalidState)
      else do
        let sym ← codeLenCode.decodeSymbol
        if sym ≤ 15 then
          let codeLens ← BitProg.ofExcept (indexSet codeLens i sym)
          pure (i + 1, some sym, runLen, codeLens)
        else if sym == 16 then
          BitProg.ofExcept (ensure runVal.isSome .noValueToCopy)
          let n ← BitProg.readPart 2
          pure (i, runVal, n + 3, codeLens)
        else if sym == 17 then
          let n ← BitProg.readPart 3
          pure (i, some 0, n + 3, codeLens)
        else if sym == 18 then
          let n ← BitProg.readPart 7
          pure (i, some 0, n + 11, codeLens)
        else
          BitProg.fail (.panic .explicit) : BitProg (Nat × Option Nat × Nat × List Nat))
    if i ≥ codeLensLen then
      BitProg.ofExcept (ensure (runLen == 0) .runExceeds)
      pure codeLens
    else
      codeLensLoop codeLenCode codeLensLen fuel i runVal runLen codeLens

/-- huffman.rs:103-133: build the optional distance tree from its code lengths. -/
def distanceTree (distCodeLen : List Nat) : Except Fail (Option CodeTree) := do
  if distCodeLen.length == 1 && distCodeLen.head? == some 0 then
    pure none
  else
    let oneCount := (distCodeLen.filter (fun x => x == 1)).length
    let otherPositiveCount := (distCodeLen.filter (fun x => x > 1)).length
    if oneCount == 1 && otherPositiveCount == 0 then
      let toCopy := min distCodeLen.length 31
      -- `[0; 32]` with the first `to_copy` entries copied and entry 31 set to 1
      let newLens := distCodeLen.take toCopy ++ List.replicate (31 - toCopy) 0 ++ [1]
      let t ← CodeTree.new newLens
      pure (some t)
    else
      let t ← CodeTree.new distCodeLen
      pure (some t)

/-- huffman.rs:36-136 `read_codes`. -/
def readCodes : BitProg (CodeTree × Option CodeTree) := do
  let hlit ← BitProg.readPart 5
  let numLitLenCodes := hlit + 257
  let hdist ← BitProg.readPart 5
  let numDistanceCodes := hdist + 1
  let hclen ← BitProg.readPart 4
  let numCodeLenCodes := hclen + 4
  let l16 ← BitProg.readPart 3
  let l17 ← BitProg.readPart 3
  let l18 ← BitProg.readPart 3
  let l0 ← BitProg.readPart 3
  let codeLenCodeLen := ((((List.replicate 19 0).set 16 l16).set 17 l17).set 18 l18).set 0 l0
  let codeLenCodeLen ← readCodeLenLens 0 (numCodeLenCodes - 4) codeLenCodeLen
  let codeLenCode ← BitProg.ofExcept (CodeTree.new codeLenCodeLen)
  let codeLensLen := numLitLenCodes + numDistanceCodes
  let codeLens ← codeLensLoop codeLenCode codeLensLen (2 * codeLensLen + 1) 0 none 0
    (List.replicate codeLensLen 0)
  let litLenCode ← BitProg.ofExcept (CodeTree.new (codeLens.take numLitLenCodes))
  let distTree ← BitProg.ofExcept (distanceTree (codeLens.drop numLitLenCodes))
  pure (litLenCode, distTree)

/-- huffman.rs:138-149. -/
def encodeRunLength (length : Nat) : Except Fail Nat :=
  if 3 ≤ length ∧ length ≤ 10 then .ok (257 + length - 3)
  else if 11 ≤ length ∧ length ≤ 18 then .ok (265 + (length - 11) / 2)
  else if 19 ≤ length ∧ length ≤ 34 then .ok (269 + (length - 19) / 4)
  else if 35 ≤ length ∧ length ≤ 66 then .ok (273 + (length - 35) / 8)
  else if 67 ≤ length ∧ length ≤ 130 then .ok (277 + (length - 67) / 16)
  else if 131 ≤ length ∧ length ≤ 257 then .ok (281 + (length - 131) / 32)
  else if length = 258 then .ok 285
  else .error (.panic .explicit)

/-- huffman.rs:155-165. -/
def extraRunLength (length : Nat) : Except Fail (Option (Nat × Nat)) :=
  if (3 ≤ length ∧ length ≤ 10) ∨ length = 258 then .ok none
  else if 11 ≤ length ∧ length ≤ 18 then .ok (some (1, (length - 11) % 2))
  else if 19 ≤ length ∧ length ≤ 34 then .ok (some (2, (length - 19) % 4))
  else if 35 ≤ length ∧ length ≤ 66 then .ok (some (3, (length - 35) % 8))
  else if 67 ≤ length ∧ length ≤ 130 then .ok (some (4, (length - 67) % 16))
  else if 131 ≤ length ∧ length ≤ 257 then .ok (some (5, (length - 131) % 32))
  else .error (.panic .explicit)

/-- huffman.rs:168-192. `as u8` casts are `% 256`. (Takes a `BitReader`, but only uses
`read_part`.) -/
def decodeRunLength (sym : Nat) : BitProg Nat := do
  BitProg.ofExcept (ensure (sym ≥ 257 && sym ≤ 287) .decompressorBug)
  if sym ≤ 264 then
    pure (sym - 254)
  else if sym ≤ 284 then
    let extraBits := ((sym - 261) / 4) % 256
    BitProg.ofExcept (assert (extraBits < 6))
    let highPart := ((((sym - 265) % 256) % 4 + 4) <<< extraBits) % 256
    let low ← BitProg.readPart extraBits
    let lowPart := low % 256
    pure (highPart + lowPart + 3)
  else if sym == 285 then
    pure 258
  else
    BitProg.fail (.err .reservedRunSymbol)

/-- huffman.rs:199-207: the `while base * 2 < distance` loop on `u16`s; `base * 2` overflows
(panics) when `base ≥ 32768`. Fourteen iterations are enough. Returns
`(extra_bits, code, base)`. -/
def encodeDistanceLoop (distance : Nat) : Nat → Nat → Nat → Nat → Except Fail (Nat × Nat × Nat)
  | 0, _, _, _ => .error .diverge
  | fuel + 1, extraBits, code, base =>
    if base * 2 > 65535 then .error (.panic .overflow)
    else if base * 2 < distance then
      encodeDistanceLoop distance fuel (extraBits + 1) (code + 2) (base * 2)
    else .ok (extraBits, code, base)

/-- huffman.rs:195-218; `0u8 - 1` overflows (panics) for distance zero. The result is never
`None`, so the `Option` is dropped. -/
def encodeDistance (distance : Nat) : Except Fail (Nat × Nat × Nat) := do
  if distance ≤ 4 then
    if distance = 0 then .error (.panic .overflow) else .ok (distance - 1, 0, 0)
  else
    let (extraBits, code, base) ← encodeDistanceLoop distance 16 1 4 4
    let half := base / 2
    let delta := distance - base - 1
    if distance ≤ base + half then .ok (code, extraBits, delta % half)
    else .ok (code + 1, extraBits, delta % half)

/-- huffman.rs:220-231. The shifted value and the sum fit in a `u16` (at most 32768). -/
def decodeDistance (sym : Nat) : BitProg Nat :=
  if sym ≤ 3 then
    pure (sym + 1)
  else if sym ≤ 29 then do
    let numExtraBits := (sym / 2 - 1) % 256
    let extra ← BitProg.readPart numExtraBits
    pure (((sym % 2 + 2) <<< numExtraBits) % 65536 + 1 + extra)
  else if sym ≤ 31 then
    .fail (.err .reservedDistSymbol)
  else
    .fail (.err .invalidDistSymbol)

end Huffman

end Rezip
