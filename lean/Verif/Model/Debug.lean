import Verif.Model.AllRefs
import Verif.Model.CodeTree
import Verif.Model.Dump

/-!
# The remaining `Debug` output: code trees, the index of back_map.rs, keys; and `BitVec::pretty_print`

Text is a list of characters, as in `Model/Dump.lean`. Writing to a `Formatter` does not fail.
-/

namespace Rezip

namespace Render

/-- `{:x}` of an unsigned integer. (Inside `{:?}` of a `char`, lib.rs:147.) -/
def hexDigits (n : Nat) : List Char := Nat.toDigits 16 n

/-- `core::char::escape_debug` of `b as char`, single quotes escaped, double quotes not. Of the characters up to
U+00FF, those of the categories Cc, Cf and Zs other than the space are not printable. (lib.rs:147,
code_tree.rs:111, all_refs.rs:178, dump.rs:40.) -/
def escapeDebug (b : UInt8) : List Char :=
  if b = 0 then ['\\', '0']
  else if b = 9 then ['\\', 't']
  else if b = 10 then ['\\', 'n']
  else if b = 13 then ['\\', 'r']
  else if b = 39 then ['\\', '\'']
  else if b = 92 then ['\\', '\\']
  else if b < 0x20 || (0x7f ≤ b && b ≤ 0xa0) || b = 0xad then
    '\\' :: 'u' :: '{' :: (hexDigits b.toNat ++ ['}'])
  else [Char.ofNat b.toNat]

/-- `{:?}` of `b as char`. (lib.rs:147, code_tree.rs:111, all_refs.rs:178, dump.rs:40.) -/
def charDebug (b : UInt8) : List Char := '\'' :: (escapeDebug b ++ ['\''])

/-- `{:04x}` of a value below 65536. (back_map.rs:95.) -/
def hex4 (n : Nat) : List Char :=
  [Nat.digitChar (n / 4096), Nat.digitChar (n / 256 % 16), Nat.digitChar (n / 16 % 16), Nat.digitChar (n % 16)]

end Render

namespace CodeTree

open Render

/-- code_tree.rs:110-114: the symbol. -/
def symbolText (sym : Nat) : List Char :=
  if sym ≤ 255 then "0x".toList ++ hex2 sym.toUInt8 ++ " ".toList ++ charDebug sym.toUInt8
  else if sym = 256 then "EoS".toList
  else "d:".toList ++ decimal (sym - 256)

/-- code_tree.rs:106-121 `fmt`. -/
def nodeText (pre : List Char) : Node → List Char
  | .leaf sym => pre ++ " => ".toList ++ symbolText sym ++ "\n".toList
  | .internal left right => nodeText (pre ++ ['0']) left ++ nodeText (pre ++ ['1']) right

/-- code_tree.rs:99-104 `impl Debug for CodeTree`. -/
def debug (t : CodeTree) : List Char := nodeText ['0'] t.left ++ nodeText ['1'] t.right

end CodeTree

namespace BackMap

open Render

/-- back_map.rs:83-93: what is pushed to `vals` from `current` on. Each step goes to a smaller position. -/
def debugVals (posToPos : List Nat) : Nat → Nat → Except Fail (List Nat)
  | 0, _ => .error .diverge
  | fuel + 1, current => do
    let next ← index posToPos current
    if 0 = next then pure [current]
    else do
      let rest ← debugVals posToPos fuel next
      pure (current :: rest)

/-- back_map.rs:77-96: the loop over these hashes. -/
def debugLoop (t : BackMap) : List Nat → Except Fail (List Char)
  | [] => pure []
  | hash :: hashes => do
    if 0 ≠ t.hashToPos hash then
      let vals ← debugVals t.posToPos (t.posToPos.length + 1) (t.hashToPos hash)
      let rest ← debugLoop t hashes
      pure (" - ".toList ++ hex4 hash ++ ": ".toList ++ list decimal vals.reverse ++ "\n".toList ++ rest)
    else debugLoop t hashes

/-- back_map.rs:75-98 `impl Debug for BackMap`; `hash_to_pos` has 32768 entries. -/
def debug (t : BackMap) : Except Fail (List Char) := debugLoop t (List.range 32768)

end BackMap

/-- all_refs.rs:185-189 `impl Debug for AllRefs`. -/
def AllRefs.debug (a : AllRefs) : Except Fail (List Char) := do
  let text ← a.map.debug
  pure (text ++ "\n".toList)

namespace Key

/-- all_refs.rs:163-165 `normal_char`: all of these are in `'!'..='~'`, which is `is_ascii_graphic`. -/
def normalChar (c : UInt8) : Bool := 0x21 ≤ c && c ≤ 0x7e

/-- all_refs.rs:167-183 `impl Debug for Key`. -/
def debug (k : Key) : List Char :=
  if normalChar k.b0 && normalChar k.b1 && normalChar k.b2 then
    ['"', Char.ofNat k.b0.toNat, Char.ofNat k.b1.toNat, Char.ofNat k.b2.toNat, '"']
  else Render.charDebug k.b0 ++ Render.charDebug k.b1 ++ Render.charDebug k.b2

end Key

namespace BitVector

/-- bit.rs:284-295: the inner loop, with what is in `line`; `n` is how many characters are still missing. -/
def prettyLine : Nat → List Char → EStateM Fail StackIterator (List Char)
  | 0, line => pure line
  | n + 1, line => do
    match ← StackIterator.next with
    | some bit => prettyLine n (line ++ [if bit then '1' else '0'])
    | none => pure line

/-- bit.rs:283-301: the outer loop. Every line but the last has a bit. -/
def prettyLoop : Nat → EStateM Fail StackIterator (List (List Char))
  | 0 => fun it => .error .diverge it
  | fuel + 1 => do
    let line ← prettyLine 8 []
    if line.isEmpty then pure []
    else do
      let rest ← prettyLoop fuel
      pure (line :: rest)

/-- bit.rs:281-302 `pretty_print`: the lines printed. -/
def prettyPrint (v : BitVector) : Except Fail (List (List Char)) :=
  match prettyLoop (v.len + 1) v.iter with
  | .ok lines _ => .ok lines
  | .error e _ => .error e

end BitVector

end Rezip
