import Verif.Model.Gzip
import Verif.Model.Parse

/-!
# The `Debug` output of codes and traces (lib.rs, bit.rs), and rezippers/src/dump.rs

Text is a list of characters. `{:?}` of a `char` is a parameter `dbg`, given by the byte the character is
made from.
-/

namespace Rezip

namespace Render

/-- `{}` of an unsigned integer. (lib.rs:148 and 165, bit.rs:329, dump.rs:14.) -/
def decimal (n : Nat) : List Char := Nat.toDigits 10 n

/-- `{:02x}` of a byte. (lib.rs:147, dump.rs:40, code_tree.rs:111.) -/
def hex2 (b : UInt8) : List Char := [Nat.digitChar (b.toNat / 16), Nat.digitChar (b.toNat % 16)]

/-- lib.rs:163-167 `impl Debug for Ref`. -/
def ref (r : Ref) : List Char :=
  "R[".toList ++ decimal r.dist.toNat ++ ", ".toList ++ decimal r.run ++ "]".toList

/-- lib.rs:144-151 `impl Debug for Code`. -/
def code (dbg : UInt8 → List Char) : Code → List Char
  | .literal byte => "L(0x".toList ++ hex2 byte ++ " ".toList ++ dbg byte ++ ")".toList
  | .reference r => "R(-".toList ++ decimal r.dist.toNat ++ ", ".toList ++ decimal r.run ++ ")".toList

/-- lib.rs:153-161 `impl Debug for Trace`. -/
def trace : Trace → List Char
  | .correct => "✓".toList
  | .actuallyLiteral => "L".toList
  | .actually r => ref r

/-- `{:?}` of a slice, given that of an element: the elements after the first. (back_map.rs:95,
serialise_trace.rs:21.) -/
def listTail {α : Type} (f : α → List Char) : List α → List Char
  | [] => "]".toList
  | x :: xs => ", ".toList ++ f x ++ listTail f xs

/-- `{:?}` of a slice (`debug_list`, not pretty printed). (back_map.rs:95, serialise_trace.rs:21.) -/
def list {α : Type} (f : α → List Char) : List α → List Char
  | [] => "[]".toList
  | x :: xs => "[".toList ++ f x ++ listTail f xs

/-- bit.rs:327-335 `impl Debug for BitVec`. -/
def bitVec (v : BitVector) : Except Fail (List Char) := do
  let bits ← v.toBits
  pure ("BitVec: ".toList ++ decimal v.len ++ ": ".toList ++ bits.map fun b => if b then '1' else '0')

end Render

namespace Dump

open Render

/-- dump.rs:33-51: one line of `print`, without the line end. -/
def codeLine (dbg : UInt8 → List Char) : Code → List Char
  | .literal chr => "    - lit: 0x".toList ++ hex2 chr ++ ": ".toList ++ dbg chr
  | .reference r => "    - backref: ".toList ++ decimal r.dist.toNat ++ " byte(s) back, ".toList ++
      decimal r.run ++ " bytes long".toList

/-- dump.rs:14-27: the lines of one block. -/
def blockLines (dbg : UInt8 → List Char) (id : Nat) (b : Block) : Except Fail (List (List Char)) :=
  let head := "block ".toList ++ decimal id ++ ":".toList
  match b with
  | .uncompressed data =>
    pure [head, " - uncompressed: ".toList ++ decimal data.length ++ " bytes".toList]
  | .fixedHuffman codes => pure (head :: " - fixed huffman:".toList :: codes.map (codeLine dbg))
  | .dynamicHuffman trees codes => do
    let t ← bitVec trees
    pure (head :: (" - dynamic huffman: ".toList ++ t) :: codes.map (codeLine dbg))

/-- `println!` of each line. (dump.rs:14-49.) -/
def print (lines : List (List Char)) : List Char := lines.flatMap fun l => l ++ ['\n']

/-- dump.rs:11-28: the outcome and what was printed from block `id` on. -/
def loop (dbg : UInt8 → List Char) : Nat → Parse.BlockIter → Nat → Except Fail Unit × List Char
  | 0, _, _ => (.error .diverge, [])
  | fuel + 1, it, id =>
    match it.next with
    | (none, _) => (.ok (), [])
    | (some (.error e), _) => (.error e, [])
    | (some (.ok b), it) =>
      match blockLines dbg id b with
      | .error e => (.error e, [])
      | .ok lines =>
        let (r, out) := loop dbg fuel it (id + 1)
        (r, print lines ++ out)

/-- dump.rs:9-31 `run`: the outcome and the standard output.
Simplification: writing to standard output does not fail; see `Dump.runTo` for one that may. -/
def run (dbg : UInt8 → List Char) (input : List UInt8) : Except Fail Unit × List Char :=
  match Gzip.discardHeader input with
  | .error e _ => (.error e, [])
  | .ok _ rest => loop dbg (8 * rest.length + 2) (Parse.parseDeflate rest) 0

end Dump

end Rezip
