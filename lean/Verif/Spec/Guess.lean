import Verif.Model.Base

/-!
# What a gzip-like guesser should say

A reference description of the guesser of technique.rs, all_refs.rs and picker.rs, written on the whole
window `w` (the preroll followed by the data) without any index structure.
-/

namespace Rezip.Spec

/-- gzip's `UPDATE_HASH` (deflate.c) over three bytes, with `HASH_BITS` 15 and `H_SHIFT` 5. -/
def gzipHash (a b c : UInt8) : Nat :=
  ((a.toNat * 1024) ^^^ (b.toNat * 32) ^^^ c.toNat) % 32768

/-- The three bytes at `j`. -/
def three (w : List UInt8) (j : Nat) : Option (UInt8 × UInt8 × UInt8) :=
  match w.drop j with
  | a :: b :: c :: _ => some (a, b, c)
  | _ => none

/-- Do three bytes start at `i` and at `j`, with the same hash? -/
def sameHash (w : List UInt8) (i j : Nat) : Bool :=
  match three w i, three w j with
  | some (a, b, c), some (x, y, z) => gzipHash a b c == gzipHash x y z
  | _, _ => false

/-- Is `j` strictly inside one of the runs (given as start and length)? -/
def hidden (runs : List (Nat × Nat)) (j : Nat) : Bool := runs.any fun p => p.1 < j && j < p.1 + p.2

/-- How many leading bytes are equal? -/
def commonPrefix : List UInt8 → List UInt8 → Nat
  | x :: xs, y :: ys => if x = y then commonPrefix xs ys + 1 else 0
  | _, _ => 0

/-- The positions looked at from `pos`: earlier ones other than 0 with the same hash and not hidden,
nearest first, at most `limit` of them. -/
def searched (w : List UInt8) (limit pos : Nat) (runs : List (Nat × Nat)) : List Nat :=
  ((List.range pos).reverse.filter fun j => 0 < j && sameHash w j pos && !hidden runs j).take limit

/-- The candidates, as distance and length: of the positions looked at, those at most 32768 back with
the same three bytes; the length is that of the common prefix, at most 258. -/
def candidates (w : List UInt8) (limit pos : Nat) (runs : List (Nat × Nat)) : List (Nat × Nat) :=
  ((searched w limit pos runs).filter fun j => pos - j ≤ 32768 && three w j == three w pos).map
    fun j => (pos - j, min 258 (commonPrefix (w.drop pos) (w.drop j)))

/-- The first candidate at least `cap` long, or else the first of the longest. -/
def choose (cap : Nat) (cs : List (Nat × Nat)) : Option (Nat × Nat) :=
  match cs.find? fun c => cap ≤ c.2 with
  | some c => some c
  | none => cs.find? fun c => cs.all fun d => d.2 ≤ c.2

/-- gzip's `configuration_table` (deflate.c) for levels 1 to 9: `good_length`, `max_lazy`,
`nice_length`, `max_chain`. -/
def gzipTable : List (Nat × Nat × Nat × Nat) :=
  [ (4, 4, 8, 4), (4, 5, 16, 8), (4, 6, 32, 32),
    (4, 4, 16, 16), (8, 16, 32, 32), (8, 16, 128, 128),
    (8, 32, 128, 256), (32, 128, 258, 1024), (32, 258, 258, 4096) ]

/-- What matters of a level: a match of length `nice` ends the search, at most `chain` candidates are
compared, far matches of length three are dropped if `dropFar`, and positions inside matches longer than
`insert` are not searched later. -/
structure Settings where
  nice : Nat
  chain : Nat
  dropFar : Bool
  insert : Option Nat
deriving DecidableEq

/-- The settings of a gzip level: levels 1 to 3 are "fast" (`max_lazy` is `max_insert` there), the others
drop far matches of length three (`TOO_FAR`). -/
def gzipSettings (level : Nat) : Option Settings :=
  if level = 0 then none
  else gzipTable[level - 1]?.map fun (_, lazy_, nice, chain) =>
    { nice := nice, chain := chain, dropFar := decide (4 ≤ level),
      insert := if level < 4 then some lazy_ else none }

/-- The match (distance and length) to use at `pos`, if any, when `search` positions are looked at. -/
def guess (st : Settings) (search : Nat) (w : List UInt8) (pos : Nat) (runs : List (Nat × Nat)) :
    Option (Nat × Nat) :=
  (choose st.nice ((candidates w search pos runs).take st.chain)).filter fun c =>
    !st.dropFar || decide (3 < c.2) || decide (c.1 ≤ 4096)

/-- Is the code what the guess says: the match, or the byte at `pos` if there is none? -/
def says (w : List UInt8) (pos : Nat) (g : Option (Nat × Nat)) : Code → Bool
  | .literal b => g.isNone && w[pos]? == some b
  | .reference r => g == some (r.dist.toNat, r.run)

/-- The trace of codes standing at `pos`: one entry per code, `Correct` if the code is as guessed and
otherwise the code. -/
def refTrace (st : Settings) (search : Nat) (w : List UInt8) :
    Nat → List (Nat × Nat) → List Code → List Trace
  | _, _, [] => []
  | pos, runs, .literal b :: cs =>
    (if says w pos (guess st search w pos runs) (.literal b) then .correct else .actuallyLiteral) ::
      refTrace st search w (pos + 1) runs cs
  | pos, runs, .reference r :: cs =>
    (if says w pos (guess st search w pos runs) (.reference r) then .correct else .actually r) ::
      refTrace st search w (pos + r.run)
        (if st.insert.any (fun l => decide (l < r.run)) then runs ++ [(pos, r.run)] else runs) cs

end Rezip.Spec
