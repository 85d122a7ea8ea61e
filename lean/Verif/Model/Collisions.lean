import Verif.Model.AllRefs
import Verif.Model.Dump

/-!
# examples/collisions.rs: the table of visible triples with the same hash

A `HashSet` is a list without duplicates, a `HashMap` a list of entries with different keys. The order in which
they are iterated is not specified: it is a parameter. What is printed does not fail.
-/

namespace Rezip.Collisions

/-- collisions.rs:18: `(u8, u8, u8)`. -/
abbrev Triple := UInt8 × UInt8 × UInt8

/-- `HashMap<u16, HashSet<(u8, u8, u8)>>`. (collisions.rs:10 and 17.) -/
abbrev Map := List (Nat × List Triple)

/-- `b' '..=b'~'`. (collisions.rs:12-14.) -/
def visible : List UInt8 := (List.range 95).map fun i => (32 + i).toUInt8

/-- `HashSet::insert`. (collisions.rs:18.) -/
def insertSet (t : Triple) (set : List Triple) : List Triple := if t ∈ set then set else set ++ [t]

/-- collisions.rs:16-18: `map.entry(hash).or_insert_with(HashSet::new).insert(t)`. -/
def insert (hash : Nat) (t : Triple) : Map → Map
  | [] => [(hash, insertSet t [])]
  | (key, set) :: map => if key = hash then (key, insertSet t set) :: map else (key, set) :: insert hash t map

/-- collisions.rs:10-22. -/
def build : Map :=
  visible.foldl (fun map a =>
    visible.foldl (fun map b =>
      visible.foldl (fun map c => insert (Key.mk a b c).hash16 (a, b, c) map) map) map) []

/-- collisions.rs:30: `format!("{}{}{}", a as char, b as char, c as char)`. -/
def text (t : Triple) : List Char := [Char.ofNat t.1.toNat, Char.ofNat t.2.1.toNat, Char.ofNat t.2.2.toNat]

/-- `Ord` of strings: the order of UTF-8 bytes is that of characters. (collisions.rs:34.) -/
def textLe : List Char → List Char → Bool
  | [], _ => true
  | _ :: _, [] => false
  | a :: as, b :: bs => decide (a.toNat < b.toNat) || (a.toNat == b.toNat && textLe as bs)

/-- collisions.rs:32-34: the test for two parts that differ in the first byte only. The text is ASCII, so that
`[1..]` is a slice at a character boundary. -/
def onlyFirst : List (List Char) → Bool
  | [p, q] => p.drop 1 == q.drop 1
  | _ => false

/-- `parts.sort()`, by insertion: equal strings cannot be told apart, so the algorithm does not matter.
(collisions.rs:34.) -/
def place (p : List Char) : List (List Char) → List (List Char)
  | [] => [p]
  | q :: qs => if textLe p q then p :: q :: qs else q :: place p qs

/-- `parts.sort()`. (collisions.rs:34.) -/
def sort (parts : List (List Char)) : List (List Char) := parts.foldr place []

/-- `parts.join(", ")`. (collisions.rs:35.) -/
def join : List (List Char) → List Char
  | [] => []
  | [p] => p
  | p :: q :: ps => p ++ ", ".toList ++ join (q :: ps)

/-- collisions.rs:25-36: the line for a set, if there is one. `iter` is `into_iter`. -/
def line (iter : List Triple → List Triple) (set : List Triple) : Option (List Char) :=
  if 1 = set.length then none
  else
    let parts := (iter set).map text
    if onlyFirst parts then none
    else some (Render.decimal parts.length ++ " ".toList ++ join (sort parts))

/-- collisions.rs:9-37 `main`: the lines. -/
def run (iterMap : Map → Map) (iterSet : List Triple → List Triple) : List (List Char) :=
  (iterMap build).filterMap fun entry => line iterSet entry.2

end Rezip.Collisions
