import Verif.Model.Wams

/-!
# lib/src/back_map.rs and lib/src/all_refs.rs
-/

namespace Rezip

/-- all_refs.rs:11-15. -/
structure Key where
  b0 : UInt8
  b1 : UInt8
  b2 : UInt8
deriving DecidableEq, Repr

/-- all_refs.rs:145-156 `sixteen_hash_16`: all operations are on `u16` (shifts drop high bits). -/
def Key.hash16 (k : Key) : Nat :=
  let hash : UInt16 := 0
  let hash := hash ^^^ k.b0.toUInt16
  let hash := hash <<< 5
  let hash := hash ^^^ k.b1.toUInt16
  let hash := hash <<< 5
  let hash := hash ^^^ k.b2.toUInt16
  let hash := hash &&& 0x7fff
  hash.toNat

/-- back_map.rs:10-16. `hash_to_pos` is an array of 32768 entries initialised to zero, indexed by a
hash (always below 32768, see `Key.hash16_lt`); it is modelled as a total function. -/
structure BackMap where
  hashToPos : Nat → Nat
  posToPos : List Nat

namespace BackMap

/-- `.tuple_windows::<(u8, u8, u8)>()` (back_map.rs:29) as keys. -/
def windows : List UInt8 → List Key
  | a :: b :: c :: rest => { b0 := a, b1 := b, b2 := c } :: windows (b :: c :: rest)
  | _ => []

/-- Loop body back_map.rs:32-36. -/
def insert (table : BackMap) (pos : Nat) (key : Key) : Except Fail BackMap := do
  let hash := key.hash16
  let prevPos := table.hashToPos hash
  let posToPos ← indexSet table.posToPos pos prevPos
  pure { hashToPos := fun h => if h = hash then pos else table.hashToPos h, posToPos := posToPos }

/-- back_map.rs:25-37: the loop, from position `pos`. -/
def insertAll (table : BackMap) : Nat → List Key → Except Fail BackMap
  | _, [] => pure table
  | pos, k :: ks => do
    let table ← table.insert pos k
    table.insertAll (pos + 1) ks

/-- back_map.rs:19-40. -/
def fromWindow (preroll data : List UInt8) : Except Fail BackMap :=
  insertAll { hashToPos := fun _ => 0, posToPos := List.replicate (preroll.length + data.length) 0 }
    0 (windows (preroll ++ data))

/-- back_map.rs:57-73 `Chain::next`, iterated to the end. Each step goes to a smaller position, so
`posToPos.length + 1` steps of fuel are enough. -/
def chain (posToPos : List Nat) : Nat → Option Nat → Except Fail (List Nat)
  | _, none => pure []
  | 0, some _ => .error .diverge
  | fuel + 1, some current => do
    let next ← index posToPos current
    let rest ← chain posToPos fuel (if next = 0 then none else some next)
    pure (current :: rest)

/-- back_map.rs:42-49 `get`, as the list of all positions the chain yields. -/
def get (table : BackMap) (key : Key) : Except Fail (List Nat) :=
  chain table.posToPos (table.posToPos.length + 1) (some (table.hashToPos key.hash16))

end BackMap

/-- all_refs.rs:17-22. -/
structure AllRefs where
  preroll : List UInt8
  data : List UInt8
  map : BackMap
  limit : Nat

namespace AllRefs

/-- all_refs.rs:25-32. -/
def withSixteen (preroll data : List UInt8) (limit : Nat) : Except Fail AllRefs := do
  let map ← BackMap.fromWindow preroll data
  pure { preroll := preroll, data := data, map := map, limit := limit }

/-- all_refs.rs:34-36. -/
def dataLen (a : AllRefs) : Nat := a.preroll.length + a.data.length

/-- all_refs.rs:87-93. -/
def get (a : AllRefs) (pos : Nat) : Except Fail UInt8 :=
  if pos < a.preroll.length then index a.preroll pos
  else index a.data (pos - a.preroll.length)

/-- all_refs.rs:38-48. -/
def key (a : AllRefs) (dataPos : Nat) : Except Fail (Option Key) := do
  if dataPos + 2 < a.dataLen then
    let b0 ← a.get dataPos
    let b1 ← a.get (dataPos + 1)
    let b2 ← a.get (dataPos + 2)
    pure (some { b0 := b0, b1 := b1, b2 := b2 })
  else
    pure none

/-- all_refs.rs:95-97; the subtraction panics on underflow. -/
def getAtDist (a : AllRefs) (dataPos dist : Nat) : Except Fail UInt8 :=
  if dist ≤ dataPos then a.get (dataPos - dist) else .error (.panic .overflow)

/-- all_refs.rs:102-104 (the closure mapped over `i..i+n`). -/
def upcoming (a : AllRefs) (pos : Nat) : Nat → Nat → Except Fail (List UInt8)
  | _, 0 => pure []
  | i, n + 1 => do
    let b ← a.get (pos + i)
    let rest ← a.upcoming pos (i + 1) n
    pure (b :: rest)

/-- all_refs.rs:106-112: `for cur in cur..cur+n`; `some cur` for an early return. -/
def runLoop1 (a : AllRefs) (pos dist : Nat) (up : List UInt8) :
    Nat → Nat → Except Fail (Option Nat)
  | _, 0 => pure none
  | cur, n + 1 => do
    let x ← index up cur
    let y ← a.getAtDist pos (dist - cur)
    if x != y then pure (some cur) else a.runLoop1 pos dist up (cur + 1) n

/-- all_refs.rs:114-120. -/
def runLoop2 (dist : Nat) (up : List UInt8) : Nat → Nat → Except Fail (Option Nat)
  | _, 0 => pure none
  | cur, n + 1 => do
    -- `cur % dist` panics for `dist = 0`
    if dist = 0 then .error (.panic .explicit)
    else
      let x ← index up (cur % dist)
      let y ← index up cur
      if x != y then pure (some cur) else runLoop2 dist up (cur + 1) n

/-- all_refs.rs:99-123. `self.data_len() - pos` panics on underflow. -/
def possibleRunLengthAt (a : AllRefs) (pos dist : Nat) : Except Fail Nat := do
  if a.dataLen < pos then .error (.panic .overflow)
  else
    let upLen := min 258 (a.dataLen - pos)
    let up ← a.upcoming pos 0 upLen
    match ← a.runLoop1 pos dist up 3 (min dist upLen - 3) with
    | some cur => pure cur
    | none =>
      match ← runLoop2 dist up dist (upLen - dist) with
      | some cur => pure cur
      | none => pure upLen

/-- all_refs.rs:74-78: does the key occur at `off`? (Evaluated with short circuit.) -/
def matchesAt (a : AllRefs) (k : Key) (off : Nat) : Except Fail Bool := do
  let x ← a.get off
  if x == k.b0 then
    let y ← a.get (off + 1)
    if y == k.b1 then
      let z ← a.get (off + 2)
      pure (z == k.b2)
    else pure false
  else pure false

/-- all_refs.rs:73-83: the last two filters and the map of the pipeline. -/
def refsFrom (a : AllRefs) (pos : Nat) (k : Key) : List Nat → Except Fail (List Ref)
  | [] => pure []
  | off :: rest => do
    if pos - off ≤ 32768 then
      if ← a.matchesAt k off then
        let dist := pos - off
        let run ← a.possibleRunLengthAt pos dist
        let r ← Ref.new dist run
        let rs ← a.refsFrom pos k rest
        pure (r :: rs)
      else a.refsFrom pos k rest
    else a.refsFrom pos k rest

/-- all_refs.rs:51-85 `at`. The returned iterator is lazy in Rust; here the whole list is computed.
The two agree because no element panics (theorem `AllRefs.at_ok`). -/
def at_ (a : AllRefs) (pos : Nat) (obscura : List Obscure) : Except Fail (Option (List Ref)) := do
  match ← a.key pos with
  | none => pure none
  | some key =>
    if pos = 0 then pure (some [])
    else
      let positions ← a.map.get key
      let offs := (Obscured.obscure (positions.filter fun off => off < pos) obscura).take a.limit
      let refs ← a.refsFrom pos key offs
      pure (some refs)

end AllRefs

end Rezip
