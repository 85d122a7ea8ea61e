import Verif.Spec.Guess

/-!
# How gzip chooses the codes

`deflate_fast` (levels 1 to 3) and `deflate` (levels 4 to 9) of deflate.c in gzip 1.12, for data of
less than `WSIZE + MAX_DIST` = 65274 bytes, so that the window never slides: what is read is at the front of the window, and the rest of it is zero.
`NIL` is 0, `MIN_MATCH` 3, `MAX_MATCH` 258, `MAX_DIST` 32768 - 262, `TOO_FAR` 4096.
-/

namespace Rezip.Spec.GzipDeflate

/-- `window[i]`. -/
def byte (data : List UInt8) (i : Nat) : UInt8 := data[i]?.getD 0

/-- `head` and `prev`. -/
structure Tables where
  head : Nat → Nat
  prev : Nat → Nat

/-- The tables at the start. -/
def empty : Tables := { head := fun _ => 0, prev := fun _ => 0 }

/-- The hash of the three bytes at `s`, as it is in `ins_h` when the string at `s` is inserted. -/
def hashAt (data : List UInt8) (s : Nat) : Nat :=
  gzipHash (byte data s) (byte data (s + 1)) (byte data (s + 2))

/-- `INSERT_STRING(s, match_head)`: the new tables; `match_head` is `t.head (hashAt data s)`. -/
def insertString (data : List UInt8) (t : Tables) (s : Nat) : Tables where
  head := fun h => if h = hashAt data s then s else t.head h
  prev := fun j => if j = s then t.head (hashAt data s) else t.prev j

/-- `INSERT_STRING` for `n` positions from `s` on. -/
def insertStrings (data : List UInt8) (t : Tables) (s : Nat) : Nat → Tables
  | 0 => t
  | n + 1 => insertStrings data (insertString data t s) (s + 1) n

/-- How many of the `n` bytes at `i` and at `j` are equal, before the first that are not? -/
def equalBytes (data : List UInt8) (i j : Nat) : Nat → Nat
  | 0 => 0
  | n + 1 => if byte data i = byte data j then equalBytes data (i + 1) (j + 1) n + 1 else 0

/-- `MAX_DIST`. -/
def maxDist : Nat := 32768 - 262

/-- `longest_match`, for `chain` more positions from `cur` on: `best_len` and `match_start`. -/
def longestMatch (data : List UInt8) (t : Tables) (strstart nice : Nat) : Nat → Nat → Nat → Nat → Nat × Nat
  | 0, _, best, start => (best, start)
  | chain + 1, cur, best, start =>
    let len := equalBytes data cur strstart 258
    if best < len ∧ nice ≤ len then (len, cur)
    else
      let found := if best < len then (len, cur) else (best, start)
      if strstart - maxDist < t.prev cur then
        longestMatch data t strstart nice chain (t.prev cur) found.1 found.2
      else found

/-- `deflate_fast` from `strstart` on. Every step takes at least one byte. -/
def fast (nice insert chain : Nat) (data : List UInt8) : Nat → Nat → Tables → List Code
  | 0, _, _ => []
  | fuel + 1, strstart, t =>
    if strstart < data.length then
      let hashHead := t.head (hashAt data strstart)
      let t := insertString data t strstart
      let found :=
        if hashHead ≠ 0 ∧ strstart - hashHead ≤ maxDist then
          longestMatch data t strstart nice chain hashHead 2 0
        else (2, 0)
      let len := min found.1 (data.length - strstart)
      if 3 ≤ len then
        .reference ⟨(strstart - found.2).toUInt16, (len - 3).toUInt8⟩ ::
          fast nice insert chain data fuel (strstart + len)
            (if len ≤ insert then insertStrings data t (strstart + 1) (len - 1) else t)
      else .literal (byte data strstart) :: fast nice insert chain data fuel (strstart + 1) t
    else []

/-- `deflate` from `strstart` on; `len` and `start` are `match_length` and `match_start`, `available` is
`match_available`. -/
def slow (good maxLazy nice chain : Nat) (data : List UInt8) : Nat → Nat → Tables → Nat → Nat → Bool → List Code
  | 0, _, _, _, _, _ => []
  | fuel + 1, strstart, t, prevLength, prevMatch, available =>
    if strstart < data.length then
      let hashHead := t.head (hashAt data strstart)
      let t := insertString data t strstart
      let found :=
        if hashHead ≠ 0 ∧ prevLength < maxLazy ∧ strstart - hashHead ≤ maxDist then
          let m := longestMatch data t strstart nice (if good ≤ prevLength then chain / 4 else chain) hashHead
            prevLength prevMatch
          let len := min m.1 (data.length - strstart)
          if len = 3 ∧ 4096 < strstart - m.2 then (2, m.2) else (len, m.2)
        else (2, prevMatch)
      if 3 ≤ prevLength ∧ found.1 ≤ prevLength then
        .reference ⟨(strstart - 1 - prevMatch).toUInt16, (prevLength - 3).toUInt8⟩ ::
          slow good maxLazy nice chain data fuel (strstart + prevLength - 1)
            (insertStrings data t (strstart + 1) (prevLength - 2)) 2 found.2 false
      else if available then
        .literal (byte data (strstart - 1)) ::
          slow good maxLazy nice chain data fuel (strstart + 1) t found.1 found.2 true
      else slow good maxLazy nice chain data fuel (strstart + 1) t found.1 found.2 true
    else if available then [.literal (byte data (strstart - 1))]
    else []

/-- Positions (other than the first) where the same hash occurs again are less than `MAX_DIST` apart. So they are in data
of at most 32507 bytes. -/
def Near (data : List UInt8) : Prop := ∀ j p, 0 < j → j < p → sameHash data j p = true → p < j + maxDist

/-- The last three bytes do not occur right before a zero byte, unless at the start. What gzip finds past the end of the
data is zero. -/
def Clear (data : List UInt8) : Prop :=
  ∀ z, 4 ≤ z → data[z]? = some 0 → three data (z - 3) ≠ three data (data.length - 3)

/-- No position has more than `n` earlier ones, other than the first, with the same hash. So it is in data of at most
`n + 4` bytes. -/
def Sparse (n : Nat) (data : List UInt8) : Prop :=
  ∀ p, ((List.range p).filter fun j => decide (0 < j) && sameHash data j p).length ≤ n

/-- At `p` there is a match of more than `len` bytes. -/
def Longer (data : List UInt8) (p len : Nat) : Prop :=
  ∃ j, 0 < j ∧ j < p ∧ len < min 258 (commonPrefix (data.drop p) (data.drop j))

/-- The codes gzip chooses at a level, 1 to 9, for data of less than 65274 bytes. -/
def codes (level : Nat) (data : List UInt8) : List Code :=
  match gzipTable[level - 1]? with
  | none => []
  | some (good, lazy_, nice, chain) =>
    if level < 4 then fast nice lazy_ chain data data.length 0 empty
    else slow good lazy_ nice chain data (data.length + 1) 0 empty 2 0 false

end Rezip.Spec.GzipDeflate
