import Verif.Model.Base

/-!
# lib/src/wams.rs, lib/src/iters.rs, lib/src/picker.rs, lib/src/obscure.rs
-/

namespace Rezip

/-- wams.rs:16-23. -/
structure LookaheadConfig where
  apatheticAboveLength : Nat
  abortAboveLength : Nat
deriving DecidableEq, Repr

/-- wams.rs:1-14. -/
structure WamsOptimisations where
  quitSearchAboveLength : Nat
  limitCountOfDistances : Nat
  insertOnlyBelowLength : Option Nat
  lookahead : Option LookaheadConfig
deriving DecidableEq, Repr

namespace Wams

/-- wams.rs:37-48. -/
def greedy (quit limit insert : Nat) : WamsOptimisations :=
  { quitSearchAboveLength := quit, limitCountOfDistances := limit,
    insertOnlyBelowLength := some insert, lookahead := none }

/-- wams.rs:50-65. -/
def lookahead (quit limit apathetic abort : Nat) : WamsOptimisations :=
  { quitSearchAboveLength := quit, limitCountOfDistances := limit,
    insertOnlyBelowLength := none,
    lookahead := some { abortAboveLength := abort, apatheticAboveLength := apathetic } }

/-- wams.rs:25-35. -/
def configurations : List WamsOptimisations :=
  [ greedy 8 4 4, greedy 16 8 5, greedy 32 32 6,
    lookahead 16 16 4 4, lookahead 32 32 8 16, lookahead 128 128 8 16,
    lookahead 128 256 8 32, lookahead 258 1024 32 128, lookahead 258 4096 32 258 ]

end Wams

namespace Iters

/-- iters.rs:20-30: the `for candidate in it` loop. -/
def cappedMaxLoop {α : Type} (cap : Nat) (func : α → Nat) : α → Nat → List α → α
  | max, _, [] => max
  | max, maxScore, candidate :: rest =>
    let candidateScore := func candidate
    if candidateScore > maxScore then
      if candidateScore ≥ cap then candidate
      else cappedMaxLoop cap func candidate candidateScore rest
    else cappedMaxLoop cap func max maxScore rest

/-- iters.rs:1-33. -/
def cappedMaxBy {α : Type} (it : List α) (cap : Nat) (func : α → Nat) : Option α :=
  match it with
  | [] => none
  | max :: rest =>
    let maxScore := func max
    if maxScore ≥ cap then some max
    else some (cappedMaxLoop cap func max maxScore rest)

end Iters

/-- picker.rs:4-8. -/
inductive Picker
  | longest
  | dropFarThrees
deriving DecidableEq, Repr

namespace Picker

/-- picker.rs:19-21. -/
def pickLongest (candidates : List Ref) (cap : Nat) : Option Ref :=
  Iters.cappedMaxBy candidates cap (fun r => r.run)

/-- picker.rs:23-25. -/
def pickDropFarThrees (candidates : List Ref) (cap : Nat) : Option Ref :=
  (pickLongest candidates cap).filter fun r => r.run > 3 || r.dist.toNat ≤ 4096

/-- picker.rs:11-16. -/
def pick (p : Picker) (candidates : List Ref) (cap : Nat) : Option Ref :=
  match p with
  | .longest => pickLongest candidates cap
  | .dropFarThrees => pickDropFarThrees candidates cap

end Picker

namespace Obscured

/-- obscure.rs:21-31. -/
def contains (haystack : List Obscure) (needle : Nat) : Bool :=
  match haystack with
  | [] => false
  | (start, len) :: rest =>
    if needle > start && needle < start + len then true else contains rest needle

/-- obscure.rs:7-19. -/
def obscure (from_ : List Nat) (by_ : List Obscure) : List Nat :=
  from_.filter fun item => !contains by_ item

end Obscured

end Rezip
