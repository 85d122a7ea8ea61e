import Verif.Model.AllRefs

/-!
# lib/src/lookahead.rs and lib/src/technique.rs
-/

namespace Rezip

/-- lookahead.rs:5-10. -/
inductive Lookahead
  | greedy
  | gzip
  | threeZip
deriving DecidableEq, Repr

/-- lib.rs:64-70 `trait Looker`: the required method `best_candidate_better_than`. -/
abbrev Looker := Nat → Option Nat → Except Fail (UInt8 × Option Ref)

/-- lib.rs:65-67 `best_candidate`. -/
def Looker.best (l : Looker) (pos : Nat) : Except Fail (UInt8 × Option Ref) := l pos none

namespace Lookahead

/-- lookahead.rs:22-27. -/
def runGreedy (looker : Looker) (pos : Nat) : Except Fail (List Code) := do
  match ← looker.best pos with
  | (_, some r) => pure [.reference r]
  | (b, none) => pure [.literal b]

/-- lookahead.rs:37-50. Every iteration but the last strictly increases the run, which is at most
258, so 259 steps of fuel are enough. -/
def gzipLoop (looker : Looker) : Nat → Nat → UInt8 → Ref → List Code → Except Fail (List Code)
  | 0, _, _, _, _ => .error .diverge
  | fuel + 1, pos, currLit, currRef, ret => do
    let pos := pos + 1
    match ← looker pos (some currRef.run) with
    | (b, some new) =>
      if new.run > currRef.run then
        gzipLoop looker fuel pos b new (ret ++ [.literal currLit])
      else pure (ret ++ [.reference currRef])
    | (_, none) => pure (ret ++ [.reference currRef])

/-- lookahead.rs:29-53. -/
def runGzip (looker : Looker) (pos : Nat) : Except Fail (List Code) := do
  match ← looker.best pos with
  | (lit, some start) => gzipLoop looker 259 pos lit start []
  | (b, none) => pure [.literal b]

/-- lookahead.rs:55-101. -/
def runThreeZip (looker : Looker) (pos : Nat) : Except Fail (List Code) := do
  match ← looker.best pos with
  | (firstLiteral, some firstBest) =>
    if firstBest.run > 3 then pure [.reference firstBest]
    else
      assert (3 == firstBest.run)
      let (secondLiteral, secondBest) ← looker.best (pos + 1)
      let secondBest := secondBest.filter fun x => x.run > 3
      if secondBest.any (fun r => r.run == 258) then
        match secondBest with
        | some r => pure [.literal firstLiteral, .reference r]
        | none => .error (.panic .explicit)
      else
        let (_, thirdBest) ← looker.best (pos + 2)
        let thirdBest := thirdBest.filter fun x => x.run > 4
        let thirdResult (thirdRun : Ref) : List Code :=
          [.literal firstLiteral, .literal secondLiteral, .reference thirdRun]
        match secondBest with
        | some secondRun =>
          match thirdBest with
          | some thirdRun =>
            if thirdRun.run > secondRun.run then pure (thirdResult thirdRun)
            else pure [.literal firstLiteral, .reference secondRun]
          | none => pure [.literal firstLiteral, .reference secondRun]
        | none =>
          match thirdBest with
          | some thirdRun => pure (thirdResult thirdRun)
          | none => pure [.reference firstBest]
  | (b, none) => pure [.literal b]

/-- lookahead.rs:13-19. -/
def lookahead (l : Lookahead) (looker : Looker) (pos : Nat) : Except Fail (List Code) :=
  match l with
  | .greedy => runGreedy looker pos
  | .gzip => runGzip looker pos
  | .threeZip => runThreeZip looker pos

end Lookahead

/-- technique.rs:16-21. -/
structure Config where
  firstByteBug : Bool
  lookahead : Lookahead
  picker : Picker
  wams : WamsOptimisations
deriving DecidableEq, Repr

namespace Config

/-- technique.rs:30-45. -/
def gzip (level : Nat) : Except Fail Config := do
  assert (level ≥ 1 && level ≤ 9)
  let wams ← index Wams.configurations (level - 1)
  pure { firstByteBug := true, lookahead := .greedy,
         picker := if level ≥ 4 then .dropFarThrees else .longest, wams := wams }

/-- technique.rs:47-49. -/
def gzip16Default : Except Fail Config := gzip 6

/-- technique.rs:51-58. -/
def spicy : Except Fail Config := do
  let wams ← index Wams.configurations 8
  pure { firstByteBug := false, lookahead := .threeZip, picker := .dropFarThrees, wams := wams }

end Config

/-- technique.rs:24-27. -/
structure Technique where
  config : Config
  allRefs : AllRefs

/-- technique.rs:66-68: indexes `data`, not `preroll ++ data`. -/
def Technique.byteAt (t : Technique) (pos : Nat) : Except Fail UInt8 := index t.allRefs.data pos

/-- technique.rs:82-87; the technique is passed separately. -/
structure Scanner where
  obscured : List Obscure
  pos : Nat
deriving DecidableEq, Repr

namespace Technique

/-- technique.rs:72-78. -/
def scanner (t : Technique) : Scanner := { obscured := [], pos := t.allRefs.preroll.length }

/-- technique.rs:117-119. -/
def dataLen (t : Technique) : Nat := t.allRefs.dataLen

/-- technique.rs:90-92. -/
def moreData (t : Technique) (s : Scanner) : Bool := s.pos < t.dataLen

/-- technique.rs:94-113. -/
def feedback (t : Technique) (s : Scanner) (code : Code) : Scanner :=
  let oldPos := s.pos
  let s := { s with pos := s.pos + code.emittedBytes }
  match t.config.wams.insertOnlyBelowLength with
  | none => s
  | some limit =>
    match code with
    | .literal _ => s
    | .reference r =>
      if r.run ≤ limit then s
      else { s with obscured := s.obscured ++ [(oldPos, r.run)] }

/-- technique.rs:139-148: look up the candidates, limit their number, and pick. -/
def search (t : Technique) (s : Scanner) (currentLiteral : UInt8) (pos limit : Nat) :
    Except Fail (UInt8 × Option Ref) := do
  match ← t.allRefs.at_ pos s.obscured with
  | none => pure (currentLiteral, none)
  | some it =>
    pure (currentLiteral, t.config.picker.pick (it.take limit) t.config.wams.quitSearchAboveLength)

/-- technique.rs:123-149 `best_candidate_better_than`. -/
def bestCandidateBetterThan (t : Technique) (s : Scanner) : Looker := fun pos other => do
  let currentLiteral ← t.allRefs.get pos
  let limit := t.config.wams.limitCountOfDistances
  match other with
  | none => t.search s currentLiteral pos limit
  | some run =>
    match t.config.wams.lookahead with
    | none => t.search s currentLiteral pos limit
    | some lookahead =>
      if lookahead.abortAboveLength > run then pure (currentLiteral, none)
      else
        let limit := if run > lookahead.apatheticAboveLength then limit / 4 else limit
        t.search s currentLiteral pos limit

/-- technique.rs:153-155 `Guesser::codes`. -/
def codes (t : Technique) (s : Scanner) : Except Fail (List Code) :=
  t.config.lookahead.lookahead (t.bestCandidateBetterThan s) s.pos

end Technique

end Rezip
