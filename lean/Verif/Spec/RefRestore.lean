import Verif.Spec.Guess

/-!
# What a gzip-like guesser should restore from a trace
-/

namespace Rezip.Spec

/-- The guessed code: the match, or the byte at `pos` if there is none. -/
def guessedCode (w : List UInt8) (pos : Nat) : Option (Nat × Nat) → Code
  | none => .literal (w.getD pos 0)
  | some (dist, run) => .reference ⟨dist.toUInt16, (run - 3).toUInt8⟩

/-- What the entry says at `pos`: the guess, a reference, or the byte found in `look`, if there is one. -/
def entryCode (st : Settings) (search : Nat) (w look : List UInt8) (pos : Nat) (runs : List (Nat × Nat)) :
    Trace → Option Code
  | .correct => some (guessedCode w pos (guess st search w pos runs))
  | .actually r => some (.reference r)
  | .actuallyLiteral => look[pos]?.map .literal

/-- The matches whose insides are not searched, after a code at `pos`. -/
def runsAfter (st : Settings) (pos : Nat) (runs : List (Nat × Nat)) : Code → List (Nat × Nat)
  | .literal _ => runs
  | .reference r => if st.insert.any (fun l => decide (l < r.run)) then runs ++ [(pos, r.run)] else runs

/-- The codes a trace stands for, from `pos` on, with literals that were not guessed looked up in `look`. Entries are
used until the end of the data is reached. `unwrap` if there are too few of them, `index` if a literal cannot be
looked up. -/
def refRestore (st : Settings) (search : Nat) (w look : List UInt8) :
    Nat → List (Nat × Nat) → List Trace → Except Panic (List Code)
  | pos, _, [] => if pos < w.length then .error .unwrap else .ok []
  | pos, runs, x :: xs =>
    if pos < w.length then
      match entryCode st search w look pos runs x with
      | none => .error .index
      | some c => (refRestore st search w look (pos + c.emittedBytes) (runsAfter st pos runs c) xs).map (c :: ·)
    else .ok []

end Rezip.Spec
