import Verif.Spec.FileTrace
import Verif.Model.TraceExample

/-!
# What the example `trace` should print
-/

namespace Rezip

open Spec TraceExample

/-- The code guessed at `pos`: the match, or the byte there. -/
def guessedCode (st : Settings) (search : Nat) (w : List UInt8) (pos : Nat) (runs : List (Nat × Nat)) :
    List Code :=
  match guess st search w pos runs with
  | some (dist, len) => [.reference ⟨UInt16.ofNat dist, UInt8.ofNat (len - 3)⟩]
  | none => (w[pos]?.map Code.literal).toList

/-- The bytes from five before `pos` to five after it. -/
def around (u : List UInt8) (pos : Nat) : List UInt8 := (u.drop (pos - 5)).take (pos + 5 - (pos - 5))

/-- One line per mispredicted code, and the positions and runs at the end. The bytes shown are those of `u`. -/
def missLines (st : Settings) (search : Nat) (w u : List UInt8) :
    Nat → List (Nat × Nat) → List Code → List Line × Scanner
  | pos, runs, [] => ([], ⟨runs, pos⟩)
  | pos, runs, .literal b :: cs =>
    let rest := missLines st search w u (pos + 1) runs cs
    if says w pos (guess st search w pos runs) (.literal b) then rest
    else (.miss pos (around u pos) (guessedCode st search w pos runs) .actuallyLiteral :: rest.1, rest.2)
  | pos, runs, .reference r :: cs =>
    let rest := missLines st search w u (pos + r.run)
      (if st.insert.any (fun l => decide (l < r.run)) then runs ++ [(pos, r.run)] else runs) cs
    if says w pos (guess st search w pos runs) (.reference r) then rest
    else (.miss pos (around u pos) (guessedCode st search w pos runs) (.actually r) :: rest.1, rest.2)

/-- The lines about one level for a block with the given codes and bytes, after the bytes `h`; `size` is
that of the serialised trace. -/
def levelLines (st : Settings) (config : Config) (name : String) (size : Nat) (h u : List UInt8)
    (codes : List Code) : List Line :=
  let m := missLines st (st.insert.getD 65535) (window h ++ u) u (window h).length [] codes
  .trace name size :: (m.1 ++ [.guesser config (window h) u m.2, .blank])

/-- The configurations of `gzip --fast` and of `gzip`. -/
def fastConfig : Config :=
  { firstByteBug := true, lookahead := .greedy, picker := .longest
    wams := { quitSearchAboveLength := 8, limitCountOfDistances := 4, insertOnlyBelowLength := some 4
              lookahead := none } }
def defaultConfig : Config :=
  { firstByteBug := true, lookahead := .greedy, picker := .dropFarThrees
    wams := { quitSearchAboveLength := 128, limitCountOfDistances := 128, insertOnlyBelowLength := none
              lookahead := some { apatheticAboveLength := 8, abortAboveLength := 16 } } }

/-- The size of the serialised trace. -/
def SizeOf (tr : List Trace) (size : Nat) : Prop :=
  ∃ bytes, SerialiseTrace.write tr = .ok bytes ∧ bytes.length = size

/-- The line that says what kind of block it is. -/
def kindLine : Block → Line
  | .uncompressed data => .stored data.length
  | .fixedHuffman _ => .fixed
  | .dynamicHuffman trees _ => .dynamic trees

/-- The last code starts at most five bytes after the block's length, counted from the start of the window. -/
def LastInside (h : List UInt8) (codes : List Code) : Prop :=
  ∀ c, codes.getLast? = some c → (window h).length ≤ c.emittedBytes + 5

/-- After the bytes `h`, block number `id` can be shown, its bytes are `u`, and the lines are the given ones. -/
inductive BlockShown (fast default : Settings) (h : List UInt8) (id : Nat) :
    Block → List UInt8 → List Line → Prop
  | stored (data : List UInt8) :
      BlockShown fast default h id (.uncompressed data) data [.block id, .stored data.length]
  | codes (b : Block) (u : List UInt8) (s1 s6 : Nat) :
      (∀ d, b ≠ .uncompressed d) → lzExpand 32768 h (lzCodes b) = some u →
      HintedLiteralsAgree u (window h).length (lzCodes b) (blockTrace fast h u (lzCodes b)) →
      HintedLiteralsAgree u (window h).length (lzCodes b) (blockTrace default h u (lzCodes b)) →
      LastInside h (lzCodes b) →
      SizeOf (blockTrace fast h u (lzCodes b)) s1 → SizeOf (blockTrace default h u (lzCodes b)) s6 →
      BlockShown fast default h id b u (.block id :: kindLine b ::
        (levelLines fast fastConfig "gzip --fast" s1 h u (lzCodes b) ++
          levelLines default defaultConfig "gzip [--default]" s6 h u (lzCodes b)))

/-- After the bytes `h`, the blocks from number `id` on can be shown, and the lines are the given ones. -/
inductive Shown (fast default : Settings) : List UInt8 → Nat → List Block → List Line → Prop
  | nil (h : List UInt8) (id : Nat) : Shown fast default h id [] []
  | cons (h : List UInt8) (id : Nat) (b : Block) (u : List UInt8) (l : List Line) (bs : List Block)
      (lines : List Line) :
      BlockShown fast default h id b u l → Shown fast default (h ++ u) (id + 1) bs lines →
      Shown fast default h id (b :: bs) (l ++ lines)

end Rezip
