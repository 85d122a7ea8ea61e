import Verif.Spec.Guess
import Verif.Spec.LZ77
import Verif.Spec.Trace
import Verif.Model.Serialise

/-!
# The traces of a whole file
-/

namespace Rezip

open Spec

/-- The last 32 KiB of what came before. -/
def window (h : List UInt8) : List UInt8 := h.drop (h.length - 32768)

/-- The trace of one block with the given codes and bytes, after the bytes `h`. -/
def blockTrace (st : Settings) (h u : List UInt8) (codes : List Code) : List Trace :=
  refTrace st (st.insert.getD 65535) (window h ++ u) (window h).length [] codes

/-- After the bytes `h`, none of the blocks is a stored one, all references are inside the window, the traces
of the blocks are the given ones, and their mispredicted literals are right even if looked up without the
bytes before the block. -/
inductive FileTraced (st : Settings) : List UInt8 → List Block → List (List Trace) → Prop
  | nil (h : List UInt8) : FileTraced st h [] []
  | cons (h : List UInt8) (b : Block) (bs : List Block) (u : List UInt8) (parts : List (List Trace)) :
      (∀ d, b ≠ .uncompressed d) → lzExpand 32768 h (lzCodes b) = some u →
      HintedLiteralsAgree u (window h).length (lzCodes b) (blockTrace st h u (lzCodes b)) →
      FileTraced st (h ++ u) bs parts →
      FileTraced st h (b :: bs) (blockTrace st h u (lzCodes b) :: parts)

/-- After the bytes `h`, none of the blocks is a stored one, all references are inside the window, and every
code is the one guessed. -/
inductive FileGuessed (st : Settings) : List UInt8 → List Block → Prop
  | nil (h : List UInt8) : FileGuessed st h []
  | cons (h : List UInt8) (b : Block) (bs : List Block) (u : List UInt8) :
      (∀ d, b ≠ .uncompressed d) → lzExpand 32768 h (lzCodes b) = some u →
      (∀ x ∈ blockTrace st h u (lzCodes b), x = .correct) →
      FileGuessed st (h ++ u) bs → FileGuessed st h (b :: bs)

end Rezip
