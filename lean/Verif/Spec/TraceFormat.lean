import Verif.Model.SerialiseTrace

/-!
# The format of a serialised trace
-/

namespace Rezip.Spec

/-- A record of the format and what it stands for. It starts with a little endian number of 16 bits: zero is a literal
that was not guessed, a number up to 32768 is the distance of a reference, whose length less three follows in a
third byte, and a larger one is that many correct guesses more than 32768. -/
inductive TraceRecord : List Trace → List UInt8 → Prop
  | literal : TraceRecord [.actuallyLiteral] [0, 0]
  | reference (r : Ref) (lo hi len : UInt8) : r.dist.toNat = lo.toNat + 256 * hi.toNat → 1 ≤ r.dist.toNat →
      r.dist.toNat ≤ 32768 → r.run = 3 + len.toNat → TraceRecord [.actually r] [lo, hi, len]
  | correct (n : Nat) (lo hi : UInt8) : 1 ≤ n → lo.toNat + 256 * hi.toNat = 32768 + n →
      TraceRecord (List.replicate n .correct) [lo, hi]

/-- A file is records one after the other. -/
inductive TraceFile : List Trace → List UInt8 → Prop
  | nil : TraceFile [] []
  | cons {x t : List Trace} {b bs : List UInt8} : TraceRecord x b → TraceFile t bs → TraceFile (x ++ t) (b ++ bs)

/-- The file that is written: of correct guesses, each record has as many as possible. -/
inductive WrittenTrace : List Trace → List UInt8 → Prop
  | nil : WrittenTrace [] []
  | cons {x t : List Trace} {b bs : List UInt8} : TraceRecord x b →
      (x.head? = some .correct → t.head? = some .correct → x.length = 32767) →
      WrittenTrace t bs → WrittenTrace (x ++ t) (b ++ bs)

end Rezip.Spec
