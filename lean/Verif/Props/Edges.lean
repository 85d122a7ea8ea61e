import Verif.Model.CollisionsOutput
import Verif.Model.Release
import Verif.Props.Bits
import Verif.Props.Collisions
import Verif.Props.Main

/-!
# Edges of C02 and C103: widths out of range, and an output that fails
-/

namespace Rezip

open Rezip.Spec

/-! ### C02 -/

/-- C02, outside its range: with a width above 16, reading panics at once, and writing (in a debug build) after 16
bits. -/
theorem C02_too_wide (n v : Nat) (hn : 16 < n) (r : BitReader) (w : BitWriter) :
    BitReader.readPart n r = .error (.panic .assertion) r ∧
    BitWriter.writeBitsVal n v w = (do
      BitWriter.writeBitsVal 16 v
      liftE (.error (.panic .overflow))) w := by
  constructor
  · unfold BitReader.readPart BitProg.readPart
    rw [if_neg (by omega)]
    rfl
  · have key : ∀ k i, i + k = 16 → ∀ m, k < m → ∀ w, BitWriter.writeBitsValLoop v i m w = (do
        BitWriter.writeBitsValLoop v i k
        liftE (.error (.panic .overflow))) w := by
      intro k
      induction k with
      | zero =>
        intro i hi m hm w
        cases m with
        | zero => omega
        | succ m =>
          have : BitWriter.writeBitsValLoop v i (m + 1) = liftE (.error (.panic .overflow)) := by
            rw [BitWriter.writeBitsValLoop, if_pos (by omega)]
          rw [this]
          rfl
      | succ k ih =>
        intro i hi m hm w
        cases m with
        | zero => omega
        | succ m =>
          rw [BitWriter.writeBitsValLoop, BitWriter.writeBitsValLoop, if_neg (by omega), if_neg (by omega)]
          cases hw : BitWriter.writeBit ((v &&& (1 <<< i)) != 0) w with
          | error e w' =>
            rw [ES.bind_err hw, ES.bind_err (ES.bind_err hw)]
          | ok u w' =>
            rw [ES.bind_ok hw, bind_assoc, ES.bind_ok hw]
            exact ih (i + 1) (by omega) m (by omega) w'
    exact key 16 0 rfl n hn w
example :
    BitReader.readPart 17 (BitReader.new [1, 2, 3]) = .error (.panic .assertion) (BitReader.new [1, 2, 3]) ∧
    BitWriter.writeBitsVal 17 0x1234 (BitWriter.new Sink.vec) =
      .error (.panic .overflow) { inner := { out := [0x34, 0x12], room := none }, current := BitVector.new } := by
  decide +kernel


/-- C02, outside its range, in a release build: after 16 bits it starts with the first one again. Within its range it
is the debug build. -/
theorem C02_release (n v : Nat) (w : BitWriter) :
    Release.writeBitsVal n v w = BitWriter.writeBits ((List.range n).map fun i => v.testBit (i % 16)) w ∧
    (n ≤ 16 → Release.writeBitsVal n v w = BitWriter.writeBitsVal n v w) := by
  have bit : ∀ i, ((v &&& (1 <<< i)) != 0) = v.testBit i := BitWriter.and_shift_ne_zero v
  constructor
  · have key : ∀ m i w, Release.writeBitsValLoop v i m w =
        BitWriter.writeBits ((List.range' i m).map fun i => v.testBit (i % 16)) w := by
      intro m
      induction m with
      | zero => intro i w; rfl
      | succ m ih =>
        intro i w
        rw [List.range'_succ, List.map_cons, Release.writeBitsValLoop, BitWriter.writeBits, bit]
        cases hw : BitWriter.writeBit (v.testBit (i % 16)) w with
        | error e w' => rw [ES.bind_err hw, ES.bind_err hw]
        | ok u w' => rw [ES.bind_ok hw, ES.bind_ok hw, ih]
    rw [List.range_eq_range']
    exact key n 0 w
  · have key : ∀ m i, i + m ≤ 16 → ∀ w, Release.writeBitsValLoop v i m w = BitWriter.writeBitsValLoop v i m w := by
      intro m
      induction m with
      | zero => intro i _ w; rfl
      | succ m ih =>
        intro i hi w
        rw [Release.writeBitsValLoop, BitWriter.writeBitsValLoop, if_neg (by omega), Nat.mod_eq_of_lt (by omega)]
        cases hw : BitWriter.writeBit ((v &&& (1 <<< i)) != 0) w with
        | error e w' => rw [ES.bind_err hw, ES.bind_err hw]
        | ok u w' => rw [ES.bind_ok hw, ES.bind_ok hw, ih (i + 1) (by omega)]
    exact fun hn => key n 0 (by omega) w

example : Release.writeBitsVal 32 0x1234 (BitWriter.new Sink.vec) =
    .ok () { inner := { out := [0x34, 0x12, 0x34, 0x12], room := none }, current := BitVector.new } := by
  decide +kernel

/-! ### C103 -/

theorem Collisions.printLines_eq (lines : List (List Char)) :
    Collisions.printLines lines = Dump.onSink (.ok ()) (Dump.utf8 (Dump.print lines)) := by
  induction lines with
  | nil => exact (Dump.onSink_nil (.ok ())).symm
  | cons l ls ih =>
    rw [Collisions.printLines, ih, Dump.println_eq, Dump.onSink_bind, ← Dump.utf8_append]
    rfl

/-- C103, the output: it gets the lines, each with a line end, if it takes them all. Otherwise it gets the first part,
as much as it takes, and the program panics. -/
theorem C103_output (iterMap : Collisions.Map → Collisions.Map)
    (iterSet : List Collisions.Triple → List Collisions.Triple) (out : List UInt8) (room : Option Nat) :
    let bytes := Dump.utf8 ((Collisions.run iterMap iterSet).flatMap fun l => l ++ ['\n'])
    ((∀ n, room = some n → bytes.length ≤ n) →
      ∃ room', Collisions.runTo iterMap iterSet ⟨out, room⟩ = .ok () ⟨out ++ bytes, room'⟩) ∧
    ∀ n, room = some n → n < bytes.length →
      Collisions.runTo iterMap iterSet ⟨out, room⟩ = .error (.panic .explicit) ⟨out ++ bytes.take n, some 0⟩ := by
  have e : Collisions.runTo iterMap iterSet = Dump.onSink (.ok ())
      (Dump.utf8 ((Collisions.run iterMap iterSet).flatMap fun l => l ++ ['\n'])) := Collisions.printLines_eq _
  dsimp only
  rw [e]
  generalize Dump.utf8 _ = bytes
  constructor
  · intro h
    cases room with
    | none => exact ⟨_, rfl⟩
    | some n => exact ⟨_, by rw [Dump.onSink]; dsimp only; rw [if_pos (h n rfl)]; rfl⟩
  · rintro n rfl h
    rw [Dump.onSink]
    dsimp only
    rw [if_neg (by omega)]

example : Collisions.printLines ["2 abc, bcd".toList, "2 x".toList] ⟨[], some 13⟩ =
    .error (.panic .explicit) ⟨"2 abc, bcd\n2 ".toList.map fun c => c.toNat.toUInt8, some 0⟩ := by
  decide +kernel

end Rezip
