import Verif.Model.Collisions
import Verif.Model.Main

/-!
# examples/collisions.rs with a standard output that may fail
-/

namespace Rezip.Collisions

/-- One `println!` after the other. (collisions.rs:35.) -/
def printLines : List (List Char) → EStateM Fail Sink Unit
  | [] => pure ()
  | l :: ls => do
    Dump.println l
    printLines ls

/-- collisions.rs:9-37 `main`, given the standard output. The lines do not depend on it: the program only stops early
where `println!` panics. -/
def runTo (iterMap : Map → Map) (iterSet : List Triple → List Triple) : EStateM Fail Sink Unit :=
  printLines (run iterMap iterSet)

end Rezip.Collisions
