import Verif.Spec.GzipDeflate
import Verif.Model.Parse

/-!
# gzip's own files

One text compressed by gzip 1.12 at all levels (`gzip -n1c` to `gzip -n9c`, without header and trailer): the parser finds
the codes of `Spec.GzipDeflate.codes`.
-/

namespace Rezip

open Spec GzipDeflate Parse

/-- A text of 104 bytes with many repetitions and zero bytes. -/
def repetitive : List UInt8 :=
  [99, 98, 97, 99, 99, 98, 97, 99, 99, 97, 99, 99, 100, 99, 98, 97, 99, 99, 98, 97, 99, 100, 98, 97, 99, 100,
   98, 97, 99, 100, 98, 97, 99, 99, 97, 99, 99, 100, 99, 99, 99, 99, 98, 97, 99, 98, 97, 99, 99, 99, 99, 99,
   99, 98, 97, 99, 99, 99, 99, 98, 97, 99, 99, 98, 97, 99, 99, 0, 99, 98, 97, 99, 99, 98, 97, 99, 99, 97, 99,
   99, 100, 0, 100, 98, 100, 98, 100, 98, 98, 98, 97, 99, 100, 99, 98, 97, 99, 99, 100, 99, 98, 97, 99, 99]

/-- Is it a stream of one compressed block with these codes? -/
def oneBlock (stream : List UInt8) (codes : List Code) : Bool :=
  match parseAll stream with
  | .ok ([.fixedHuffman cs], _) => cs == codes
  | .ok ([.dynamicHuffman _ cs], _) => cs == codes
  | _ => false

/-- Level 1. -/
example : ([1].all fun level => oneBlock
    [77, 76, 129, 13, 0, 32, 8, 242, 213, 128, 255, 111, 72, 96, 109, 169, 160, 14, 148, 56, 164, 177, 165,
     12, 187, 232, 67, 5, 198, 100, 159, 163, 221, 108, 204, 59, 139, 117, 4, 39, 86, 233, 191, 242, 5]
    (codes level repetitive)) = true := by decide +kernel

/-- Level 2. -/
example : ([2].all fun level => oneBlock
    [77, 76, 1, 14, 0, 64, 4, 242, 85, 234, 255, 111, 56, 213, 108, 135, 176, 18, 76, 3, 194, 22, 189, 44,
     248, 33, 2, 204, 75, 86, 100, 158, 179, 206, 230, 211, 226, 40, 71, 47, 44, 164, 63]
    (codes level repetitive)) = true := by decide +kernel

/-- Level 3. -/
example : ([3].all fun level => oneBlock
    [75, 78, 74, 76, 78, 6, 97, 32, 74, 1, 51, 128, 56, 5, 9, 67, 36, 128, 0, 40, 6, 146, 134, 50, 33, 2, 96,
     204, 0, 103, 129, 148, 50, 164, 36, 129, 96, 18, 200, 8, 176, 4, 132, 4, 0]
    (codes level repetitive)) = true := by decide +kernel

/-- Level 4. -/
example : ([4].all fun level => oneBlock
    [75, 78, 74, 76, 78, 6, 97, 32, 74, 1, 51, 128, 56, 5, 9, 67, 36, 146, 193, 226, 32, 46, 148, 9, 37, 65,
     152, 1, 206, 2, 41, 101, 72, 73, 2, 193, 36, 144, 118, 176, 32, 132, 4, 0]
    (codes level repetitive)) = true := by decide +kernel

/-- Level 5. -/
example : ([5].all fun level => oneBlock
    [75, 78, 74, 76, 78, 6, 97, 32, 74, 73, 134, 114, 82, 144, 48, 68, 34, 25, 44, 14, 226, 66, 153, 80, 18,
     132, 25, 224, 44, 144, 82, 134, 148, 36, 16, 76, 2, 105, 7, 11, 66, 72, 0]
    (codes level repetitive)) = true := by decide +kernel

/-- Levels 6, 7, 8, 9. -/
example : ([6, 7, 8, 9].all fun level => oneBlock
    [75, 78, 74, 76, 78, 6, 97, 32, 74, 73, 134, 114, 82, 144, 48, 68, 34, 25, 44, 14, 226, 66, 153, 80, 18,
     132, 25, 146, 145, 205, 96, 72, 73, 2, 193, 36, 144, 118, 176, 32, 132, 4, 0]
    (codes level repetitive)) = true := by decide +kernel

end Rezip
