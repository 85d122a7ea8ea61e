import Verif.Model.Debug
import Verif.Props.Drivers

/-!
# The project's own tests, on the model

The tests of lib/src/lib.rs and lib/tests/tracing_size.rs whose files are small, each with the contents of its
file. These are no claims about all inputs: they show that the model gives what the tests expect of the code,
also in the tests that are ignored as broken. Also the two outputs of the dump tool in gzip.md.
-/

namespace Rezip.RepoTests

/-- lib/tests/data/lol.gz -/
def lol : List UInt8 :=
  [31, 139, 8, 0, 0, 0, 0, 0, 4, 3, 203, 201, 207, 1, 0, 77, 177, 237, 24, 3,
   0, 0, 0]

/-- lib/tests/data/like-love.gz -/
def likeLove : List UInt8 :=
  [31, 139, 8, 0, 0, 0, 0, 0, 2, 3, 243, 84, 200, 201, 204, 78, 85, 72, 206, 200,
   76, 206, 78, 205, 211, 81, 240, 84, 200, 201, 47, 75, 5, 10, 150, 165, 22, 233, 1, 0,
   45, 191, 77, 226, 29, 0, 0, 0]

/-- lib/tests/data/abcdef-bcdefg.gz -/
def abcdef : List UInt8 :=
  [31, 139, 8, 0, 0, 0, 0, 0, 0, 3, 75, 76, 74, 78, 73, 77, 83, 0, 147, 233,
   0, 63, 69, 8, 71, 13, 0, 0, 0]

/-- lib/tests/data/seq-20.gz -/
def seq20 : List UInt8 :=
  [31, 139, 8, 0, 52, 3, 192, 89, 0, 3, 5, 193, 201, 1, 0, 32, 8, 192, 176, 127,
   167, 177, 136, 28, 251, 47, 102, 34, 193, 37, 121, 20, 205, 176, 120, 80, 12, 188, 152, 248,
   176, 176, 113, 112, 137, 195, 7, 253, 159, 212, 107, 51, 0, 0, 0]

/-- lib/tests/data/tiny-decay-sixteen-1.gz -/
def tinyDecay1 : List UInt8 :=
  [31, 139, 8, 0, 0, 0, 0, 0, 4, 3, 51, 76, 76, 74, 78, 73, 77, 211, 1, 147,
   186, 32, 38, 0, 115, 248, 48, 47, 18, 0, 0, 0]

/-- lib/tests/data/tiny-decay-sixteen-3.gz -/
def tinyDecay3 : List UInt8 :=
  [31, 139, 8, 0, 0, 0, 0, 0, 0, 3, 51, 76, 76, 74, 78, 73, 77, 211, 1, 147,
   186, 32, 2, 0, 115, 248, 48, 47, 18, 0, 0, 0]

/-- lib/tests/data/decaying-sixteen-1.gz -/
def decaying1 : List UInt8 :=
  [31, 139, 8, 0, 0, 0, 0, 0, 4, 3, 51, 208, 75, 76, 74, 78, 73, 77, 75, 143,
   207, 200, 204, 202, 206, 201, 213, 49, 132, 9, 64, 249, 70, 122, 16, 121, 40, 215, 88, 15,
   172, 26, 202, 51, 209, 3, 105, 133, 112, 0, 134, 130, 82, 19, 74, 0, 0, 0]

/-- lib/tests/data/decaying-sixteen-2.gz -/
def decaying2 : List UInt8 :=
  [31, 139, 8, 0, 0, 0, 0, 0, 0, 3, 51, 208, 75, 76, 74, 78, 73, 77, 75, 143,
   207, 200, 204, 202, 206, 201, 213, 49, 132, 9, 64, 249, 70, 122, 16, 121, 40, 215, 88, 15,
   172, 26, 202, 51, 209, 67, 112, 0, 134, 130, 82, 19, 74, 0, 0, 0]

/-- lib/tests/data/decaying-sixteen-3.gz -/
def decaying3 : List UInt8 :=
  [31, 139, 8, 0, 0, 0, 0, 0, 0, 3, 51, 208, 75, 76, 74, 78, 73, 77, 75, 143,
   207, 200, 204, 202, 206, 201, 213, 49, 132, 9, 64, 249, 70, 122, 16, 121, 40, 215, 88, 15,
   153, 103, 162, 135, 144, 2, 0, 134, 130, 82, 19, 74, 0, 0, 0]

/-- lib/tests/data/four-ref-sixteen-1.gz -/
def fourRef1 : List UInt8 :=
  [31, 139, 8, 0, 0, 0, 0, 0, 4, 3, 51, 72, 78, 44, 49, 4, 98, 35, 32, 54,
   6, 98, 19, 32, 54, 5, 98, 67, 0, 19, 178, 11, 234, 25, 0, 0, 0]

/-- lib/tests/data/four-ref-sixteen-2.gz -/
def fourRef2 : List UInt8 :=
  [31, 139, 8, 0, 0, 0, 0, 0, 0, 3, 51, 72, 78, 44, 49, 4, 98, 35, 32, 54,
   6, 98, 19, 32, 54, 5, 137, 1, 0, 19, 178, 11, 234, 25, 0, 0, 0]

/-- lib/tests/data/ten-nine-sixteen-1.gz -/
def tenNine1 : List UInt8 :=
  [31, 139, 8, 0, 0, 0, 0, 0, 4, 3, 75, 76, 132, 129, 36, 24, 35, 17, 0, 205,
   48, 88, 205, 20, 0, 0, 0]

/-- lib/tests/data/ten-nine-sixteen-2.gz -/
def tenNine2 : List UInt8 :=
  [31, 139, 8, 0, 0, 0, 0, 0, 0, 3, 75, 76, 132, 129, 36, 56, 11, 0, 205, 48,
   88, 205, 20, 0, 0, 0]

/-- lib/tests/data/dumb-collision-1.gz -/
def dumbCollision : List UInt8 :=
  [31, 139, 8, 0, 0, 0, 0, 0, 4, 3, 139, 55, 76, 76, 76, 4, 0, 252, 154, 176,
   59, 5, 0, 0, 0]

/-- lib/tests/data/colliding-back-miss-sixteen-1.gz -/
def collidingBackMiss : List UInt8 :=
  [31, 139, 8, 0, 0, 0, 0, 0, 4, 3, 115, 204, 207, 207, 119, 4, 226, 252, 124, 127,
   32, 118, 4, 0, 50, 34, 107, 45, 15, 0, 0, 0]

/-- lib/tests/data/woo-goo-1.gz -/
def wooGoo : List UInt8 :=
  [31, 139, 8, 0, 0, 0, 0, 0, 4, 3, 43, 207, 7, 1, 127, 32, 78, 7, 49, 242,
   1, 160, 0, 217, 59, 16, 0, 0, 0]

/-- parse.rs:122-137 `parse_lol`. -/
example : Parse.collect (lol.drop 10) =
    (.ok (), [.fixedHuffman [.literal 108, .literal 111, .literal 108]], (Parse.collect (lol.drop 10)).2.2) := by
  decide +kernel

/-- lib.rs:181-184 `seq_20_round_trip`. -/
example : RoundTrip.run seq20 51 = .ok () := by decide +kernel

/-- lib.rs:187-190 `lol_round_trip`. -/
example : RoundTrip.run lol 3 = .ok () := by decide +kernel

/-- lib.rs:193-196 `like_love_round_trip`. -/
example : RoundTrip.run likeLove 29 = .ok () := by decide +kernel

/-- lib.rs:199-201 `simple_backreference_round_trip`. -/
example : RoundTrip.run abcdef 13 = .ok () := by decide +kernel

/-- tracing_size.rs:55-57 `tiny_decay_1_1`. -/
example : RunGzip.tryGzip .dev 1 tinyDecay1 = .ok () := by decide +kernel

/-- tracing_size.rs:60-62 `tiny_decay_3_3`. -/
example : RunGzip.tryGzip .dev 3 tinyDecay3 = .ok () := by decide +kernel

/-- tracing_size.rs:75-77 `decaying_1_1`. -/
example : RunGzip.tryGzip .dev 1 decaying1 = .ok () := by decide +kernel

/-- tracing_size.rs:95-97 `decaying_2_2`. -/
example : RunGzip.tryGzip .dev 2 decaying2 = .ok () := by decide +kernel

/-- tracing_size.rs:100-102 `decaying_3_3`. -/
example : RunGzip.tryGzip .dev 3 decaying3 = .ok () := by decide +kernel

/-- tracing_size.rs:113-115 `four_ref_1_1`. -/
example : RunGzip.tryGzip .dev 1 fourRef1 = .ok () := by decide +kernel

/-- tracing_size.rs:118-120 `four_ref_2_2`. -/
example : RunGzip.tryGzip .dev 2 fourRef2 = .ok () := by decide +kernel

/-- tracing_size.rs:131-133 `ten_nine_1_1`. -/
example : RunGzip.tryGzip .dev 1 tenNine1 = .ok () := by decide +kernel

/-- tracing_size.rs:136-138 `ten_nine_2_2`. -/
example : RunGzip.tryGzip .dev 2 tenNine2 = .ok () := by decide +kernel

/-- tracing_size.rs:146-148 `dumb_collision`. -/
example : RunGzip.tryGzip .dev 1 dumbCollision = .ok () := by decide +kernel

/-- tracing_size.rs:164-166 `colliding_back_miss`. -/
example : RunGzip.tryGzip .dev 1 collidingBackMiss = .ok () := by decide +kernel

/-- tracing_size.rs:191-193 `woo_goo`. -/
example : RunGzip.tryGzip .dev 1 wooGoo = .ok () := by decide +kernel

/-- tracing_size.rs:81-84 `decaying_1_2`, ignored as broken: the trace has entries that are not `Correct`; it takes the
number of bytes in the comment. -/
example : RunGzip.tryGzip .dev 2 decaying1 = .error (.panic .explicit) ∧
    (do let parts ← RunGzip.run .dev 2 decaying1; let data ← parts.mapM SerialiseTrace.verify
        pure (data.map List.length)) = .ok [7] := by
  decide +kernel

/-- tracing_size.rs:88-92 `decaying_1_3`, ignored as broken: the trace has entries that are not `Correct`; it takes the
number of bytes in the comment. -/
example : RunGzip.tryGzip .dev 3 decaying1 = .error (.panic .explicit) ∧
    (do let parts ← RunGzip.run .dev 3 decaying1; let data ← parts.mapM SerialiseTrace.verify
        pure (data.map List.length)) = .ok [12] := by
  decide +kernel

/-- gzip.md:74-81: the bytes listed for the snowman, in a file without options. -/
def snowman : List UInt8 :=
  [31, 139, 8, 0, 0, 0, 0, 0, 0, 3, 123, 52, 163, 25, 0, 84, 15, 14, 152, 3, 0, 0, 0]

/-- gzip.md:108-113 -/
example : Dump.run Render.charDebug snowman = (.ok (), Dump.print (["block 0:", " - fixed huffman:",
    "    - lit: 0xe2: 'â'", "    - lit: 0x98: '\\u{98}'", "    - lit: 0x83: '\\u{83}'"].map String.toList)) := by
  decide +kernel

/-- gzip.md:126: `hello mellow jello!`, with the 16 bytes of deflate that gzip.md:149 mentions. -/
def hello : List UInt8 :=
  [31, 139, 8, 0, 0, 0, 0, 0, 0, 3, 203, 72, 205, 201, 201, 87, 200, 5, 145, 229, 10, 89, 32, 74, 17, 0,
   70, 31, 29, 252, 19, 0, 0, 0]

/-- gzip.md:126-141 -/
example : Dump.run Render.charDebug hello = (.ok (), Dump.print (["block 0:", " - fixed huffman:",
    "    - lit: 0x68: 'h'", "    - lit: 0x65: 'e'", "    - lit: 0x6c: 'l'", "    - lit: 0x6c: 'l'",
    "    - lit: 0x6f: 'o'", "    - lit: 0x20: ' '", "    - lit: 0x6d: 'm'",
    "    - backref: 6 byte(s) back, 4 bytes long", "    - lit: 0x77: 'w'", "    - lit: 0x20: ' '",
    "    - lit: 0x6a: 'j'", "    - backref: 7 byte(s) back, 4 bytes long",
    "    - lit: 0x21: '!'"].map String.toList)) := by
  decide +kernel

end Rezip.RepoTests
