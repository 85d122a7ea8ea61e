import Verif.Model.TraceText

/-!
# `String::from_utf8_lossy` and `{:?}` of a string, as lib/examples/trace.rs uses them

Which characters `{:?}` shows as they are is a parameter `plain` (Unicode's tables).
-/

namespace Rezip.Quote

open Render

/-- U+FFFD. (trace.rs:132.) -/
def replacement : Char := Char.ofNat 0xFFFD

/-- `byte & 192 == TAG_CONT`. (trace.rs:132.) -/
def isCont (b : UInt8) : Bool := 0x80 ≤ b && b ≤ 0xBF

/-- May `c` follow `b`, the first of three bytes? (trace.rs:132.) -/
def secondOfThree (b c : UInt8) : Bool :=
  if b = 0xE0 then 0xA0 ≤ c && c ≤ 0xBF
  else if b = 0xED then 0x80 ≤ c && c ≤ 0x9F
  else isCont c

/-- May `c` follow `b`, the first of four bytes? (trace.rs:132.) -/
def secondOfFour (b c : UInt8) : Bool :=
  if b = 0xF0 then 0x90 ≤ c && c ≤ 0xBF
  else if b = 0xF4 then 0x80 ≤ c && c ≤ 0x8F
  else isCont c

/-- The lower six bits of a byte, after others. (trace.rs:132.) -/
def more (n : Nat) (b : UInt8) : Nat := 64 * n + b.toNat % 64

/-- `String::from_utf8_lossy`: the first character that begins with `b`, and the bytes that are left. Of a character
that is cut off or damaged, the bytes that are right so far are replaced as one. (trace.rs:132.) -/
def next (b : UInt8) (rest : List UInt8) : Char × List UInt8 :=
  if b < 0x80 then (Char.ofNat b.toNat, rest)
  else if 0xC2 ≤ b && b ≤ 0xDF then
    match rest with
    | c :: rest' =>
      if isCont c then (Char.ofNat (more (b.toNat % 32) c), rest') else (replacement, rest)
    | [] => (replacement, rest)
  else if 0xE0 ≤ b && b ≤ 0xEF then
    match rest with
    | c :: rest' =>
      if secondOfThree b c then
        match rest' with
        | d :: rest'' =>
          if isCont d then (Char.ofNat (more (more (b.toNat % 16) c) d), rest'') else (replacement, rest')
        | [] => (replacement, rest')
      else (replacement, rest)
    | [] => (replacement, rest)
  else if 0xF0 ≤ b && b ≤ 0xF4 then
    match rest with
    | c :: rest' =>
      if secondOfFour b c then
        match rest' with
        | d :: rest'' =>
          if isCont d then
            match rest'' with
            | e :: rest''' =>
              if isCont e then (Char.ofNat (more (more (more (b.toNat % 8) c) d) e), rest''')
              else (replacement, rest'')
            | [] => (replacement, rest'')
          else (replacement, rest')
        | [] => (replacement, rest')
      else (replacement, rest)
    | [] => (replacement, rest)
  else (replacement, rest)

/-- `String::from_utf8_lossy`: every character takes a byte at least, so the length is enough fuel. (trace.rs:132.) -/
def lossyLoop : Nat → List UInt8 → List Char
  | fuel + 1, b :: rest => (next b rest).1 :: lossyLoop fuel (next b rest).2
  | _, _ => []

/-- `String::from_utf8_lossy`. (trace.rs:132-134.) -/
def lossy (bytes : List UInt8) : List Char := lossyLoop bytes.length bytes

/-- A character of a string in `{:?}`: double quotes are escaped, single quotes are not. (trace.rs:139, 146.) -/
def escape (plain : Char → Bool) (c : Char) : List Char :=
  if c = '\x00' then ['\\', '0']
  else if c = '\t' then ['\\', 't']
  else if c = '\n' then ['\\', 'n']
  else if c = '\r' then ['\\', 'r']
  else if c = '"' then ['\\', '"']
  else if c = '\\' then ['\\', '\\']
  else if plain c then [c]
  else '\\' :: 'u' :: '{' :: (hexDigits c.toNat ++ ['}'])

/-- `{:?}` of a string. (trace.rs:139, 146.) -/
def quote (plain : Char → Bool) (s : List Char) : List Char := '"' :: (s.flatMap (escape plain) ++ ['"'])

/-- How the bytes around a place are shown. (trace.rs:132-150.) -/
def hint (plain : Char → Bool) (bytes : List UInt8) : List Char := quote plain (lossy bytes)

end Rezip.Quote
