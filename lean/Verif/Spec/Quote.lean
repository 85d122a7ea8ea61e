/-!
# What bytes that may not be UTF-8 stand for
-/

namespace Rezip

/-- The bytes begin the encoding of some character. -/
def BeginsChar (p : List UInt8) : Prop := ∃ c : Char, p <+: String.utf8EncodeChar c

/-- Unicode's practice of replacing maximal subparts: characters that are there are taken; where there is none, the
longest start of one (or else one byte) is replaced by U+FFFD. -/
inductive Lossy : List UInt8 → List Char → Prop
  | nil : Lossy [] []
  | char (c : Char) (rest : List UInt8) (s : List Char) : Lossy rest s → Lossy (String.utf8EncodeChar c ++ rest) (c :: s)
  | bad (p rest : List UInt8) (s : List Char) : p ≠ [] →
      (∀ c, ¬ String.utf8EncodeChar c <+: p ++ rest) →
      (BeginsChar p ∨ p.length = 1) →
      (∀ q, q <+: p ++ rest → BeginsChar q → q.length ≤ p.length) →
      Lossy rest s → Lossy (p ++ rest) ('�' :: s)

/-! ### String literals, as Rust reads them -/

/-- A hexadecimal digit. -/
def hexValue (c : Char) : Option Nat :=
  if '0' ≤ c ∧ c ≤ '9' then some (c.toNat - 48)
  else if 'a' ≤ c ∧ c ≤ 'f' then some (c.toNat - 87)
  else none

/-- The digits of `\u{…}` after those that make `n`, and what follows. -/
def readHex : List Char → Nat → Option (Nat × List Char)
  | [], _ => none
  | c :: rest, n => if c = '}' then some (n, rest) else (hexValue c).bind fun d => readHex rest (16 * n + d)

/-- The character that a short escape stands for. -/
def shortEscape (c : Char) : Option Char :=
  if c = '0' then some '\x00'
  else if c = 't' then some '\t'
  else if c = 'n' then some '\n'
  else if c = 'r' then some '\r'
  else if c = '"' then some '"'
  else if c = '\\' then some '\\'
  else none

/-- The next character of a literal, and what follows. -/
def readChar : List Char → Option (Char × List Char)
  | [] => none
  | c :: rest =>
    if c ≠ '\\' then some (c, rest)
    else match rest with
      | [] => none
      | d :: rest' =>
        if d = 'u' then
          match rest' with
          | [] => none
          | e :: rest'' =>
            if e = '{' then (readHex rest'' 0).map fun x => (Char.ofNat x.1, x.2) else none
        else (shortEscape d).map fun x => (x, rest')

/-- The characters up to the closing quotation mark, and what follows. -/
def readChars : Nat → List Char → Option (List Char × List Char)
  | fuel + 1, c :: rest =>
    if c = '"' then some ([], rest)
    else (readChar (c :: rest)).bind fun x => (readChars fuel x.2).map fun y => (x.1 :: y.1, y.2)
  | _, _ => none

/-- The string that the literal in front of a text stands for, and what follows. -/
def readLiteral : List Char → Option (List Char × List Char)
  | [] => none
  | c :: rest => if c = '"' then readChars rest.length rest else none

end Rezip
