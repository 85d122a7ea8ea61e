/-!
# The table in huffman-fixed.txt

The documentation of the project (gzip.md:56-58) sends its readers to this file for the fixed tree. Here are
its lines and how a reader understands one; nothing here mentions the code.
-/

namespace Rezip.Spec

/-- huffman-fixed.txt:1-288 -/
def fixedDocument : List String := [
  "  0000000 => End of Stream",
  "  0000001 => d:1",
  "  0000010 => d:2",
  "  0000011 => d:3",
  "  0000100 => d:4",
  "  0000101 => d:5",
  "  0000110 => d:6",
  "  0000111 => d:7",
  "  0001000 => d:8",
  "  0001001 => d:9",
  "  0001010 => d:10",
  "  0001011 => d:11",
  "  0001100 => d:12",
  "  0001101 => d:13",
  "  0001110 => d:14",
  "  0001111 => d:15",
  "  0010000 => d:16",
  "  0010001 => d:17",
  "  0010010 => d:18",
  "  0010011 => d:19",
  "  0010100 => d:20",
  "  0010101 => d:21",
  "  0010110 => d:22",
  "  0010111 => d:23",
  " 00110000 => 0x00 '\\u{0}'",
  " 00110001 => 0x01 '\\u{1}'",
  " 00110010 => 0x02 '\\u{2}'",
  " 00110011 => 0x03 '\\u{3}'",
  " 00110100 => 0x04 '\\u{4}'",
  " 00110101 => 0x05 '\\u{5}'",
  " 00110110 => 0x06 '\\u{6}'",
  " 00110111 => 0x07 '\\u{7}'",
  " 00111000 => 0x08 '\\u{8}'",
  " 00111001 => 0x09 '\\t'",
  " 00111010 => 0x0a '\\n'",
  " 00111011 => 0x0b '\\u{b}'",
  " 00111100 => 0x0c '\\u{c}'",
  " 00111101 => 0x0d '\\r'",
  " 00111110 => 0x0e '\\u{e}'",
  " 00111111 => 0x0f '\\u{f}'",
  " 01000000 => 0x10 '\\u{10}'",
  " 01000001 => 0x11 '\\u{11}'",
  " 01000010 => 0x12 '\\u{12}'",
  " 01000011 => 0x13 '\\u{13}'",
  " 01000100 => 0x14 '\\u{14}'",
  " 01000101 => 0x15 '\\u{15}'",
  " 01000110 => 0x16 '\\u{16}'",
  " 01000111 => 0x17 '\\u{17}'",
  " 01001000 => 0x18 '\\u{18}'",
  " 01001001 => 0x19 '\\u{19}'",
  " 01001010 => 0x1a '\\u{1a}'",
  " 01001011 => 0x1b '\\u{1b}'",
  " 01001100 => 0x1c '\\u{1c}'",
  " 01001101 => 0x1d '\\u{1d}'",
  " 01001110 => 0x1e '\\u{1e}'",
  " 01001111 => 0x1f '\\u{1f}'",
  " 01010000 => 0x20 ' '",
  " 01010001 => 0x21 '!'",
  " 01010010 => 0x22 '\\\"'",
  " 01010011 => 0x23 '#'",
  " 01010100 => 0x24 '$'",
  " 01010101 => 0x25 '%'",
  " 01010110 => 0x26 '&'",
  " 01010111 => 0x27 '\\''",
  " 01011000 => 0x28 '('",
  " 01011001 => 0x29 ')'",
  " 01011010 => 0x2a '*'",
  " 01011011 => 0x2b '+'",
  " 01011100 => 0x2c ','",
  " 01011101 => 0x2d '-'",
  " 01011110 => 0x2e '.'",
  " 01011111 => 0x2f '/'",
  " 01100000 => 0x30 '0'",
  " 01100001 => 0x31 '1'",
  " 01100010 => 0x32 '2'",
  " 01100011 => 0x33 '3'",
  " 01100100 => 0x34 '4'",
  " 01100101 => 0x35 '5'",
  " 01100110 => 0x36 '6'",
  " 01100111 => 0x37 '7'",
  " 01101000 => 0x38 '8'",
  " 01101001 => 0x39 '9'",
  " 01101010 => 0x3a ':'",
  " 01101011 => 0x3b ';'",
  " 01101100 => 0x3c '<'",
  " 01101101 => 0x3d '='",
  " 01101110 => 0x3e '>'",
  " 01101111 => 0x3f '?'",
  " 01110000 => 0x40 '@'",
  " 01110001 => 0x41 'A'",
  " 01110010 => 0x42 'B'",
  " 01110011 => 0x43 'C'",
  " 01110100 => 0x44 'D'",
  " 01110101 => 0x45 'E'",
  " 01110110 => 0x46 'F'",
  " 01110111 => 0x47 'G'",
  " 01111000 => 0x48 'H'",
  " 01111001 => 0x49 'I'",
  " 01111010 => 0x4a 'J'",
  " 01111011 => 0x4b 'K'",
  " 01111100 => 0x4c 'L'",
  " 01111101 => 0x4d 'M'",
  " 01111110 => 0x4e 'N'",
  " 01111111 => 0x4f 'O'",
  " 10000000 => 0x50 'P'",
  " 10000001 => 0x51 'Q'",
  " 10000010 => 0x52 'R'",
  " 10000011 => 0x53 'S'",
  " 10000100 => 0x54 'T'",
  " 10000101 => 0x55 'U'",
  " 10000110 => 0x56 'V'",
  " 10000111 => 0x57 'W'",
  " 10001000 => 0x58 'X'",
  " 10001001 => 0x59 'Y'",
  " 10001010 => 0x5a 'Z'",
  " 10001011 => 0x5b '['",
  " 10001100 => 0x5c '\\\\'",
  " 10001101 => 0x5d ']'",
  " 10001110 => 0x5e '^'",
  " 10001111 => 0x5f '_'",
  " 10010000 => 0x60 '`'",
  " 10010001 => 0x61 'a'",
  " 10010010 => 0x62 'b'",
  " 10010011 => 0x63 'c'",
  " 10010100 => 0x64 'd'",
  " 10010101 => 0x65 'e'",
  " 10010110 => 0x66 'f'",
  " 10010111 => 0x67 'g'",
  " 10011000 => 0x68 'h'",
  " 10011001 => 0x69 'i'",
  " 10011010 => 0x6a 'j'",
  " 10011011 => 0x6b 'k'",
  " 10011100 => 0x6c 'l'",
  " 10011101 => 0x6d 'm'",
  " 10011110 => 0x6e 'n'",
  " 10011111 => 0x6f 'o'",
  " 10100000 => 0x70 'p'",
  " 10100001 => 0x71 'q'",
  " 10100010 => 0x72 'r'",
  " 10100011 => 0x73 's'",
  " 10100100 => 0x74 't'",
  " 10100101 => 0x75 'u'",
  " 10100110 => 0x76 'v'",
  " 10100111 => 0x77 'w'",
  " 10101000 => 0x78 'x'",
  " 10101001 => 0x79 'y'",
  " 10101010 => 0x7a 'z'",
  " 10101011 => 0x7b '{'",
  " 10101100 => 0x7c '|'",
  " 10101101 => 0x7d '}'",
  " 10101110 => 0x7e '~'",
  " 10101111 => 0x7f '\\u{7f}'",
  " 10110000 => 0x80 '\\u{80}'",
  " 10110001 => 0x81 '\\u{81}'",
  " 10110010 => 0x82 '\\u{82}'",
  " 10110011 => 0x83 '\\u{83}'",
  " 10110100 => 0x84 '\\u{84}'",
  " 10110101 => 0x85 '\\u{85}'",
  " 10110110 => 0x86 '\\u{86}'",
  " 10110111 => 0x87 '\\u{87}'",
  " 10111000 => 0x88 '\\u{88}'",
  " 10111001 => 0x89 '\\u{89}'",
  " 10111010 => 0x8a '\\u{8a}'",
  " 10111011 => 0x8b '\\u{8b}'",
  " 10111100 => 0x8c '\\u{8c}'",
  " 10111101 => 0x8d '\\u{8d}'",
  " 10111110 => 0x8e '\\u{8e}'",
  " 10111111 => 0x8f '\\u{8f}'",
  " 11000000 => d:24",
  " 11000001 => d:25",
  " 11000010 => d:26",
  " 11000011 => d:27",
  " 11000100 => d:28",
  " 11000101 => d:29",
  " 11000110 => d:30",
  " 11000111 => d:31",
  "110010000 => 0x90 '\\u{90}'",
  "110010001 => 0x91 '\\u{91}'",
  "110010010 => 0x92 '\\u{92}'",
  "110010011 => 0x93 '\\u{93}'",
  "110010100 => 0x94 '\\u{94}'",
  "110010101 => 0x95 '\\u{95}'",
  "110010110 => 0x96 '\\u{96}'",
  "110010111 => 0x97 '\\u{97}'",
  "110011000 => 0x98 '\\u{98}'",
  "110011001 => 0x99 '\\u{99}'",
  "110011010 => 0x9a '\\u{9a}'",
  "110011011 => 0x9b '\\u{9b}'",
  "110011100 => 0x9c '\\u{9c}'",
  "110011101 => 0x9d '\\u{9d}'",
  "110011110 => 0x9e '\\u{9e}'",
  "110011111 => 0x9f '\\u{9f}'",
  "110100000 => 0xa0 '\\u{a0}'",
  "110100001 => 0xa1 '¡'",
  "110100010 => 0xa2 '¢'",
  "110100011 => 0xa3 '£'",
  "110100100 => 0xa4 '¤'",
  "110100101 => 0xa5 '¥'",
  "110100110 => 0xa6 '¦'",
  "110100111 => 0xa7 '§'",
  "110101000 => 0xa8 '¨'",
  "110101001 => 0xa9 '©'",
  "110101010 => 0xaa 'ª'",
  "110101011 => 0xab '«'",
  "110101100 => 0xac '¬'",
  "110101101 => 0xad '\\u{ad}'",
  "110101110 => 0xae '®'",
  "110101111 => 0xaf '¯'",
  "110110000 => 0xb0 '°'",
  "110110001 => 0xb1 '±'",
  "110110010 => 0xb2 '²'",
  "110110011 => 0xb3 '³'",
  "110110100 => 0xb4 '´'",
  "110110101 => 0xb5 'µ'",
  "110110110 => 0xb6 '¶'",
  "110110111 => 0xb7 '·'",
  "110111000 => 0xb8 '¸'",
  "110111001 => 0xb9 '¹'",
  "110111010 => 0xba 'º'",
  "110111011 => 0xbb '»'",
  "110111100 => 0xbc '¼'",
  "110111101 => 0xbd '½'",
  "110111110 => 0xbe '¾'",
  "110111111 => 0xbf '¿'",
  "111000000 => 0xc0 'À'",
  "111000001 => 0xc1 'Á'",
  "111000010 => 0xc2 'Â'",
  "111000011 => 0xc3 'Ã'",
  "111000100 => 0xc4 'Ä'",
  "111000101 => 0xc5 'Å'",
  "111000110 => 0xc6 'Æ'",
  "111000111 => 0xc7 'Ç'",
  "111001000 => 0xc8 'È'",
  "111001001 => 0xc9 'É'",
  "111001010 => 0xca 'Ê'",
  "111001011 => 0xcb 'Ë'",
  "111001100 => 0xcc 'Ì'",
  "111001101 => 0xcd 'Í'",
  "111001110 => 0xce 'Î'",
  "111001111 => 0xcf 'Ï'",
  "111010000 => 0xd0 'Ð'",
  "111010001 => 0xd1 'Ñ'",
  "111010010 => 0xd2 'Ò'",
  "111010011 => 0xd3 'Ó'",
  "111010100 => 0xd4 'Ô'",
  "111010101 => 0xd5 'Õ'",
  "111010110 => 0xd6 'Ö'",
  "111010111 => 0xd7 '×'",
  "111011000 => 0xd8 'Ø'",
  "111011001 => 0xd9 'Ù'",
  "111011010 => 0xda 'Ú'",
  "111011011 => 0xdb 'Û'",
  "111011100 => 0xdc 'Ü'",
  "111011101 => 0xdd 'Ý'",
  "111011110 => 0xde 'Þ'",
  "111011111 => 0xdf 'ß'",
  "111100000 => 0xe0 'à'",
  "111100001 => 0xe1 'á'",
  "111100010 => 0xe2 'â'",
  "111100011 => 0xe3 'ã'",
  "111100100 => 0xe4 'ä'",
  "111100101 => 0xe5 'å'",
  "111100110 => 0xe6 'æ'",
  "111100111 => 0xe7 'ç'",
  "111101000 => 0xe8 'è'",
  "111101001 => 0xe9 'é'",
  "111101010 => 0xea 'ê'",
  "111101011 => 0xeb 'ë'",
  "111101100 => 0xec 'ì'",
  "111101101 => 0xed 'í'",
  "111101110 => 0xee 'î'",
  "111101111 => 0xef 'ï'",
  "111110000 => 0xf0 'ð'",
  "111110001 => 0xf1 'ñ'",
  "111110010 => 0xf2 'ò'",
  "111110011 => 0xf3 'ó'",
  "111110100 => 0xf4 'ô'",
  "111110101 => 0xf5 'õ'",
  "111110110 => 0xf6 'ö'",
  "111110111 => 0xf7 '÷'",
  "111111000 => 0xf8 'ø'",
  "111111001 => 0xf9 'ù'",
  "111111010 => 0xfa 'ú'",
  "111111011 => 0xfb 'û'",
  "111111100 => 0xfc 'ü'",
  "111111101 => 0xfd 'ý'",
  "111111110 => 0xfe 'þ'",
  "111111111 => 0xff 'ÿ'"]

/-- The bits a line starts with, and what follows them. -/
def documentBits : List Char → List Bool × List Char
  | '0' :: l => ((false :: (documentBits l).1), (documentBits l).2)
  | '1' :: l => ((true :: (documentBits l).1), (documentBits l).2)
  | l => ([], l)

/-- A number in decimal digits. -/
def documentNumber (n : Nat) : List Char → Option Nat
  | [] => some n
  | c :: l => if '0' ≤ c ∧ c ≤ '9' then documentNumber (10 * n + (c.toNat - '0'.toNat)) l else none

/-- A hexadecimal digit. -/
def documentDigit (c : Char) : Option Nat :=
  if '0' ≤ c ∧ c ≤ '9' then some (c.toNat - '0'.toNat)
  else if 'a' ≤ c ∧ c ≤ 'f' then some (c.toNat - 'a'.toNat + 10)
  else none

/-- What a line says the code stands for: a byte, as two hexadecimal digits and then a picture of it, is that
literal; the end of the stream is symbol 256, and `d:n` is symbol 256 + n, for n not 0. -/
def documentSymbol : List Char → Option Nat
  | '0' :: 'x' :: a :: b :: ' ' :: '\'' :: _ => do return 16 * (← documentDigit a) + (← documentDigit b)
  | 'd' :: ':' :: l =>
    match documentNumber 0 l with
    | some (n + 1) => some (256 + (n + 1))
    | _ => none
  | l => if l = "End of Stream".toList then some 256 else none

/-- A line of the file: a code, and the symbol it stands for. -/
def documentLine (l : List Char) : Option (List Bool × Nat) :=
  match documentBits (l.dropWhile (· = ' ')) with
  | (c, ' ' :: '=' :: '>' :: ' ' :: s) => (documentSymbol s).map (c, ·)
  | _ => none

/-- The codes the file documents. `none`: a line makes no sense. -/
def documented : Option (List (List Bool × Nat)) := fixedDocument.mapM fun l => documentLine l.toList

end Rezip.Spec
