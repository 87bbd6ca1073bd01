import Verif.Model.Basic

namespace Cddlc

/-- `utf8.RuneError` (U+FFFD). Compared with at lexer/lexer.go:204. -/
abbrev runeError : Nat := 0xFFFD

/-- A continuation byte `10xxxxxx`. Part of `utf8.DecodeRune`, called at lexer/lexer.go:203. -/
def isCont (b : Nat) : Bool := 0x80 ≤ b && b ≤ 0xBF

/-- models Go's `unicode/utf8.DecodeRune` (called at lexer/lexer.go:203): the first rune of
`p` and its width; `(RuneError, 0)` for an empty slice and `(RuneError, 1)` for an invalid
encoding (overlong, surrogate, out of range, truncated). -/
def decodeRune : Bytes → Nat × Nat
  | [] => (runeError, 0)
  | a :: rest =>
    let b0 := a.toNat
    if b0 < 0x80 then (b0, 1)
    else if b0 < 0xC2 then (runeError, 1)
    else if b0 < 0xE0 then
      match rest with
      | b :: _ =>
        if isCont b.toNat then ((b0 - 0xC0) * 64 + (b.toNat - 0x80), 2) else (runeError, 1)
      | [] => (runeError, 1)
    else if b0 < 0xF0 then
      let lo := if b0 = 0xE0 then 0xA0 else 0x80
      let hi := if b0 = 0xED then 0x9F else 0xBF
      match rest with
      | b :: c :: _ =>
        if lo ≤ b.toNat && b.toNat ≤ hi && isCont c.toNat then
          ((b0 - 0xE0) * 4096 + (b.toNat - 0x80) * 64 + (c.toNat - 0x80), 3)
        else (runeError, 1)
      | _ => (runeError, 1)
    else if b0 < 0xF5 then
      let lo := if b0 = 0xF0 then 0x90 else 0x80
      let hi := if b0 = 0xF4 then 0x8F else 0xBF
      match rest with
      | b :: c :: d :: _ =>
        if lo ≤ b.toNat && b.toNat ≤ hi && isCont c.toNat && isCont d.toNat then
          ((b0 - 0xF0) * 262144 + (b.toNat - 0x80) * 4096 + (c.toNat - 0x80) * 64
            + (d.toNat - 0x80), 4)
        else (runeError, 1)
      | _ => (runeError, 1)
    else (runeError, 1)

/-- models Go's conversion `string(r)` of a rune (lexer/lexer.go:87): its UTF-8 encoding; a
value that is not a Unicode scalar value (here only −1, the lexer's EOF) gives U+FFFD. -/
def encodeRune (r : Int) : Bytes :=
  match r with
  | .negSucc _ => [0xEF, 0xBF, 0xBD]
  | .ofNat v =>
    if v ≤ 0x7F then [UInt8.ofNat v]
    else if v ≤ 0x7FF then [UInt8.ofNat (0xC0 + v / 64), UInt8.ofNat (0x80 + v % 64)]
    else if 0x10FFFF < v ∨ (0xD800 ≤ v ∧ v ≤ 0xDFFF) then [0xEF, 0xBF, 0xBD]
    else if v ≤ 0xFFFF then
      [UInt8.ofNat (0xE0 + v / 4096), UInt8.ofNat (0x80 + v / 64 % 64),
       UInt8.ofNat (0x80 + v % 64)]
    else
      [UInt8.ofNat (0xF0 + v / 262144), UInt8.ofNat (0x80 + v / 4096 % 64),
       UInt8.ofNat (0x80 + v / 64 % 64), UInt8.ofNat (0x80 + v % 64)]

/-- The part of Go's `unicode` tables that is not modelled: letters and decimal digits above
U+00FF. Every theorem holds for any such tables. They are used at lexer/lexer.go:169, 268, 286. -/
class Unicode where
  letterHi : Nat → Bool
  digitHi : Nat → Bool

/-- models `unicode.IsLetter` (lexer/lexer.go:169). Latin-1 letters are A–Z a–z ª µ º À–Ö Ø–ö
ø–ÿ; above, an arbitrary table; negative runes are not letters. -/
def uniIsLetter [U : Unicode] (x : Int) : Bool :=
  match x with
  | .negSucc _ => false
  | .ofNat v =>
    if v ≤ 0xFF then
      (65 ≤ v && v ≤ 90) || (97 ≤ v && v ≤ 122) || v = 0xAA || v = 0xB5 || v = 0xBA ||
      (0xC0 ≤ v && v ≤ 0xD6) || (0xD8 ≤ v && v ≤ 0xF6) || 0xF8 ≤ v
    else U.letterHi v

/-- models `unicode.IsDigit` (lexer/lexer.go:286). Latin-1 digits are 0–9; above, an arbitrary
table; negative runes are not digits. -/
def uniIsDigit [U : Unicode] (x : Int) : Bool :=
  match x with
  | .negSucc _ => false
  | .ofNat v => if v ≤ 0xFF then 48 ≤ v && v ≤ 57 else U.digitHi v

end Cddlc
