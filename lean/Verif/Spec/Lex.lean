import Verif.Model.Token
import Verif.Model.Utf8
import Verif.Spec.Source

/-! The lexical grammar, on lists of characters: which token a text starts with, what its
literal is and how many characters it covers. Written from the token table and README, not from
the lexer's loops: there is no state, no offset and no end-of-input padding. -/

namespace Cddlc.Spec
open Cddlc

/-- The reserved words: spelling and token. -/
def reserved : List (String × Tok) :=
  [("int", .INT), ("uint", .UINT), ("nint", .NINT),
   ("float", .FLOAT), ("float16", .FLOAT16), ("float32", .FLOAT32), ("float64", .FLOAT64),
   ("INTERNAL_MARKER_numeric_end", .numeric_end),
   ("tstr", .TSTR), ("text", .TEXT), ("text_literal", .TEXT_LITERAL),
   ("bytes", .BYTES), ("bstr", .BSTR), ("bool", .BOOL), ("true", .TRUE), ("false", .FALSE),
   ("nil", .NIL), ("null", .NULL), ("any", .ANY),
   (".size", .SIZE), (".bits", .BITS), (".regexp", .REGEXP), (".cbor", .CBOR),
   (".cborseq", .CBORSEQ), (".within", .WITHIN), (".and", .AND), (".lt", .LT), (".le", .LE),
   (".gt", .GT), (".ge", .GE), (".eq", .EQ), (".ne", .NE), (".default", .DEFAULT),
   (".plus", .PLUS), (".cat", .CAT), (".det", .DET), (".abnf", .ABNF), (".abnfb", .ABNFB),
   (".feature", .FEATURE)]

/-- The token of a word. -/
def word (w : List Char) : Tok :=
  match reserved.find? (fun e => e.1.toList = w) with
  | some e => e.2
  | none => .IDENT

/-- White space between tokens. -/
def ws (c : Char) : Bool := c = ' ' || c = '\t' || c = '\r' || c = '\n'

/-- ASCII letters. -/
def alpha (c : Char) : Bool := ('a' ≤ c && c ≤ 'z') || ('A' ≤ c && c ≤ 'Z')
/-- ASCII digits. -/
def digit (c : Char) : Bool := '0' ≤ c && c ≤ '9'
def hexDigit (c : Char) : Bool := digit c || ('a' ≤ c && c ≤ 'f') || ('A' ≤ c && c ≤ 'F')
def octDigit (c : Char) : Bool := '0' ≤ c && c ≤ '7'
def binDigit (c : Char) : Bool := c = '0' || c = '1'
/-- First character of an identifier. -/
def idStart (c : Char) : Bool := alpha c || c = '@' || c = '_' || c = '$'
/-- Later characters of an identifier. -/
def idBody (c : Char) : Bool := idStart c || digit c || c = '-' || c = '.'

/-- A lexeme: token, literal, number of characters covered, and whether an error is recorded. -/
structure Lexeme where
  tok : Tok
  lit : Bytes
  len : Nat
  err : Bool := false
  deriving DecidableEq

/-- The digits of a decimal number: digits, and dots followed by an ASCII digit. -/
def numChars [Unicode] : List Char → List Char
  | [] => []
  | c :: r =>
    if uniIsDigit (c.toNat : Int) then c :: numChars r
    else if c = '.' ∧ (∃ d ∈ r.head?, digit d) then c :: numChars r
    else []

/-- A decimal number is a float when a dot occurs in it, or directly follows it without being
the first dot of a range operator. -/
def isFloat (num rest : List Char) : Bool :=
  '.' ∈ num || (rest.head? = some '.' && rest.tail.head? ≠ some '.')

/-- Numbers. -/
def number [Unicode] (r : List Char) : Lexeme :=
  let radix (q : Char → Bool) (body : List Char) : Lexeme :=
    ⟨.INT, enc (r.take 2 ++ body.takeWhile q), 2 + (body.takeWhile q).length, false⟩
  match r with
  | '0' :: 'x' :: body => radix hexDigit body
  | '0' :: 'b' :: body => radix binDigit body
  | '0' :: 'o' :: body => radix octDigit body
  | _ =>
    let num := numChars r
    ⟨if isFloat num (r.drop num.length) then .FLOAT else .INT, enc num, num.length, false⟩

/-- The one-character tokens. -/
def single (c : Char) : Option Tok :=
  match c with
  | '-' => some .MINUS
  | '?' => some .OPTIONAL
  | ':' => some .COLON
  | '(' => some .LPAREN
  | ')' => some .RPAREN
  | '{' => some .LBRACE
  | '}' => some .RBRACE
  | '[' => some .LBRACK
  | ']' => some .RBRACK
  | '+' => some .ONE_OR_MORE
  | '*' => some .ZERO_OR_MORE
  | '<' => some .LEFT_ANGLE_BRACKET
  | '>' => some .RIGHT_ANGLE_BRACKET
  | '#' => some .HASH
  | '~' => some .UNWRAP
  | '=' => some .ASSIGN
  | ',' => some .COMMA
  | '&' => some .AMPERSAND
  | '/' => some .TYPE_CHOICE
  | '.' => some .PERIOD
  | _ => none

/-- Strings: `t` is the text after the opening quote. `none` means that scanning panics. -/
def string (t : List Char) : Option Lexeme :=
  let body := t.takeWhile (fun c => c ≠ '"' && c ≠ '\n')
  if (t.drop body.length).head? = some '"' then some ⟨.TEXT_LITERAL, enc body, body.length + 2, false⟩
  else if body = [] then none
  else some ⟨.TEXT_LITERAL, (enc body).dropLast, body.length + 1, true⟩

/-- The lexeme at the start of a text that does not start with white space; `none` means that
scanning panics. -/
def lexeme [Unicode] (r : List Char) : Option Lexeme :=
  match r with
  | [] => some ⟨.EOF, [], 0, false⟩
  | c :: t =>
    if idStart c then
      let w := r.takeWhile idBody
      some ⟨if 2 < w.length then word w else .IDENT, enc w, w.length, false⟩
    else if digit c then some (number r)
    else if c = ';' then
      let w := t.takeWhile (· ≠ '\n')
      some ⟨.COMMENT, enc w, w.length + 1, false⟩
    else if c = '"' then string t
    else if c = '=' ∧ t.head? = some '>' then some ⟨.ARROW_MAP, b!"=>", 2, false⟩
    else if c = '/' ∧ t.head? = some '=' then some ⟨.TYPE_CHOICE_ASSIGN, b!"/=", 2, false⟩
    else if c = '/' ∧ t.take 2 = ['/', '='] then some ⟨.GROUP_CHOICE_ASSIGN, b!"//=", 3, false⟩
    else if c = '/' ∧ t.head? = some '/' then some ⟨.GROUP_CHOICE, b!"//", 2, false⟩
    else if c = '.' ∧ t.take 2 = ['.', '.'] then some ⟨.EXCLUSIVE_BOUND, b!"...", 3, false⟩
    else if c = '.' ∧ t.head? = some '.' then some ⟨.INCLUSIVE_BOUND, b!"..", 2, false⟩
    else if c = '.' ∧ (∃ d ∈ t.head?, uniIsLetter (d.toNat : Int)) then
      let w := c :: t.takeWhile alpha
      some ⟨word w, enc w, w.length, false⟩
    else some ⟨(single c).getD .ILLEGAL, enc [c], 1, false⟩

end Cddlc.Spec
