import Verif.Spec.Tree

/-! Sources on which no parser function that can panic is reached. -/

namespace Cddlc.Spec
open Cddlc
variable [Unicode]

/-- Tokens after which an operand must follow. -/
def openers : List Tok :=
  [.LBRACK, .LBRACE, .LPAREN, .COMMA, .COLON, .ARROW_MAP, .ASSIGN, .TYPE_CHOICE_ASSIGN,
   .GROUP_CHOICE_ASSIGN, .TYPE_CHOICE, .GROUP_CHOICE, .OPTIONAL, .UNWRAP, .AMPERSAND]

/-- Tokens that are an operand by themselves. -/
def leaves : List Tok :=
  [.IDENT, .BOOL, .FALSE, .TRUE, .TSTR, .TEXT, .TEXT_LITERAL, .FLOAT, .FLOAT16, .FLOAT32, .FLOAT64, .UINT, .INT,
   .NINT, .BSTR, .BYTES, .NULL, .NIL]

/-- Those that are no numbers. -/
def sure : List Tok := [.IDENT, .BOOL, .TSTR, .TEXT, .TEXT_LITERAL, .NINT, .BSTR, .BYTES, .NULL, .NIL]

/-- Tokens that continue an operand. -/
def continuers : List Tok :=
  [.COLON, .TYPE_CHOICE, .GROUP_CHOICE, .LT, .LE, .GT, .GE, .EQ, .NE, .SIZE, .REGEXP, .BITS, .INCLUSIVE_BOUND,
   .EXCLUSIVE_BOUND, .ZERO_OR_MORE, .ONE_OR_MORE, .ARROW_MAP, .COMMA]

/-- The token before is not `#`. -/
def NoTag (ts : List Token) : Prop := ∀ h ∈ ts.getLast?, h.tok ≠ .HASH

/-- No scan panics; `*` and `+` stand directly after a token that an operand must follow or after an operand
of one token that is not the number of a tag; `.regexp` stands directly after `tstr` or `text`; and `.bits` has
an operand of one token that is no number. -/
structure Tame (l : Lexer) : Prop where
  scan : ∀ ts l', Scans l ts l' → ∀ w, l'.scan ≠ .panic w
  occ : ∀ ts a b l', Scans l (ts ++ [a, b]) l' → b.tok = .ZERO_OR_MORE ∨ b.tok = .ONE_OR_MORE →
    a.tok ∈ openers ∨ a.tok ∈ leaves ∧ NoTag ts
  regexp : ∀ ts a b l', Scans l (ts ++ [a, b]) l' → b.tok = .REGEXP → a.tok = .TSTR ∨ a.tok = .TEXT
  bits : ∀ ts a b c l', Scans l (ts ++ [a, b, c]) l' → a.tok = .BITS → b.tok ∈ sure ∧ c.tok ∉ continuers

/-- A name or the literal of an integer or a fraction. -/
def Rangeable (t : Token) : Prop :=
  t.tok = .IDENT ∨ t.tok = .INT ∧ t.lit ≠ b!"int" ∨ t.tok = .FLOAT ∧ t.lit ≠ b!"float"

/-- There are no comparisons, and ranges start with names and numbers. -/
structure Comparable (l : Lexer) : Prop where
  cmp : ∀ t, Tk l t → t.tok ∉ [Tok.LT, .LE, .GT, .GE, .EQ, .NE]
  range : ∀ ts a b l', Scans l (ts ++ [a, b]) l' → b.tok = .INCLUSIVE_BOUND ∨ b.tok = .EXCLUSIVE_BOUND →
    Rangeable a ∧ NoTag ts

/-- No name stands twice before an `=`. -/
def DeclaredOnce (l : Lexer) : Prop := ∀ i j, TkThen l i .ASSIGN → TkThen l j .ASSIGN →
  i.name = j.name → i.pos = j.pos

/-- A source on which `ParseFile` does not panic. -/
def Safe (l : Lexer) : Prop := Tame l ∧ (Comparable l ∨ DeclaredOnce l)

end Cddlc.Spec
