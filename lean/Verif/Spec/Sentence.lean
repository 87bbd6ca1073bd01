import Verif.Model.Token

/-! A grammar of the sources that are accepted, and matching brackets. -/

namespace Cddlc.Spec
open Cddlc

/-- Tokens that are a type or value by themselves. -/
def atoms : List Tok :=
  [.IDENT, .BOOL, .TRUE, .FALSE, .TSTR, .TEXT, .TEXT_LITERAL, .FLOAT, .FLOAT16, .FLOAT32, .FLOAT64, .UINT, .INT,
   .NINT, .BSTR, .BYTES, .NULL, .NIL]

/-- Marks before an operand: `?`, `~`, `&`, `*` and `+`. -/
def marks : List Tok := [.OPTIONAL, .UNWRAP, .AMPERSAND, .ZERO_OR_MORE, .ONE_OR_MORE]

/-- Signs between two operands. -/
def betweens : List Tok :=
  [.COLON, .ARROW_MAP, .TYPE_CHOICE, .GROUP_CHOICE, .SIZE, .REGEXP, .BITS, .LT, .LE, .GT, .GE, .EQ, .NE,
   .INCLUSIVE_BOUND, .EXCLUSIVE_BOUND, .ZERO_OR_MORE, .ONE_OR_MORE]

/-- Brackets and those that close them. -/
def closers : List (Tok × Tok) := [(.LPAREN, .RPAREN), (.LBRACK, .RBRACK), (.LBRACE, .RBRACE)]

/-- `Phrase false ts`: the tokens are those of one entry (a type, a value, a field of a group, with comments).
`Phrase true ts`: of entries one after the other. -/
inductive Phrase : Bool → List Tok → Prop
  | empty : Phrase true []
  | more {a b} : Phrase false a → Phrase true b → Phrase true (a ++ b)
  | comment {a} : Phrase false a → Phrase false (.COMMENT :: a)
  | atom {t} : t ∈ atoms → Phrase false [t]
  | bracketed {o c a} : (o, c) ∈ closers → Phrase true a → Phrase false (o :: a ++ [c])
  | marked {t a} : t ∈ marks → Phrase false a → Phrase false (t :: a)
  | tag {n} : n ∈ [[], [Tok.INT], [Tok.FLOAT]] → Phrase false (.HASH :: n)
  | tagged {n a} : n ∈ [[], [Tok.INT], [Tok.FLOAT]] → Phrase false a →
      Phrase false (.HASH :: n ++ .LPAREN :: a ++ [.RPAREN])
  | unclosed {n a} : n ∈ [[], [Tok.INT], [Tok.FLOAT]] → Phrase false a → Phrase false (.HASH :: n ++ .LPAREN :: a)
  | between {t a b} : t ∈ betweens → Phrase false a → Phrase false b → Phrase false (a ++ t :: b)
  | noted {t a b} : t = .COLON ∨ t = .ARROW_MAP → Phrase false a → Phrase false b →
      Phrase false (a ++ t :: b ++ [.COMMENT])
  | comma {a} : Phrase false a → Phrase false (a ++ [.COMMA])
  | noEnd {t a} : t = .INCLUSIVE_BOUND ∨ t = .EXCLUSIVE_BOUND → Phrase false a → Phrase false (a ++ [t])

/-- `=`, `/=` and `//=`. -/
def assigns : List Tok := [.ASSIGN, .TYPE_CHOICE_ASSIGN, .GROUP_CHOICE_ASSIGN]

/-- The tokens of a file: comments, and rules. If `lax`, a rule may be followed by a comment and one more token,
whatever it is. -/
inductive Sentence (lax : Prop) : List Tok → Prop
  | empty : Sentence lax []
  | comment {ts} : Sentence lax ts → Sentence lax (.COMMENT :: ts)
  | rule {t a ts} : t ∈ assigns → Phrase false a → Sentence lax ts → Sentence lax (.IDENT :: t :: a ++ ts)
  | noted {t a x ts} : lax → t ∈ assigns → Phrase false a → x ≠ .EOF → Sentence lax ts →
      Sentence lax (.IDENT :: t :: a ++ .COMMENT :: x :: ts)
  | last {t a} : lax → t ∈ assigns → Phrase false a → Sentence lax (.IDENT :: t :: a ++ [.COMMENT])

/-- The brackets that are open after some tokens, last one first, or nothing if a closing bracket does not
match. -/
def openAfter : List Tok → List Tok → Option (List Tok)
  | open_, [] => some open_
  | open_, .LPAREN :: ts => openAfter (.RPAREN :: open_) ts
  | open_, .LBRACK :: ts => openAfter (.RBRACK :: open_) ts
  | open_, .LBRACE :: ts => openAfter (.RBRACE :: open_) ts
  | open_, t :: ts =>
    if t = .RPAREN ∨ t = .RBRACK ∨ t = .RBRACE then
      match open_ with
      | c :: rest => if c = t then openAfter rest ts else none
      | [] => none
    else openAfter open_ ts

/-- Every bracket is closed, by one of its kind, and every closing bracket closes one. -/
def Matched (ts : List Tok) : Prop := openAfter [] ts = some []

/-- The tokens `us` are `ts` without some of the brackets that open behind a tag and, if `lax`, without some
tokens that directly follow a comment. -/
inductive Without (lax : Prop) : List Tok → List Tok → Prop
  | nil : Without lax [] []
  | keep {t ts us} : Without lax ts us → Without lax (t :: ts) (t :: us)
  | tag {n ts us} : n ∈ [[], [Tok.INT], [Tok.FLOAT]] → Without lax ts us →
      Without lax (.HASH :: n ++ .LPAREN :: ts) (.HASH :: n ++ us)
  | passed {x ts us} : lax → Without lax ts us → Without lax (.COMMENT :: x :: ts) (.COMMENT :: us)

/-- Tokens that the scanner knows and no rule can use. -/
def unsupported : List Tok :=
  [.ILLEGAL, .ANY, .MINUS, .PERIOD, .LEFT_ANGLE_BRACKET, .RIGHT_ANGLE_BRACKET, .CBOR, .CBORSEQ, .WITHIN, .AND,
   .DEFAULT, .PLUS, .CAT, .DET, .ABNF, .ABNFB, .FEATURE]

end Cddlc.Spec
