import Verif.Spec.Language

/-! The grammar of CDDL (RFC 8610, appendix B), over the tokens of this lexer, without comments; and the part of it
that the parser can read. A production holds in the RFC with `strict = false`; with `strict = true` there are conditions. -/

namespace Cddlc.Spec
open Cddlc

/-- An identifier of the RFC (`id`): a name, or one of the words that this lexer knows. -/
def IsId (t : Token) : Prop :=
  t.tok ∈ [Tok.IDENT, .UINT, .NINT, .FLOAT16, .FLOAT32, .FLOAT64, .TSTR, .TEXT, .BYTES, .BSTR, .BOOL, .TRUE, .FALSE,
    .NIL, .NULL, .ANY] ∨ t.tok = .INT ∧ t.lit = b!"int" ∨ t.tok = .FLOAT ∧ t.lit = b!"float"

/-- An integer, with or without a sign. -/
def IsInt (t : Token) : Prop := t.tok = .INT ∧ t.lit ≠ b!"int"

/-- A number with a fraction. -/
def IsFraction (t : Token) : Prop := t.tok = .FLOAT ∧ t.lit ≠ b!"float"

/-- A `value` of the RFC; this lexer has no tokens for byte strings. -/
def IsValue (t : Token) : Prop := IsInt t ∨ IsFraction t ∨ t.tok = .TEXT_LITERAL

/-- Digits only (`uint`). -/
def IsUint (t : Token) : Prop := IsInt t ∧ ∀ c ∈ t.lit, 48 ≤ c ∧ c ≤ 57

/-- The operators of `type1`: `rangeop` and `ctlop`. -/
def type1Ops : List Tok :=
  [.INCLUSIVE_BOUND, .EXCLUSIVE_BOUND, .SIZE, .BITS, .REGEXP, .CBOR, .CBORSEQ, .WITHIN, .AND, .LT, .LE, .GT, .GE, .EQ, .NE,
   .DEFAULT, .PLUS, .CAT, .DET, .ABNF, .ABNFB, .FEATURE]

/-- The nonterminals, the optional parts written out: `occur` belongs to `entry`, `memberkey` to `member`. -/
inductive Sym where
  | type | type1 | type2 | args | member | entry | grpchoice | group

/-! ### The conditions -/

/-- The parser has this name, word or value: not `any`, and numbers in the range of Go's types. -/
def KnownTok (t : Token) : Prop := t.tok = .IDENT ∨ ∃ x, Single t x

/-- The types whose size can be restricted. -/
def sized : List Tok := [.TSTR, .TEXT, .BSTR, .UINT]

/-- The types that can be compared. -/
def IsNumeric (t : Token) : Prop :=
  t.tok ∈ [Tok.UINT, .FLOAT16, .FLOAT32, .FLOAT64] ∨ t.tok = .INT ∧ t.lit = b!"int" ∨ t.tok = .FLOAT ∧ t.lit = b!"float"

/-- What may stand on the sides of an operator. -/
inductive Fits (op : Token) : List Token → List Token → Prop
  | size {t us} : op.tok = .SIZE → t.tok ∈ sized → Fits op [t] us
  | regexp {t u} : op.tok = .REGEXP → t.tok = .TSTR ∨ t.tok = .TEXT → u.tok = .TEXT_LITERAL ∨ u.tok = .IDENT → Fits op [t] [u]
  | bits {ts us} : op.tok = .BITS → Fits op ts us
  | compare {t us} : op.tok ∈ [Tok.LT, .LE, .GT, .GE, .EQ, .NE] → IsNumeric t → Fits op [t] us
  | fromName {t us} : op.tok = .INCLUSIVE_BOUND ∨ op.tok = .EXCLUSIVE_BOUND → t.tok = .IDENT → Fits op [t] us
  | fromInt {t u us} : op.tok = .INCLUSIVE_BOUND ∨ op.tok = .EXCLUSIVE_BOUND → IsInt t → KnownTok t → u.tok ≠ .FLOAT → Fits op [t] (u :: us)
  | fromFraction {t u us} : op.tok = .INCLUSIVE_BOUND ∨ op.tok = .EXCLUSIVE_BOUND → IsFraction t → KnownTok t → u.tok ≠ .INT → Fits op [t] (u :: us)

/-- Keys can be names and integers: no words, no text. -/
def IsKey (t : Token) : Prop := t.tok = .IDENT ∨ IsInt t

/-- Tokens that must not follow each other without a comma: `*` and `+` are taken for operators, and an opening bracket or
a number can become part of a tag. -/
def Clash (l nx : Token) : Prop :=
  nx.tok = .ZERO_OR_MORE ∨ nx.tok = .ONE_OR_MORE ∨ nx.tok = .LPAREN ∧ l.tok ∈ [Tok.HASH, .INT, .FLOAT] ∨
    l.tok = .HASH ∧ nx.tok ∈ [Tok.INT, .FLOAT]

/-- The number behind `#`: a digit, perhaps with a point and further digits. -/
def IsTagNumber (t : Token) : Prop :=
  (t.tok = .INT ∨ t.tok = .FLOAT) ∧ ∃ d ds, t.lit = d :: ds ∧ 48 ≤ d ∧ d ≤ 57 ∧
    (ds = [] ∨ ∃ c es, ds = 46 :: c :: es ∧ ∀ e ∈ c :: es, 48 ≤ e ∧ e ≤ 57)

/-- The parser can read the number behind `#`. -/
def KnownTag (t : Token) : Prop := ∃ a b, TagNums [t] a b

/-! ### The grammar -/

inductive Rfc (strict : Bool) : Sym → List Token → Prop
  | value {t} : IsValue t → (strict = true → KnownTok t) → Rfc strict .type2 [t]
  | name {t} : IsId t → (strict = true → KnownTok t) → Rfc strict .type2 [t]
  | paren {o c ts} : o.tok = .LPAREN → c.tok = .RPAREN → Rfc strict .type ts → Rfc strict .type2 (o :: ts ++ [c])
  | map {o c ts} : o.tok = .LBRACE → c.tok = .RBRACE → Rfc strict .group ts → Rfc strict .type2 (o :: ts ++ [c])
  | array {o c ts} : o.tok = .LBRACK → c.tok = .RBRACK → Rfc strict .group ts → Rfc strict .type2 (o :: ts ++ [c])
  | unwrap {m t} : m.tok = .UNWRAP → IsId t → (strict = true → KnownTok t) → Rfc strict .type2 [m, t]
  | enumGroup {m o c ts} : m.tok = .AMPERSAND → o.tok = .LPAREN → c.tok = .RPAREN → Rfc strict .group ts →
      Rfc strict .type2 (m :: o :: ts ++ [c])
  | enumName {m t} : m.tok = .AMPERSAND → IsId t → (strict = true → KnownTok t) → Rfc strict .type2 [m, t]
  | tagged {h n o c ts} : h.tok = .HASH → IsTagNumber n → n.lit.head? = some 54 → o.tok = .LPAREN → c.tok = .RPAREN →
      Rfc strict .type ts → (strict = true → KnownTag n) → Rfc strict .type2 (h :: n :: o :: ts ++ [c])
  | tag {h n} : h.tok = .HASH → IsTagNumber n → (strict = true → KnownTag n) → Rfc strict .type2 [h, n]
  | hash {h} : h.tok = .HASH → Rfc strict .type2 [h]
  /-- `typename genericarg`, not in the parser -/
  | generic {t o c ts} : IsId t → o.tok = .LEFT_ANGLE_BRACKET → c.tok = .RIGHT_ANGLE_BRACKET → Rfc strict .args ts → strict = false →
      Rfc strict .type2 (t :: o :: ts ++ [c])
  | lastArg {ts} : Rfc strict .type1 ts → Rfc strict .args ts
  | moreArgs {ts us c} : Rfc strict .type1 ts → c.tok = .COMMA → Rfc strict .args us → Rfc strict .args (ts ++ c :: us)
  | plain {ts} : Rfc strict .type2 ts → Rfc strict .type1 ts
  | operator {ts us op} : Rfc strict .type2 ts → op.tok ∈ type1Ops → Rfc strict .type2 us → (strict = true → Fits op ts us) →
      Rfc strict .type1 (ts ++ op :: us)
  | last {ts} : Rfc strict .type1 ts → Rfc strict .type ts
  | choice {ts us op} : Rfc strict .type1 ts → op.tok = .TYPE_CHOICE → Rfc strict .type us → Rfc strict .type (ts ++ op :: us)
  /-- a type without a key, or the name of a group -/
  | keyless {ts} : Rfc strict .type ts → Rfc strict .member ts
  | inline {o c ts} : o.tok = .LPAREN → c.tok = .RPAREN → Rfc strict .group ts → Rfc strict .member (o :: ts ++ [c])
  | colon {k c ts} : IsId k ∨ IsValue k → c.tok = .COLON → Rfc strict .type ts → (strict = true → IsKey k ∧ KnownTok k) →
      Rfc strict .member (k :: c :: ts)
  | arrow {ks a ts} : Rfc strict .type1 ks → a.tok = .ARROW_MAP → Rfc strict .type ts → (strict = true → ∃ k, ks = [k] ∧ IsKey k ∧ KnownTok k) →
      Rfc strict .member (ks ++ a :: ts)
  | once {ts} : Rfc strict .member ts → Rfc strict .entry ts
  | optional {m ts} : m.tok = .OPTIONAL → Rfc strict .member ts → Rfc strict .entry (m :: ts)
  | oneOrMore {m ts} : m.tok = .ONE_OR_MORE → Rfc strict .member ts → (strict = true → ∀ f, ts.head? = some f → ¬ IsInt f) →
      Rfc strict .entry (m :: ts)
  | between {lo hi m ts} : (∀ t ∈ lo ++ hi, IsUint t) → lo.length ≤ 1 → hi.length ≤ 1 → m.tok = .ZERO_OR_MORE → Rfc strict .member ts →
      (strict = true → hi = [] ∧ (∀ t ∈ lo, KnownTok t) ∧ ∀ f, ts.head? = some f → ¬ IsInt f) →
      Rfc strict .entry (lo ++ m :: (hi ++ ts))
  | noMore : Rfc strict .grpchoice []
  | more {ts sep us} : Rfc strict .entry ts → sep = [] ∨ (∃ c, sep = [c] ∧ c.tok = .COMMA) → Rfc strict .grpchoice us →
      (strict = true → sep = [] → ∀ l nx, ts.getLast? = some l → us.head? = some nx → ¬ Clash l nx) →
      Rfc strict .grpchoice (ts ++ (sep ++ us))
  | lastGroup {ts} : Rfc strict .grpchoice ts → Rfc strict .group ts
  | groupChoice {ts us op} : Rfc strict .grpchoice ts → op.tok = .GROUP_CHOICE → Rfc strict .group us →
      (strict = true → (∃ l, ts.getLast? = some l ∧ l.tok ≠ .COMMA) ∧ ∃ f, us.head? = some f ∧ f.tok ≠ .GROUP_CHOICE) →
      Rfc strict .group (ts ++ op :: us)

/-- Further parameters of `genericparm`. -/
def MoreParams : List Token → Prop
  | [] => True
  | [_] => False
  | c :: t :: us => c.tok = .COMMA ∧ IsId t ∧ MoreParams us

/-- `genericparm`: names in angle brackets. -/
def Params (ps : List Token) : Prop :=
  ∃ o c t us, ps = o :: t :: us ++ [c] ∧ o.tok = .LEFT_ANGLE_BRACKET ∧ c.tok = .RIGHT_ANGLE_BRACKET ∧ IsId t ∧ MoreParams us

/-- A file: rules one after the other, with their signs and names. -/
inductive RfcFile (strict : Bool) : List Token → List (Tok × Bytes) → Prop
  | nil : RfcFile strict [] []
  | rule {n params a ts us rs s} : IsId n → params = [] ∨ strict = false ∧ Params params →
      a.tok = .ASSIGN ∧ (s = Sym.type ∨ s = .entry) ∨ a.tok = .TYPE_CHOICE_ASSIGN ∧ s = .type ∨ a.tok = .GROUP_CHOICE_ASSIGN ∧ s = .entry →
      Rfc strict s ts → (strict = true → n.tok = .IDENT) → RfcFile strict us rs →
      RfcFile strict (n :: params ++ a :: ts ++ us) ((a.tok, n.lit) :: rs)

/-- The names that are declared with `=`. -/
def assigned (rs : List (Tok × Bytes)) : List Bytes := (rs.filter (·.1 = .ASSIGN)).map (·.2)

/-- A name is used, that is, not as a key in front of a colon; the names of sockets do not count. -/
def Uses (ts : List Token) (k : Bytes) : Prop :=
  ∃ pre t u post, ts = pre ++ t :: u :: post ∧ t.tok = .IDENT ∧ u.tok ≠ .COLON ∧ t.lit.head? ≠ some 36 ∧ t.lit = k

/-- Diagnostics about names that are not declared, and about the ends of ranges. -/
def aboutNames : Msg → Bool
  | .noSuchIdent _ | .boundTypes .. | .expectedIntUpper | .expectedFloatUpper | .floatInIntRange | .intInFloatRange => true
  | _ => false

/-- The name of a rule. -/
def ruleName : Node → Option Bytes
  | .rule _ n _ _ => some n.name
  | _ => none

end Cddlc.Spec
