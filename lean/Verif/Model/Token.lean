import Verif.Model.Basic

namespace Cddlc

/-- models token/token.go:23-133, the `const ( ILLEGAL Token = iota ...)` block, in order.
The unexported markers are included because two of them influence behaviour
(`numeric_end` is inside the keyword range). Go's `Token` is an `int`; values outside this
block are not modelled. -/
inductive Tok where
  | ILLEGAL | EOF | COMMENT
  | literal_begin
  | IDENT
  | numeric_begin
  | INT | UINT | NINT
  | FLOAT | FLOAT16 | FLOAT32 | FLOAT64
  | numeric_end
  | TSTR | TEXT | TEXT_LITERAL
  | BYTES | BSTR
  | BOOL | TRUE | FALSE | NIL | NULL | ANY
  | literal_end
  | operator_begin
  | MINUS | LPAREN | LBRACK | LBRACE
  | RPAREN | RBRACK | RBRACE
  | COMMA | PERIOD | COLON
  | ASSIGN | ARROW_MAP | OPTIONAL | TYPE_CHOICE | GROUP_CHOICE
  | TYPE_CHOICE_ASSIGN | GROUP_CHOICE_ASSIGN | AMPERSAND | HASH
  | LEFT_ANGLE_BRACKET | RIGHT_ANGLE_BRACKET
  | INCLUSIVE_BOUND | EXCLUSIVE_BOUND
  | ZERO_OR_MORE | ONE_OR_MORE | UNWRAP
  | operator_end
  | control_operators_begin
  | SIZE | BITS | REGEXP | CBOR | CBORSEQ | WITHIN | AND
  | LT | LE | GT | GE | EQ | NE | DEFAULT
  | PLUS | CAT | DET | ABNF | ABNFB | FEATURE
  | control_operators_end
  | parser_specific_begin
  | UNEXPECTED | EOL
  | parser_specific_end
  deriving DecidableEq, Repr, Inhabited

/-- All tokens in declaration order (token/token.go:23-133). -/
def Tok.all : List Tok :=
  [.ILLEGAL, .EOF, .COMMENT, .literal_begin, .IDENT, .numeric_begin, .INT, .UINT, .NINT,
   .FLOAT, .FLOAT16, .FLOAT32, .FLOAT64, .numeric_end, .TSTR, .TEXT, .TEXT_LITERAL, .BYTES,
   .BSTR, .BOOL, .TRUE, .FALSE, .NIL, .NULL, .ANY, .literal_end, .operator_begin, .MINUS,
   .LPAREN, .LBRACK, .LBRACE, .RPAREN, .RBRACK, .RBRACE, .COMMA, .PERIOD, .COLON, .ASSIGN,
   .ARROW_MAP, .OPTIONAL, .TYPE_CHOICE, .GROUP_CHOICE, .TYPE_CHOICE_ASSIGN,
   .GROUP_CHOICE_ASSIGN, .AMPERSAND, .HASH, .LEFT_ANGLE_BRACKET, .RIGHT_ANGLE_BRACKET,
   .INCLUSIVE_BOUND, .EXCLUSIVE_BOUND, .ZERO_OR_MORE, .ONE_OR_MORE, .UNWRAP, .operator_end,
   .control_operators_begin, .SIZE, .BITS, .REGEXP, .CBOR, .CBORSEQ, .WITHIN, .AND, .LT, .LE,
   .GT, .GE, .EQ, .NE, .DEFAULT, .PLUS, .CAT, .DET, .ABNF, .ABNFB, .FEATURE,
   .control_operators_end, .parser_specific_begin, .UNEXPECTED, .EOL, .parser_specific_end]

/-- The numeric value of a token: its `iota` in token/token.go:23-133. -/
def Tok.val (t : Tok) : Nat := t.ctorIdx

/-- models token/token.go:140-239 `var tokens = [...]string{...}`; an entry absent from the
Go array literal is the empty string (`parser_specific_begin`, `parser_specific_end`). -/
def Tok.text : Tok → Bytes
  | .ILLEGAL => b!"ILLEGAL"
  | .EOF => b!"EOF"
  | .COMMENT => b!"COMMENT"
  | .IDENT => b!"IDENT"
  | .INT => b!"int"
  | .UINT => b!"uint"
  | .NINT => b!"nint"
  | .FLOAT => b!"float"
  | .FLOAT16 => b!"float16"
  | .FLOAT32 => b!"float32"
  | .FLOAT64 => b!"float64"
  | .TSTR => b!"tstr"
  | .TEXT => b!"text"
  | .TEXT_LITERAL => b!"text_literal"
  | .BYTES => b!"bytes"
  | .BSTR => b!"bstr"
  | .BOOL => b!"bool"
  | .TRUE => b!"true"
  | .FALSE => b!"false"
  | .NIL => b!"nil"
  | .NULL => b!"null"
  | .ANY => b!"any"
  | .MINUS => b!"-"
  | .LPAREN => b!"("
  | .LBRACK => b!"["
  | .LBRACE => b!"{"
  | .RPAREN => b!")"
  | .RBRACK => b!"]"
  | .RBRACE => b!"}"
  | .COMMA => b!","
  | .PERIOD => b!"."
  | .COLON => b!":"
  | .ASSIGN => b!"="
  | .ARROW_MAP => b!"=>"
  | .OPTIONAL => b!"?"
  | .TYPE_CHOICE => b!"/"
  | .GROUP_CHOICE => b!"//"
  | .TYPE_CHOICE_ASSIGN => b!"/="
  | .GROUP_CHOICE_ASSIGN => b!"//="
  | .AMPERSAND => b!"&"
  | .HASH => b!"#"
  | .LEFT_ANGLE_BRACKET => b!"<"
  | .RIGHT_ANGLE_BRACKET => b!">"
  | .INCLUSIVE_BOUND => b!".."
  | .EXCLUSIVE_BOUND => b!"..."
  | .ZERO_OR_MORE => b!"*"
  | .ONE_OR_MORE => b!"+"
  | .UNWRAP => b!"~"
  | .SIZE => b!".size"
  | .BITS => b!".bits"
  | .REGEXP => b!".regexp"
  | .CBOR => b!".cbor"
  | .CBORSEQ => b!".cborseq"
  | .WITHIN => b!".within"
  | .AND => b!".and"
  | .LT => b!".lt"
  | .LE => b!".le"
  | .GT => b!".gt"
  | .GE => b!".ge"
  | .EQ => b!".eq"
  | .NE => b!".ne"
  | .DEFAULT => b!".default"
  | .PLUS => b!".plus"
  | .CAT => b!".cat"
  | .DET => b!".det"
  | .ABNF => b!".abnf"
  | .ABNFB => b!".abnfb"
  | .FEATURE => b!".feature"
  | .UNEXPECTED => b!"UNEXPECTED"
  | .EOL => b!"EOL"
  | .numeric_begin => b!"INTERNAL_MARKER_numeric_begin"
  | .numeric_end => b!"INTERNAL_MARKER_numeric_end"
  | .literal_begin => b!"INTERNAL_MARKER_literal_begin"
  | .literal_end => b!"INTERNAL_MARKER_literal_end"
  | .operator_begin => b!"INTERNAL_MARKER_operator_begin"
  | .operator_end => b!"INTERNAL_MARKER_operator_end"
  | .control_operators_begin => b!"INTERNAL_MARKER_control_operators_begin"
  | .control_operators_end => b!"INTERNAL_MARKER_control_operators_end"
  | .parser_specific_begin => []
  | .parser_specific_end => []

/-- models token/token.go:241-250 `func (t Token) String() string`: the table entry, or the
decimal value when there is none. -/
def Tok.string (t : Tok) : Bytes :=
  if t.text = [] then decNat t.val else t.text

/-- models token/token.go:311-322 `func init()`: the `keywords` map, as the list of its
entries in insertion order (`INT .. literal_end` exclusive, then the control operators). -/
def keywords : List (Bytes × Tok) :=
  ((Tok.all.filter fun t => Tok.INT.val ≤ t.val ∧ t.val < Tok.literal_end.val) ++
   (Tok.all.filter fun t =>
      Tok.control_operators_begin.val + 1 ≤ t.val ∧ t.val < Tok.control_operators_end.val)).map
    fun t => (t.text, t)

/-- Map lookup in an association list of distinct keys.
For the maps of token/token.go:15 and environment/environment.go:15-17. -/
def assocFind (k : Bytes) : List (Bytes × α) → Option α
  | [] => none
  | (k', v) :: rest => if k' = k then some v else assocFind k rest

/-- models token/token.go:254-259 `func Lookup(str string) Token`. -/
def lookup (str : Bytes) : Tok :=
  match assocFind str keywords with
  | some t => t
  | none => .IDENT

/-- models token/token.go:303-305 `inRange`. -/
def Tok.inRange (x lower upper : Tok) : Bool := x.val > lower.val && x.val < upper.val

/-- models token/token.go:298-300 `func (t Token) IsControlOp() bool`. -/
def Tok.isControlOp (t : Tok) : Bool :=
  t.inRange .control_operators_begin .control_operators_end

/-- models token/token.go:307-309 `func (t Token) IsNumeric() bool`. -/
def Tok.isNumeric (t : Tok) : Bool := t.inRange .numeric_begin .numeric_end

/-- models token/token.go:262-285 `func (t Token) Precedence() int`. -/
def Tok.precedence (t : Tok) : Nat :=
  match t with
  | .EQ | .TYPE_CHOICE_ASSIGN | .GROUP_CHOICE_ASSIGN => 1
  | .GROUP_CHOICE => 2
  | .COMMA => 3
  | .ZERO_OR_MORE | .ONE_OR_MORE | .OPTIONAL => 4
  | .ARROW_MAP | .COLON => 5
  | .TYPE_CHOICE => 6
  | .INCLUSIVE_BOUND | .EXCLUSIVE_BOUND => 7
  | .AMPERSAND | .UNWRAP => 8
  | t => if t.isControlOp then 7 else 0

/-- models token/token.go:287-296 `func (t Token) IsLiteral(literal string) bool`. -/
def Tok.isLiteral (t : Tok) (literal : Bytes) : Bool :=
  match t with
  | .INT | .UINT | .NINT | .FLOAT | .FLOAT16 | .FLOAT32 | .FLOAT64 => literal ≠ t.text
  | .TEXT_LITERAL => true
  | _ => false

end Cddlc
