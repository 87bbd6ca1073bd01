import Verif.Model.Token
import Verif.Model.Utf8

namespace Cddlc

/-- models lexer/lexer.go:25-28 `type Error struct`; only `Pos.Offset` is ever set
(lexer/lexer.go:387). -/
structure LexError where
  pos : Pos
  msg : Bytes
  deriving DecidableEq, Repr

/-- models lexer/lexer.go:30-38 `type Lexer struct`. The slice `lineOffsets` is never empty
(lexer/lexer.go:61) and only appended to; it is represented by its last element `lineLast`
and the earlier elements `linePrev`, newest first. -/
structure Lexer where
  src : Bytes
  chr : Int
  offset : Nat
  rdOffset : Nat
  errCount : Nat
  errors : List LexError
  lineLast : Int
  linePrev : List Int
  deriving DecidableEq, Repr

namespace Lexer

/-- models lexer/lexer.go:198-210 `func (l *Lexer) next()`. On U+FFFD (or a malformed
sequence, which decodes to it) nothing changes. At the end of the input only `chr` changes. -/
def next (l : Lexer) : Lexer :=
  if l.src.length ≤ l.rdOffset then { l with chr := -1 }
  else
    let d := decodeRune (l.src.drop l.rdOffset)
    if d.1 = runeError then l
    else { l with chr := (d.1 : Int), offset := l.rdOffset, rdOffset := l.rdOffset + d.2 }

/-- models lexer/lexer.go:221-226 `func (l *Lexer) peek() byte`. -/
def peek (l : Lexer) : UInt8 :=
  match l.src[l.rdOffset]? with
  | some b => b
  | none => 0

/-- models lexer/lexer.go:40-49 `addLineOffset`. -/
def addLineOffset (l : Lexer) (off : Int) : Lexer :=
  if off < l.lineLast then l
  else { l with lineLast := off, linePrev := l.lineLast :: l.linePrev }

/-- models lexer/lexer.go:386-389 `func (l *Lexer) error(offset int, message string)`. -/
def error (l : Lexer) (off : Nat) (msg : Bytes) : Lexer :=
  { l with errors := l.errors ++ [{ pos := { offset := off }, msg := msg }],
           errCount := l.errCount + 1 }

/-- models lexer/lexer.go:52-66 `func NewLexer(src []byte) *Lexer` (contents only; see
`GoSlice` in Model/Slice.lean for the aliasing of `append`). The rune field starts at 0. -/
def new (src : Bytes) : Lexer :=
  next { src := src ++ [32], chr := 0, offset := 0, rdOffset := 0, errCount := 0, errors := [],
         lineLast := -1, linePrev := [] }

/-- A Go loop `for cond { body }` with fuel; running out of fuel is `hang`.
For the loops at lexer/lexer.go:213, 233, 242, 252, 286, 297, 305, 313. -/
def whileOut {σ : Type} (cond : σ → Bool) (body : σ → σ) : Nat → σ → Out σ
  | 0, _ => .hang
  | n + 1, s => if cond s then whileOut cond body n (body s) else .ok s

/-- Fuel given to the loops of the lexer: one more than the number of iterations that can
make progress (adequacy: `Verif.Lemmas.Lexer`). For the loops at lexer/lexer.go:213-322. -/
def fuel (l : Lexer) : Nat := (l.src.length - l.rdOffset) + 2

/-- A Go slice expression `s[lo:hi]`, with its bounds check. (Go checks `hi` against the
capacity; all uses have `hi ≤ len` whenever `lo ≤ hi`.). At lexer/lexer.go:236, 246, 256, 292, 300, 308, 316, 334. -/
def slice (s : Bytes) (lo hi : Int) : Out Bytes :=
  if 0 ≤ lo ∧ lo ≤ hi ∧ hi ≤ s.length then
    .ok ((s.drop lo.toNat).take (hi.toNat - lo.toNat))
  else .panic .sliceBounds

/-- models lexer/lexer.go:337-342 `isLetter`. -/
def isLetter (x : Int) : Bool := (65 ≤ x && x ≤ 90) || (97 ≤ x && x ≤ 122)

/-- models lexer/lexer.go:365-370 `isDigit`. -/
def isDigit (x : Int) : Bool := 48 ≤ x && x ≤ 57

/-- models lexer/lexer.go:344-349 `isHex`. -/
def isHex (x : Int) : Bool := isDigit x || (65 ≤ x && x ≤ 70) || (97 ≤ x && x ≤ 102)

/-- models lexer/lexer.go:351-356 `isOctal`. -/
def isOctal (x : Int) : Bool := 48 ≤ x && x ≤ 55

/-- models lexer/lexer.go:358-363 `isBinary`. -/
def isBinary (x : Int) : Bool := x = 48 || x = 49

/-- models lexer/lexer.go:372-377 `isIdentiferStart`: A–Z a–z `@` `_` `$`. -/
def isIdentStart (x : Int) : Bool :=
  (65 ≤ x && x ≤ 90) || (97 ≤ x && x ≤ 122) || x = 64 || x = 95 || x = 36

/-- models lexer/lexer.go:379-384 `isIdentifierBodyChar`: also digits, `-` and `.`. -/
def isIdentBody (x : Int) : Bool := isIdentStart x || isDigit x || x = 45 || x = 46

/-- models lexer/lexer.go:391-396 `isxboDigitStart`: `x`, `b` or `o`. -/
def isXbo (x : Int) : Bool := x = 120 || x = 98 || x = 111

/-- The loop condition of lexer/lexer.go:213: space, CR, LF or TAB. -/
def isSpace (x : Int) : Bool := x = 32 || x = 13 || x = 10 || x = 9

/-- models lexer/lexer.go:212-219 `skipWhitespace`. -/
def skipWhitespace (l : Lexer) : Out Lexer :=
  whileOut (fun l => isSpace l.chr)
    (fun l => (if l.chr = 10 then l.addLineOffset l.offset else l).next) l.fuel l

/-- Scan while `p` holds of the current rune, then return the bytes read
(the common shape of lexer/lexer.go:228-257 and 295-317). -/
def scanWhile (p : Int → Bool) (l : Lexer) : Out (Bytes × Lexer) := do
  let l' ← whileOut (fun l => p l.chr) next l.fuel l
  let lit ← slice l'.src l.offset l'.offset
  .ok (lit, l')

/-- models lexer/lexer.go:228-237 `scanComment`. -/
def scanComment (l : Lexer) : Out (Bytes × Lexer) :=
  scanWhile (fun c => 0 ≤ c && c ≠ 10) l

/-- models lexer/lexer.go:239-247 `scanIdentifier`. -/
def scanIdentifier (l : Lexer) : Out (Bytes × Lexer) := scanWhile isIdentBody l

/-- models lexer/lexer.go:249-257 `scanControlOp`. -/
def scanControlOp (l : Lexer) : Out (Bytes × Lexer) := scanWhile isLetter l

/-- models lexer/lexer.go:295-301, 303-309, 311-317 `scanHexDigits`, `scanBinaryDigits`,
`scanOctalDigits`. -/
def scanRadix (pre : Bytes) (p : Int → Bool) (l : Lexer) : Out (Tok × Bytes × Lexer) := do
  let (ds, l') ← scanWhile p l
  .ok (.INT, pre ++ ds, l')

/-- models lexer/lexer.go:286-292, the decimal part of `scanNumber`; `pre` is `offsetPre`. -/
def scanDecimal [Unicode] (pre : Nat) (l : Lexer) : Out (Tok × Bytes × Lexer) := do
  let (l', tok) ← whileOut
    (fun s : Lexer × Tok =>
      uniIsDigit s.1.chr || (s.1.chr = 46 && uniIsDigit (s.1.peek.toNat : Int)))
    (fun s : Lexer × Tok =>
      let l := s.1.next
      (l, if l.chr = 46 && l.peek ≠ 46 then Tok.FLOAT else s.2))
    l.fuel (l, Tok.INT)
  let lit ← slice l'.src pre l'.offset
  .ok (tok, lit, l')

/-- models lexer/lexer.go:259-293 `scanNumber`. `unicode.ToLower(l.chr)` at line 268 is the
identity here because `isxboDigitStart` only admits lower-case letters; if the second `next`
were to get stuck the `switch` would match nothing and the decimal loop would run. -/
def scanNumber [Unicode] (l : Lexer) : Out (Tok × Bytes × Lexer) :=
  if l.chr = 48 && isXbo (l.peek.toNat : Int) then
    let l1 := l.next
    if l1.chr = 120 then scanRadix b!"0x" isHex l1.next
    else if l1.chr = 98 then scanRadix b!"0b" isBinary l1.next
    else if l1.chr = 111 then scanRadix b!"0o" isOctal l1.next
    else scanDecimal l.offset l1
  else scanDecimal l.offset l

/-- The message of lexer/lexer.go:324. -/
def unterminatedMsg : Bytes := b!"unexpected newline character before string termination"

/-- models lexer/lexer.go:319-335 `scanString`. The Go loop
`for { if end {error; break}; if quote {next; break}; next }` is a search for the first end or
quote followed by that case's action. -/
def scanString (l : Lexer) : Out (Bytes × Lexer) := do
  let l' ← whileOut (fun l => !(l.chr < 0 || l.chr = 10) && l.chr ≠ 34) next l.fuel l
  let l'' := if l'.chr < 0 || l'.chr = 10 then l'.error l'.offset unterminatedMsg else l'.next
  let lit ← slice l''.src l.offset ((l''.offset : Int) - 1)
  .ok (lit, l'')

/-- models lexer/lexer.go:86-184, the `default` branch of `Scan`: `chr` is the first rune and
`l` the lexer after consuming it. The zero value of `tok` is `ILLEGAL`. -/
def scanOther [Unicode] (chr : Int) (l : Lexer) : Out (Tok × Bytes × Lexer) :=
  let lit := encodeRune chr
  if chr = 45 then .ok (.MINUS, lit, l)
  else if chr = 63 then .ok (.OPTIONAL, lit, l)
  else if chr = 59 then do
    let (c, l') ← l.scanComment
    .ok (.COMMENT, c, l')
  else if chr = 58 then .ok (.COLON, lit, l)
  else if chr = 40 then .ok (.LPAREN, lit, l)
  else if chr = 41 then .ok (.RPAREN, lit, l)
  else if chr = 123 then .ok (.LBRACE, lit, l)
  else if chr = 125 then .ok (.RBRACE, lit, l)
  else if chr = 91 then .ok (.LBRACK, lit, l)
  else if chr = 93 then .ok (.RBRACK, lit, l)
  else if chr = 43 then .ok (.ONE_OR_MORE, lit, l)
  else if chr = 42 then .ok (.ZERO_OR_MORE, lit, l)
  else if chr = 60 then .ok (.LEFT_ANGLE_BRACKET, lit, l)
  else if chr = 62 then .ok (.RIGHT_ANGLE_BRACKET, lit, l)
  else if chr = 35 then .ok (.HASH, lit, l)
  else if chr = 126 then .ok (.UNWRAP, lit, l)
  else if chr = 61 then
    if l.chr = 62 then .ok (.ARROW_MAP, b!"=>", l.next) else .ok (.ASSIGN, lit, l)
  else if chr = 44 then .ok (.COMMA, lit, l)
  else if chr = 38 then .ok (.AMPERSAND, lit, l)
  else if chr = 47 then
    if l.chr = 61 then .ok (.TYPE_CHOICE_ASSIGN, b!"/=", l.next)
    else if l.chr = 47 ∧ l.peek = 61 then .ok (.GROUP_CHOICE_ASSIGN, b!"//=", l.next.next)
    else if l.chr = 47 then .ok (.GROUP_CHOICE, b!"//", l.next)
    else .ok (.TYPE_CHOICE, lit, l)
  else if chr = 46 then
    if l.chr = 46 ∧ l.peek = 46 then .ok (.EXCLUSIVE_BOUND, b!"...", l.next.next)
    else if l.chr = 46 then .ok (.INCLUSIVE_BOUND, b!"..", l.next)
    else if uniIsLetter l.chr then do
      let (cop, l') ← l.scanControlOp
      .ok (lookup (lit ++ cop), lit ++ cop, l')
    else .ok (.PERIOD, lit, l)
  else if chr = 34 then do
    let (s, l') ← l.scanString
    .ok (.TEXT_LITERAL, s, l')
  else if chr = -1 then .ok (.EOF, [], l)
  else .ok (.ILLEGAL, lit, l)

/-- models lexer/lexer.go:73-185, the token switch of `Scan` (after `skipWhitespace`). -/
def scanTok [Unicode] (l : Lexer) : Out (Tok × Bytes × Lexer) :=
  if isIdentStart l.chr then do
    let (lit, l') ← l.scanIdentifier
    .ok (if lit.length > 2 then lookup lit else .IDENT, lit, l')
  else if isDigit l.chr then l.scanNumber
  else scanOther l.chr l.next

/-- models lexer/lexer.go:69-196 `func (l *Lexer) Scan() (tok, pos, lit)`. -/
def scan [Unicode] (l : Lexer) : Out (Tok × Pos × Bytes × Lexer) := do
  let l0 ← l.skipWhitespace
  let (tok, lit, l') ← l0.scanTok
  let pos : Pos := { offset := l0.offset, line := (l'.linePrev.length : Int) + 1,
                     column := (l0.offset : Int) - l'.lineLast }
  .ok (tok, pos, lit, l')

end Lexer
end Cddlc
