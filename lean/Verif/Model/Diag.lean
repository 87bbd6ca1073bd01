import Verif.Model.Parser
import Verif.Model.Json

/-!
Diagnostics and how the command line prints them: parser/diagnostic.go and
cmd/cddlc/commands.go. Printing is modelled for any text of messages `text : Msg → Bytes`; the texts
of the parser are `Msg.text`. Two things in them are parameters: how `strconv.Quote` quotes a
number, and how `%+v` prints the value of a name (which goes through reflection).
-/

namespace Cddlc

/-- `strings.Join(ss, ", ")`. Called at parser/parser.go:952. -/
def joinComma : List Bytes → Bytes
  | [] => []
  | [s] => s
  | s :: rest => s ++ b!", " ++ joinComma rest

/-- The texts of `strconv.ErrSyntax` and `strconv.ErrRange`.
For the errors of parser/parser.go:278, 300, 429, 485, 490, 608. -/
def NumErr.text : NumErr → Bytes
  | .syntax => b!"invalid syntax"
  | .range => b!"value out of range"

/-- The texts of the messages; the lines are given at the constructors of `Msg`. `quote` is
`strconv.Quote`, `value` is the value of a name as printed by `%+v`. For parser/diagnostic.go:24-26. -/
def Msg.text (quote value : Bytes → Bytes) : Msg → Bytes
  | .tokenExpected tok pos =>
    b!"expected " ++ tok.string ++ b!" at line " ++ decInt pos.line ++ b!", column " ++ decInt pos.column
  | .unexpectedPrefix tok pos =>
    b!"unexpected token " ++ tok.string ++ b!" at line " ++ decInt pos.line ++ b!", column " ++ decInt pos.column
  | .noSuchIdent name => b!"identifier " ++ name ++ b!" referenced does not exist"
  | .unexpectedLiteral lit => b!"unexpected literal " ++ lit
  | .expectedUintLit => b!"expected uint literal"
  | .expectedIntLit => b!"expected integer literal"
  | .expectedAssign name => b!"expected assigment operators =, /= or //= after identifer `" ++ name ++ b!"`"
  | .existing name line column =>
    b!"existing declaration for identifier " ++ name ++ b!" at line " ++ decInt line ++ b!", column " ++ decInt column
  | .unsupported operator supported =>
    b!"operator " ++ operator ++ b!" only supports tokens " ++ joinComma (supported.map Tok.string)
  | .tagMajor => b!"failed to parse tag major"
  | .invalidTag lit => b!"invalid tag " ++ lit
  | .tagNumber lit err => b!"strconv.ParseUint: parsing " ++ quote lit ++ b!": " ++ err.text
  | .negativeLower v tok =>
    b!"Lower bound " ++ decInt v ++ b!" to occurrence operator " ++ tok.string ++ b!" should not be less than zero"
  | .lowerType tok => b!"unexpected lower bound type for operator " ++ tok.string ++ b!", should be uint"
  | .floatInIntRange => b!"cannot use float literal as upper bound to int range"
  | .intInFloatRange => b!"cannot use integer literal as upper bound to float range"
  | .expectedIntUpper => b!"expected integer upper bound"
  | .expectedFloatUpper => b!"expected float upper bound"
  | .boundTypes tok left right _ _ =>
    b!"operator " ++ tok.string ++ b!" expected same type min, max values. The values of " ++ left ++ b!" and " ++
      right ++ b!" resolve to " ++ value left ++ b!" and " ++ value right

/-- models token/position.go:48-58 `func (ps *PositionRange) String() string`. -/
def rangeString (start stop : Pos) : Bytes :=
  let trail := if start.line ≠ stop.line
    then b!" to line " ++ decInt stop.line ++ b!", column " ++ decInt stop.column
    else b!" ~ " ++ decInt stop.column
  b!"line " ++ decInt start.line ++ b!", column " ++ decInt start.column ++ trail

/-- models parser/diagnostic.go:24-26 and 44-46, `String` and `Error` of an `Error`. -/
def Diag.string (text : Msg → Bytes) (d : Diag) : Bytes := b!"parser error: " ++ text d.msg

/-- models parser/diagnostic.go:29-31 `func (e *Error) Diagnostic() string`. -/
def Diag.diagnostic (text : Msg → Bytes) (d : Diag) : Bytes :=
  d.string text ++ b!" at " ++ rangeString d.start d.stop

/-- models parser/diagnostic.go:64-71 `func (er ErrorList) String() string`; `Error` (73-75) and
`Diagnostic` (92-94) are the same. -/
def errorListString (text : Msg → Bytes) (er : List Diag) : Bytes :=
  er.foldl (fun out d => out ++ (d.string text ++ b!"\n")) []

/-- models parser/diagnostic.go:77-82 `func (er ErrorList) Start() token.Position`. -/
def errorListStart (er : List Diag) : Pos :=
  match er with
  | [] => {}
  | d :: _ => d.start

/-- models parser/diagnostic.go:84-90 `func (er ErrorList) End() token.Position`. -/
def errorListStop (er : List Diag) : Pos :=
  match er.getLast? with
  | none => {}
  | some d => d.stop

/-- models `bytes.Split(src, []byte{'\n'})`: the pieces between the newlines.
Called at cmd/cddlc/commands.go:111 and cmd/cddlc/commands/generate.go:160. -/
def splitLines : Bytes → List Bytes
  | [] => [[]]
  | c :: s =>
    if c = 10 then [] :: splitLines s
    else match splitLines s with
      | [] => [[c]]
      | line :: rest => (c :: line) :: rest

/-- models `fmt.Sprintf("%*s", width, "˜")`: spaces on the left, the width counted in runes.
Called at cmd/cddlc/commands.go:122. -/
def caret (width : Int) : Bytes := List.replicate (width - 1).toNat 32 ++ b!"˜"

/-- models cmd/cddlc/commands.go:117, the prefix of the quoted line. -/
def linePrefix (line : Int) : Bytes := b!"    " ++ decInt line ++ b!" | "

/-- The body of the loop of cmd/cddlc/commands.go:114-123: the block printed for one diagnostic, if
any. -/
def errorBlock (text : Msg → Bytes) (lines : List Bytes) (d : Diag) : Out (List Bytes) :=
  if d.start.line ≤ lines.length then
    if d.start.line - 1 < 0 then .panic .index
    else match lines[(d.start.line - 1).toNat]? with
      | none => .panic .index
      | some line =>
        let lp := linePrefix d.start.line
        .ok [d.string text ++ b!"\n" ++ lp ++ line ++ b!"\n" ++ caret (d.start.column + lp.length)]
  else .ok []

/-- The loop of cmd/cddlc/commands.go:114-124. -/
def errorBlocks (text : Msg → Bytes) (lines : List Bytes) : List Diag → List Bytes → Out (List Bytes)
  | [], outs => .ok outs
  | d :: ds, outs => do
    let b ← errorBlock text lines d
    errorBlocks text lines ds (outs ++ b)

/-- models cmd/cddlc/commands.go:108-126 `errorStringer`. -/
def errorStringer (text : Msg → Bytes) (src : Bytes) (errs : List Diag) : Out (List Bytes) :=
  errorBlocks text (splitLines src) errs []

/-! ### Commands -/

/-- What a command did: what it wrote to standard output and standard error, and whether it
returned an error (the exit status is then not zero). For cmd/cddlc/commands.go:38-97. -/
structure CmdResult where
  stdout : List Bytes
  stderr : List Bytes
  err : Option Bytes

/-- One round of the loop of `LexerCmd`, cmd/cddlc/commands.go:50-59. -/
def lexStep [Unicode] (s : Lexer × Nat × List Bytes) :
    Out ((Lexer × Nat × List Bytes) ⊕ (Nat × List Bytes)) := do
  let (tok, pos, lit, l) ← s.1.scan
  let out := s.2.2 ++ [pos.string ++ b!": " ++ tok.string ++ b!" -> " ++ lit ++ b!"\n"]
  if tok = .EOF then .ok (.inr (s.2.1, out))
  else .ok (.inl (l, if tok = .ILLEGAL then s.2.1 + 1 else s.2.1, out))

/-- models cmd/cddlc/commands.go:38-65 `LexerCmd`, from the source on. -/
def lexCmd [Unicode] (n : Nat) (src : Bytes) : Out CmdResult := do
  let (illegals, out) ← loopOut lexStep n (Lexer.new src, 0, [])
  .ok ⟨out, [], if illegals > 0 then
    some (b!"found " ++ decInt illegals ++ b!" illegal characters") else none⟩

/-- What `cddlc parse` takes from the standard library: the texts of floating point numbers, whether
encoding/json writes backspace and form feed short (`jsonEscape`), and what the verb `%+v` makes of a
tree, which is not modelled. Called at cmd/cddlc/commands.go:89-91. -/
structure JsonLib where
  float : FloatVal → Bytes
  short : Bool
  plusV : Option (List Node) → Bytes

/-- models cmd/cddlc/commands.go:67-97 `ParseCmd`, from the source on. -/
def parseCmd [Unicode] (text : Msg → Bytes) (lib : JsonLib) (n : Nat) (src : Bytes) :
    Out CmdResult := do
  let res ← parseSource n src
  let errOut ← if res.errs.length > 0 then do
      let outs ← errorStringer text src res.errs
      .ok ([b!"\n"] ++ outs.map (· ++ b!"\n"))
    else .ok []
  match marshalIndent lib.short (cddlJson lib.float res.cddl) with
  | none => .ok ⟨[lib.plusV res.cddl], errOut, some b!"exceeded max depth"⟩
  | some b => .ok ⟨[b ++ b!"\n"], errOut, none⟩

end Cddlc
