import Verif.Model.Ast

/-! The tree printer of ast/astutils/print.go. The text `%f` gives for a float is a parameter. -/

namespace Cddlc

/-- models `fmt.Sprintf("%T", node)`: the dynamic type. Called at ast/astutils/print.go:40. -/
def NodeKind.goType : NodeKind → Bytes
  | .none => b!"<nil>"
  | .array => b!"*ast.Array"
  | .badNode => b!"*ast.BadNode"
  | .boolType => b!"*ast.BooleanType"
  | .boolLit => b!"*ast.BooleanLiteral"
  | .bstr => b!"*ast.BstrType"
  | .bytes => b!"*ast.BytesType"
  | .cddl => b!"*ast.CDDL"
  | .comment => b!"*ast.Comment"
  | .commentGroup => b!"*ast.CommentGroup"
  | .bits => b!"*ast.Bits"
  | .comparator => b!"*ast.ComparatorOpControl"
  | .regexp => b!"*ast.Regexp"
  | .size => b!"*ast.SizeOperatorControl"
  | .entry => b!"*ast.Entry"
  | .enumeration => b!"*ast.Enumeration"
  | .floatType => b!"*ast.FloatType"
  | .floatLit => b!"*ast.FloatLiteral"
  | .group => b!"*ast.Group"
  | .groupChoice => b!"*ast.GroupChoice"
  | .ident => b!"*ast.Identifier"
  | .intType => b!"*ast.IntegerType"
  | .nintType => b!"*ast.NegativeIntegerType"
  | .intLit => b!"*ast.IntegerLiteral"
  | .map => b!"*ast.Map"
  | .null => b!"*ast.NullType"
  | .optional => b!"*ast.Optional"
  | .nm => b!"*ast.NMOccurrence"
  | .range => b!"*ast.Range"
  | .rule => b!"*ast.Rule"
  | .tag => b!"*ast.Tag"
  | .textLit => b!"*ast.TextLiteral"
  | .tstr => b!"*ast.TstrType"
  | .typeChoice => b!"*ast.TypeChoice"
  | .uintType => b!"*ast.UintType"
  | .uintLit => b!"*ast.UintLiteral"
  | .unwrap => b!"*ast.Unwrap"

/-- models ast/astutils/print.go:13-16 `type printer struct`; `builder` is never used. Go's `uint`
is unbounded here. -/
structure Printer where
  level : Nat
  deriving DecidableEq, Repr

namespace Printer

/-- models ast/astutils/print.go:83-85 `formatPosition`. -/
def formatPosition (pos : Pos) : Bytes :=
  b!"{ Column: " ++ decInt pos.column ++ b!", Line: " ++ decInt pos.line ++ b!" }"

/-- models ast/astutils/print.go:87-89 `spaceLevel` with the tab of line 11. -/
def spaceLevel (p : Printer) : Bytes := List.replicate p.level 9

/-- models ast/astutils/print.go:47-49 `formatIdent`. -/
def formatIdent (i : Ident) : Bytes :=
  b!"Ident ( Name: '" ++ i.name ++ b!"' ) " ++ formatPosition i.pos

/-- models ast/astutils/print.go:56-58 `formatIntegerLiteral`. -/
def formatIntegerLiteral (pos : Pos) (v : Int) : Bytes :=
  b!"IntegerLiteral (Literal: '" ++ decInt v ++ b!"') " ++ formatPosition pos

/-- models ast/astutils/print.go:60-62 `formatFloatLiteral`. -/
def formatFloatLiteral (float : FloatVal → Bytes) (r : PosRange) (v : FloatVal) : Bytes :=
  b!"FloatLiteral ( Literal: '" ++ float v ++ b!"' ) " ++ formatPosition r.start

/-- models ast/astutils/print.go:64-66 `formatIntType`. -/
def formatIntType (pos : Pos) (tok : Tok) : Bytes :=
  b!"IntegerType ( Token: '" ++ tok.string ++ b!"' ) " ++ formatPosition pos

/-- models ast/astutils/print.go:68-70 `formatFloatType`. -/
def formatFloatType (pos : Pos) (tok : Tok) : Bytes :=
  b!"FloatType ( Token: '" ++ tok.string ++ b!"' ) " ++ formatPosition pos

/-- models ast/astutils/print.go:77-81 `formatGroup`. -/
def formatGroup (p : Printer) (pos : Pos) (entries : List Node) : Bytes :=
  let pre := p.spaceLevel
  let epre := pre ++ [9]
  b!"Group " ++ formatPosition pos ++ b!" (\n" ++ epre ++ b!"Entries: " ++ decNat entries.length ++
    b!"\n" ++ pre ++ b!")"

/-- models ast/astutils/print.go:18-45 `format`, with `formatTypeChoice` (51-54) and
`formatEnumeration` (72-75) in place. A nil pointer of a printed kind is dereferenced. -/
def format (float : FloatVal → Bytes) (node : Node) (p : Printer) : Out (Bytes × Printer) :=
  let p : Printer := { p with level := p.level + 1 }
  match node with
  | .ident i => .ok (formatIdent i, { p with level := p.level - 1 })
  | .typeChoice pos _ first second =>
    let pre := p.spaceLevel
    let fpos := formatPosition pos
    Out.bind (format float first p) fun (a, p) => Out.bind (format float second p) fun (b, p) =>
      .ok (b!"TypeChoice " ++ fpos ++ b!" (\n" ++ pre ++ b!"First  : " ++ a ++ b!", \n" ++ pre ++
        b!"Second : " ++ b ++ b!"\n)", { p with level := p.level - 1 })
  | .intLit pos _ v => .ok (formatIntegerLiteral pos v, { p with level := p.level - 1 })
  | .floatLit r _ v => .ok (formatFloatLiteral float r v, { p with level := p.level - 1 })
  | .intType pos tok => .ok (formatIntType pos tok, { p with level := p.level - 1 })
  | .floatType pos tok => .ok (formatFloatType pos tok, { p with level := p.level - 1 })
  | .enumeration pos _ value =>
    let pre := p.spaceLevel
    let fpos := formatPosition pos
    Out.bind (format float value p) fun (a, p) =>
      .ok (b!"Enumeration " ++ fpos ++ b!" (\n" ++ pre ++ b!"Value: " ++ a ++ b!"\n" ++ pre ++ b!")",
        { p with level := p.level - 1 })
  | .group pos entries => .ok (p.formatGroup pos entries, { p with level := p.level - 1 })
  | .typedNil k =>
    if k ∈ [.ident, .typeChoice, .intLit, .floatLit, .intType, .floatType, .enumeration, .group]
    then .panic .nilDeref
    else .ok (k.goType, { p with level := p.level - 1 })
  | n => .ok (n.kind.goType, { p with level := p.level - 1 })

end Printer

/-- models ast/astutils/print.go:100-107 `func Format(node ast.Node) string`; `Print` (91-98) writes
this and a newline to standard output. -/
def formatNode (float : FloatVal → Bytes) (node : Node) : Out Bytes :=
  Out.bind (Printer.format float node ⟨0⟩) fun (s, _) => .ok s

end Cddlc
