import Verif.Model.Token

namespace Cddlc

/-- The value of an `ast.FloatLiteral` (ast/float.go:26). Simplification: the exact decimal
`mant / 10^scale` that was written, not its rounding to `float64`. -/
structure FloatVal where
  mant : Nat
  scale : Nat
  deriving DecidableEq, Repr, Inhabited

/-- models ast/identifier.go:10-13 `type Identifier struct`. -/
structure Ident where
  pos : Pos
  name : Bytes
  deriving DecidableEq, Repr, Inhabited

/-- models ast/comment.go:8-11 `type Comment struct`. -/
structure Comment where
  pos : Pos
  text : Bytes
  deriving DecidableEq, Repr, Inhabited

/-- models ast/uint_literal.go:10-14 `type UintLiteral struct`. -/
structure UintLit where
  pos : Pos := {}
  tok : Tok := .ILLEGAL
  value : Nat
  deriving DecidableEq, Repr, Inhabited

/-- models ast/text.go:21-24 `type TstrType struct`. -/
structure Tstr where
  pos : Pos
  tok : Tok
  deriving DecidableEq, Repr, Inhabited

/-- The dynamic Go type of an `ast.Node` interface value (`none` for the nil interface).
The types are those that implement ast/node.go:8-14. -/
inductive NodeKind where
  | none
  | array | badNode | boolType | boolLit | bstr | bytes | cddl | comment | commentGroup | bits
  | comparator | regexp | size | entry | enumeration | floatType | floatLit | group | groupChoice
  | ident | intType | nintType | intLit | map | null | optional | nm | range | rule | tag
  | textLit | tstr | typeChoice | uintType | uintLit | unwrap
  deriving DecidableEq, Repr, Inhabited

/-- models the types of package `ast` (files array.go … unwrap.go in ast/). `nil` is the nil
interface; `typedNil k` is a non-nil interface holding a nil pointer of dynamic type `k` (Go
makes such values at parser/parser.go:291, 315 and 744). Simplification: `Rule.Name` and
`Entry.Name`, pointers in Go, are plain values because the parser always sets them
(parser/parser.go:141, 338-353) before a caller can see the node, except that a `Rule` without
name can never be returned (parser/parser.go:129 is unreachable: `parseComment` never fails). -/
inductive Node where
  | nil
  | typedNil (kind : NodeKind)
  /-- ast/array.go:7-10 -/
  | array (pos : Pos) (rules : List Node)
  /-- ast/bad_node.go:6-18 -/
  | badNode (pos : Pos) (tok : Tok) (base : Node) (endPos : Pos)
  /-- ast/boolean.go:6-9 -/
  | boolType (pos : Pos) (tok : Tok)
  /-- ast/boolean.go:19-22 -/
  | boolLit (range : PosRange) (b : Bool)
  /-- ast/bytes.go:6-9 -/
  | bstr (pos : Pos) (tok : Tok)
  /-- ast/bytes.go:12-15 -/
  | bytes (pos : Pos) (tok : Tok)
  /-- ast/cddl_root.go:10-13 -/
  | cddl (pos : Pos) (rules : List Node)
  /-- ast/comment.go:8-11 -/
  | comment (c : Comment)
  /-- ast/comment.go:25-27 -/
  | commentGroup (list : List Comment)
  /-- ast/control_bits.go:6-18 -/
  | bits (pos : Pos) (tok : Tok) (base constraint : Node)
  /-- ast/control_comparator.go:9-14 -/
  | comparator (pos : Pos) (tok : Tok) (operator : Bytes) (left right : Node)
  /-- ast/control_regexp.go:6-11 -/
  | regexp (pos : Pos) (tok : Tok) (base : Tstr) (regex : Node)
  /-- ast/control_size.go:6-18 -/
  | size (pos : Pos) (tok : Tok) (size type : Node)
  /-- ast/entry.go:7-12 -/
  | entry (pos : Pos) (name : Ident) (value : Node) (trailing : Option Comment)
  /-- ast/enumeration.go:5-9 -/
  | enumeration (pos : Pos) (tok : Tok) (value : Node)
  /-- ast/float.go:8-12; `Base` is never set by the parser -/
  | floatType (pos : Pos) (tok : Tok)
  /-- ast/float.go:23-27 -/
  | floatLit (range : PosRange) (tok : Tok) (value : FloatVal)
  /-- ast/group.go:10-13 -/
  | group (pos : Pos) (entries : List Node)
  /-- ast/groupchoice.go:5-9; never built by the parser -/
  | groupChoice (pos : Pos) (tok : Tok) (first second : Node)
  /-- ast/identifier.go:10-13 -/
  | ident (i : Ident)
  /-- ast/integer.go:10-13 -/
  | intType (pos : Pos) (tok : Tok)
  /-- ast/integer.go:23-26 -/
  | nintType (pos : Pos) (tok : Tok)
  /-- ast/integer.go:37-41 -/
  | intLit (pos : Pos) (tok : Tok) (value : Int)
  /-- ast/map.go:5-9; `Token` is never set by the parser -/
  | map (pos : Pos) (rules : List Node)
  /-- ast/null.go:6-9 -/
  | null (pos : Pos) (tok : Tok)
  /-- ast/occurrence.go:6-10 -/
  | optional (pos : Pos) (tok : Tok) (item : Node)
  /-- ast/occurrence.go:22-27 -/
  | nm (pos : Pos) (tok : Tok) (n m : Option UintLit) (item : Node)
  /-- ast/range.go:6-10 -/
  | range (pos : Pos) (tok : Tok) (lo hi : Node)
  /-- ast/rule.go:7-12; `Pos` is never set by the parser -/
  | rule (pos : Pos) (name : Ident) (value : Node) (trailing : Option Comment)
  /-- ast/tag.go:5-10 -/
  | tag (pos : Pos) (tok : Tok) (major number : Option UintLit) (item : Node)
  /-- ast/text.go:6-10 -/
  | textLit (pos : Pos) (tok : Tok) (lit : Bytes)
  /-- ast/text.go:21-24 -/
  | tstr (t : Tstr)
  /-- ast/typechoice.go:6-10 -/
  | typeChoice (pos : Pos) (tok : Tok) (first second : Node)
  /-- ast/uint.go:6-9 -/
  | uintType (range : PosRange) (tok : Tok)
  /-- ast/uint_literal.go:10-14 -/
  | uintLit (u : UintLit)
  /-- ast/unwrap.go:5-9 -/
  | unwrap (pos : Pos) (tok : Tok) (item : Node)
  deriving Inhabited, Repr

namespace Node

/-- The dynamic type, what Go's type switches and `reflect.TypeOf` observe.
Used at parser/parser.go:839, ast/astutils/walk.go:18 and transforms/codegen/golang/gen_grouped.go:227-269. -/
def kind : Node → NodeKind
  | .nil => .none
  | .typedNil k => k
  | .array .. => .array
  | .badNode .. => .badNode
  | .boolType .. => .boolType
  | .boolLit .. => .boolLit
  | .bstr .. => .bstr
  | .bytes .. => .bytes
  | .cddl .. => .cddl
  | .comment .. => .comment
  | .commentGroup .. => .commentGroup
  | .bits .. => .bits
  | .comparator .. => .comparator
  | .regexp .. => .regexp
  | .size .. => .size
  | .entry .. => .entry
  | .enumeration .. => .enumeration
  | .floatType .. => .floatType
  | .floatLit .. => .floatLit
  | .group .. => .group
  | .groupChoice .. => .groupChoice
  | .ident .. => .ident
  | .intType .. => .intType
  | .nintType .. => .nintType
  | .intLit .. => .intLit
  | .map .. => .map
  | .null .. => .null
  | .optional .. => .optional
  | .nm .. => .nm
  | .range .. => .range
  | .rule .. => .rule
  | .tag .. => .tag
  | .textLit .. => .textLit
  | .tstr .. => .tstr
  | .typeChoice .. => .typeChoice
  | .uintType .. => .uintType
  | .uintLit .. => .uintLit
  | .unwrap .. => .unwrap

/-- `n != nil` for an interface value. Tested at parser/parser.go:87-96 and ast/astutils/walk.go:43-182. -/
def isNil : Node → Bool
  | .nil => true
  | _ => false

end Node

/-- models the method sets: the dynamic types implementing `ast.GroupEntry`
(ast/comment.go:22, 55; entry.go:21; enumeration.go:18; group.go:26; identifier.go:40;
occurrence.go:20, 37; range.go:23). -/
def NodeKind.isGroupEntry : NodeKind → Bool
  | .comment | .commentGroup | .entry | .enumeration | .group | .ident | .optional | .nm
  | .range => true
  | _ => false

/-- models ast/comment.go:17-19. -/
def Comment.stop (c : Comment) : Pos := c.pos.to c.text.length

/-- models ast/identifier.go:23-25. -/
def Ident.stop (i : Ident) : Pos := i.pos.to i.name.length

/-- models ast/uint_literal.go:20-22. -/
def UintLit.stop (u : UintLit) : Pos := u.pos.to (decNat u.value).length

/-- models ast/identifier.go:34-39 `IsPlug`. -/
def Ident.isPlug (i : Ident) : Bool :=
  match i.name with
  | 36 :: 36 :: _ => true
  | _ => false

/-- models ast/identifier.go:27-32 `IsSocket`. -/
def Ident.isSocket (i : Ident) : Bool :=
  match i.name with
  | [] => false
  | c :: _ => c = 36 && !i.isPlug

namespace Node

/-- `token.Position{Offset: -1}`, the end of an empty list (e.g. ast/array.go:18). -/
def emptyEnd : Pos := { offset := -1 }

/-- models the `Start` methods of package `ast` (array.go:12, bad_node.go:21, boolean.go:11, 24,
bytes.go:17, 25, cddl_root.go:24, comment.go:13, 40, control_bits.go:20,
control_comparator.go:16, control_regexp.go:13, control_size.go:21, entry.go:14,
enumeration.go:11, float.go:14, 29, group.go:15, groupchoice.go:11, identifier.go:19,
integer.go:15, 28, 43, map.go:11, null.go:11, occurrence.go:12, 29, range.go:13, rule.go:14,
tag.go:12, text.go:12, 26, typechoice.go:12, uint.go:11, uint_literal.go:16, unwrap.go:11).
A method call on a nil interface, or a field of a nil pointer, panics. -/
def start : Node → Out Pos
  | .nil => .panic .nilDeref
  | .typedNil _ => .panic .nilDeref
  | .array pos _ => .ok pos
  | .badNode _ _ base _ => base.start
  | .boolType pos _ => .ok pos
  | .boolLit r _ => .ok r.start
  | .bstr pos _ => .ok pos
  | .bytes pos _ => .ok pos
  | .cddl pos _ => .ok pos
  | .comment c => .ok c.pos
  | .commentGroup [] => .ok emptyEnd
  | .commentGroup (c :: _) => .ok c.pos
  | .bits _ _ base _ => base.start
  | .comparator _ _ _ left _ => left.start
  | .regexp _ _ base _ => .ok base.pos
  | .size _ _ _ type => type.start
  | .entry _ name _ _ => .ok name.pos
  | .enumeration pos _ _ => .ok pos
  | .floatType pos _ => .ok pos
  | .floatLit r _ _ => .ok r.start
  | .group pos _ => .ok pos
  | .groupChoice _ _ first _ => first.start
  | .ident i => .ok i.pos
  | .intType pos _ => .ok pos
  | .nintType pos _ => .ok pos
  | .intLit pos _ _ => .ok pos
  | .map pos _ => .ok pos
  | .null pos _ => .ok pos
  | .optional pos _ _ => .ok pos
  | .nm _ _ (some n) _ _ => .ok n.pos
  | .nm _ _ none _ _ => .panic .nilDeref
  | .range _ _ lo _ => lo.start
  | .rule _ name _ _ => .ok name.pos
  | .tag pos _ _ _ _ => .ok pos
  | .textLit pos _ _ => .ok pos
  | .tstr t => .ok t.pos
  | .typeChoice _ _ first _ => first.start
  | .uintType r _ => .ok r.start
  | .uintLit u => .ok u.pos
  | .unwrap pos _ _ => .ok pos

mutual
/-- models the `End` methods of package `ast` (array.go:16, bad_node.go:26, boolean.go:15, 28,
bytes.go:21, 29, cddl_root.go:28, comment.go:17, 47, control_bits.go:24,
control_comparator.go:20, control_regexp.go:17, control_size.go:26, entry.go:17,
enumeration.go:14, float.go:18, 33, group.go:19, groupchoice.go:15, identifier.go:23,
integer.go:19, 32, 47, map.go:15, null.go:15, occurrence.go:16, 33, range.go:18, rule.go:17,
tag.go:16, text.go:16, 30, typechoice.go:16, uint.go:15, uint_literal.go:20, unwrap.go:15). -/
def stop : Node → Out Pos
  | .nil => .panic .nilDeref
  | .typedNil _ => .panic .nilDeref
  | .array _ rules => stopLast rules
  | .badNode _ _ _ e => .ok e
  | .boolType pos _ => .ok (pos.to 4)
  | .boolLit r _ => .ok r.stop
  | .bstr pos _ => .ok (pos.to 5)
  | .bytes pos _ => .ok (pos.to 5)
  | .cddl _ rules => stopLast rules
  | .comment c => .ok c.stop
  | .commentGroup list =>
    match list.getLast? with
    | none => .ok emptyEnd
    | some c => .ok c.stop
  | .bits _ _ _ c => c.stop
  | .comparator _ _ _ _ right => right.stop
  | .regexp _ _ _ regex => regex.stop
  | .size _ _ sz _ => sz.stop
  | .entry _ _ value _ => value.stop
  | .enumeration _ _ value => value.stop
  | .floatType pos _ => .ok (pos.to 5)
  | .floatLit r _ _ => .ok r.stop
  | .group _ entries => stopLast entries
  | .groupChoice _ _ _ second => second.stop
  | .ident i => .ok i.stop
  | .intType pos _ => .ok (pos.to 3)
  | .nintType pos _ => .ok (pos.to 4)
  | .intLit pos _ v => .ok (pos.to (decInt v).length)
  | .map _ rules => stopLast rules
  | .null pos _ => .ok (pos.to 4)
  | .optional _ _ item => item.stop
  | .nm _ _ _ (some m) _ => .ok m.stop
  | .nm _ _ _ none _ => .panic .nilDeref
  | .range _ _ _ hi => hi.stop
  | .rule _ _ value _ => value.stop
  | .tag _ _ _ _ item =>
    match item.stop with
    | .ok p => .ok (p.to 1)
    | .panic w => .panic w
    | .hang => .hang
  | .textLit pos _ lit => .ok (pos.to lit.length)
  | .tstr t => .ok (t.pos.to 4)
  | .typeChoice _ _ _ second => second.stop
  | .uintType r _ => .ok r.stop
  | .uintLit u => .ok u.stop
  | .unwrap _ _ item => item.stop
/-- `list[len(list)-1].End()`, or the empty end.
For ast/array.go:16-21, ast/group.go:19-24, ast/map.go:15-20 and ast/cddl_root.go:28-33. -/
def stopLast : List Node → Out Pos
  | [] => .ok emptyEnd
  | [n] => n.stop
  | _ :: m :: ns => stopLast (m :: ns)
end

end Node
end Cddlc
