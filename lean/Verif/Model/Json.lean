import Verif.Model.Ast
import Verif.Model.Utf8

/-! What package encoding/json makes of a syntax tree (called at cmd/cddlc/commands.go:91) and of a
configuration (cmd/cddlc/commands/init.go:41-46). Only the encoder is modelled, as far as the types
of packages `ast`, `token` and `config` use it: they have no tags other than names, no embedded
fields, and no marshalling methods. -/

namespace Cddlc

mutual
/-- The values encoding/json writes. Numbers are given by their text; the fields of an object are
in the order of the struct. Part of `json.MarshalIndent`, called at cmd/cddlc/commands.go:89. -/
inductive JVal where
  | null
  | bool (b : Bool)
  | num (text : Bytes)
  | str (s : Bytes)
  | arr (xs : List JVal)
  | obj (fs : List JField)
/-- A field of an object. Part of `json.MarshalIndent`, called at cmd/cddlc/commands.go:89. -/
inductive JField where
  | mk (key : Bytes) (val : JVal)
end

/-! ### Trees -/

/-- The number an integer becomes. Part of `json.MarshalIndent`, called at cmd/cddlc/commands.go:89. -/
def JVal.int (v : Int) : JVal := .num (decInt v)

/-- models token/position.go:7-12. -/
def Pos.json (p : Pos) : JVal :=
  .obj [.mk b!"Filename" (.str p.file), .mk b!"Offset" (.int p.offset), .mk b!"Line" (.int p.line),
    .mk b!"Column" (.int p.column)]

/-- models token/position.go:44-46. -/
def PosRange.json (r : PosRange) : JVal :=
  .obj [.mk b!"Start" r.start.json, .mk b!"End" r.stop.json]

/-- models token/token.go:7: a token is a number. -/
def Tok.json (t : Tok) : JVal := .int t.val

/-- models ast/identifier.go:10-13. -/
def Ident.json (i : Ident) : JVal := .obj [.mk b!"Pos" i.pos.json, .mk b!"Name" (.str i.name)]

/-- models ast/comment.go:8-11. -/
def Comment.json (c : Comment) : JVal := .obj [.mk b!"Pos" c.pos.json, .mk b!"Text" (.str c.text)]

/-- A pointer to a comment. The type is at ast/comment.go:8. -/
def commentJson : Option Comment → JVal
  | none => .null
  | some c => c.json

/-- models ast/uint_literal.go:10-14. -/
def UintLit.json (u : UintLit) : JVal :=
  .obj [.mk b!"Pos" u.pos.json, .mk b!"Token" u.tok.json, .mk b!"Literal" (.int u.value)]

/-- A pointer to a number. The type is at ast/uint_literal.go:10. -/
def uintJson : Option UintLit → JVal
  | none => .null
  | some u => u.json

/-- models ast/text.go:21-24. -/
def Tstr.json (t : Tstr) : JVal := .obj [.mk b!"Pos" t.pos.json, .mk b!"Token" t.tok.json]

/-- A slice that was never assigned is `null`, unless something was appended to it.
Part of `json.MarshalIndent`, called at cmd/cddlc/commands.go:89. -/
def sliceJson : List JVal → JVal
  | [] => .null
  | x :: xs => .arr (x :: xs)

mutual
/-- What encoding/json writes for an `ast.Node`: the fields of the struct it points to (files array.go
… unwrap.go in ast/), `null` for a nil interface or pointer. `float` gives the text of a floating
point number. The parser leaves the slices of empty groups, arrays and maps nil; the one of the tree
itself is not (parser/parser.go:80). -/
def Node.json (float : FloatVal → Bytes) : Node → JVal
  | .nil => .null
  | .typedNil _ => .null
  | .array pos rules => .obj [.mk b!"Pos" pos.json, .mk b!"Rules" (sliceJson (nodesJson float rules))]
  | .badNode pos tok base e => .obj [.mk b!"Pos" pos.json, .mk b!"Token" tok.json,
      .mk b!"Base" (base.json float), .mk b!"EndPos" e.json]
  | .boolType pos tok => .obj [.mk b!"Pos" pos.json, .mk b!"Token" tok.json]
  | .boolLit r b => .obj [.mk b!"Range" r.json, .mk b!"Bool" (.bool b)]
  | .bstr pos tok => .obj [.mk b!"Pos" pos.json, .mk b!"Token" tok.json]
  | .bytes pos tok => .obj [.mk b!"Pos" pos.json, .mk b!"Token" tok.json]
  | .cddl pos rules => .obj [.mk b!"Pos" pos.json, .mk b!"Rules" (.arr (nodesJson float rules))]
  | .comment c => c.json
  | .commentGroup list => .obj [.mk b!"List" (sliceJson (list.map Comment.json))]
  | .bits pos tok base c => .obj [.mk b!"Pos" pos.json, .mk b!"Token" tok.json,
      .mk b!"Base" (base.json float), .mk b!"Contstraint" (c.json float)]
  | .comparator pos tok op l r => .obj [.mk b!"Pos" pos.json, .mk b!"Token" tok.json,
      .mk b!"Operator" (.str op), .mk b!"Left" (l.json float), .mk b!"Right" (r.json float)]
  | .regexp pos tok base rx => .obj [.mk b!"Pos" pos.json, .mk b!"Token" tok.json,
      .mk b!"Base" base.json, .mk b!"Regex" (rx.json float)]
  | .size pos tok sz ty => .obj [.mk b!"Pos" pos.json, .mk b!"Token" tok.json,
      .mk b!"Size" (sz.json float), .mk b!"Type" (ty.json float)]
  | .entry pos name v tc => .obj [.mk b!"Pos" pos.json, .mk b!"Name" name.json,
      .mk b!"Value" (v.json float), .mk b!"TrailingComment" (commentJson tc)]
  | .enumeration pos tok v => .obj [.mk b!"Pos" pos.json, .mk b!"Token" tok.json,
      .mk b!"Value" (v.json float)]
  | .floatType pos tok => .obj [.mk b!"Pos" pos.json, .mk b!"Token" tok.json, .mk b!"Base" (.int 0)]
  | .floatLit r tok v => .obj [.mk b!"Range" r.json, .mk b!"Token" tok.json,
      .mk b!"Literal" (.num (float v))]
  | .group pos es => .obj [.mk b!"Pos" pos.json, .mk b!"Entries" (sliceJson (nodesJson float es))]
  | .groupChoice pos tok a b => .obj [.mk b!"Pos" pos.json, .mk b!"Token" tok.json,
      .mk b!"First" (a.json float), .mk b!"Second" (b.json float)]
  | .ident i => i.json
  | .intType pos tok => .obj [.mk b!"Pos" pos.json, .mk b!"Token" tok.json]
  | .nintType pos tok => .obj [.mk b!"Pos" pos.json, .mk b!"Token" tok.json]
  | .intLit pos tok v => .obj [.mk b!"Pos" pos.json, .mk b!"Token" tok.json, .mk b!"Literal" (.int v)]
  | .map pos rules => .obj [.mk b!"Pos" pos.json, .mk b!"Token" (Tok.json .ILLEGAL),
      .mk b!"Rules" (sliceJson (nodesJson float rules))]
  | .null pos tok => .obj [.mk b!"Pos" pos.json, .mk b!"Token" tok.json]
  | .optional pos tok i => .obj [.mk b!"Pos" pos.json, .mk b!"Token" tok.json,
      .mk b!"Item" (i.json float)]
  | .nm pos tok n m i => .obj [.mk b!"Pos" pos.json, .mk b!"Token" tok.json,
      .mk b!"N" (uintJson n), .mk b!"M" (uintJson m), .mk b!"Item" (i.json float)]
  | .range pos tok lo hi => .obj [.mk b!"Pos" pos.json, .mk b!"Token" tok.json,
      .mk b!"From" (lo.json float), .mk b!"To" (hi.json float)]
  | .rule pos name v tc => .obj [.mk b!"Pos" pos.json, .mk b!"Name" name.json,
      .mk b!"Value" (v.json float), .mk b!"TrailingComment" (commentJson tc)]
  | .tag pos tok a b i => .obj [.mk b!"Pos" pos.json, .mk b!"Token" tok.json,
      .mk b!"Major" (uintJson a), .mk b!"TagNumber" (uintJson b), .mk b!"Item" (i.json float)]
  | .textLit pos tok lit => .obj [.mk b!"Pos" pos.json, .mk b!"Token" tok.json,
      .mk b!"Literal" (.str lit)]
  | .tstr t => t.json
  | .typeChoice pos tok a b => .obj [.mk b!"Pos" pos.json, .mk b!"Token" tok.json,
      .mk b!"First" (a.json float), .mk b!"Second" (b.json float)]
  | .uintType r tok => .obj [.mk b!"Range" r.json, .mk b!"Token" tok.json]
  | .uintLit u => u.json
  | .unwrap pos tok i => .obj [.mk b!"Pos" pos.json, .mk b!"Token" tok.json,
      .mk b!"Item" (i.json float)]
/-- The elements of a slice. Part of `json.MarshalIndent`, called at cmd/cddlc/commands.go:89. -/
def nodesJson (float : FloatVal → Bytes) : List Node → List JVal
  | [] => []
  | x :: xs => x.json float :: nodesJson float xs
end

/-! ### Text -/

/-- A hexadecimal digit. Part of `json.MarshalIndent`, called at cmd/cddlc/commands.go:89. -/
def hexDigit (n : Nat) : UInt8 := UInt8.ofNat (if n < 10 then 48 + n else 87 + n)

/-- models the table `htmlSafeSet` of encoding/json: the ASCII bytes that stand for themselves.
Part of `json.MarshalIndent`, called at cmd/cddlc/commands.go:89. -/
def jsonSafe (c : UInt8) : Bool :=
  32 ≤ c && c < 128 && c ≠ 34 && c ≠ 92 && c ≠ 60 && c ≠ 62 && c ≠ 38

/-- models the escapes of the function `appendString` of encoding/json for an ASCII byte; `short` says
whether there are short escapes for backspace and form feed (there are since Go 1.22).
Part of `json.MarshalIndent`, called at cmd/cddlc/commands.go:89. -/
def jsonEscape (short : Bool) (c : UInt8) : Bytes :=
  if c = 34 ∨ c = 92 then [92, c]
  else if c = 10 then b!"\\n"
  else if c = 13 then b!"\\r"
  else if c = 9 then b!"\\t"
  else if short ∧ c = 8 then b!"\\b"
  else if short ∧ c = 12 then b!"\\f"
  else b!"\\u00" ++ [hexDigit (c.toNat / 16), hexDigit (c.toNat % 16)]

/-- models the loop of `appendString` of encoding/json; the count bounds the length.
Part of `json.MarshalIndent`, called at cmd/cddlc/commands.go:89. -/
def jsonChars (short : Bool) : Nat → Bytes → Bytes
  | 0, _ => []
  | _, [] => []
  | n + 1, c :: s =>
    if c < 128 then (if jsonSafe c then [c] else jsonEscape short c) ++ jsonChars short n s
    else
      let (r, size) := decodeRune (c :: s)
      if r = 0xFFFD ∧ size = 1 then b!"\\ufffd" ++ jsonChars short n s
      else if r = 0x2028 ∨ r = 0x2029 then
        b!"\\u202" ++ [hexDigit (r % 16)] ++ jsonChars short n ((c :: s).drop size)
      else (c :: s).take size ++ jsonChars short n ((c :: s).drop size)

/-- A string in quotes. Part of `json.MarshalIndent`, called at cmd/cddlc/commands.go:89. -/
def jsonString (short : Bool) (s : Bytes) : Bytes := b!"\"" ++ jsonChars short s.length s ++ b!"\""

/-- A new line with `d` tabs. Part of `json.MarshalIndent`, called at cmd/cddlc/commands.go:89. -/
def newline (d : Nat) : Bytes := 10 :: List.replicate d 9

mutual
/-- models `json.MarshalIndent(_, "", "\t")` (that is, `Marshal` and `Indent`) at depth `d`.
Part of `json.MarshalIndent`, called at cmd/cddlc/commands.go:89. -/
def JVal.print (short : Bool) (d : Nat) : JVal → Bytes
  | .null => b!"null"
  | .bool b => if b then b!"true" else b!"false"
  | .num t => t
  | .str s => jsonString short s
  | .arr [] => b!"[]"
  | .arr (x :: xs) =>
    b!"[" ++ newline (d + 1) ++ x.print short (d + 1) ++ printVals short (d + 1) xs ++ newline d ++ b!"]"
  | .obj [] => b!"{}"
  | .obj (.mk k v :: fs) =>
    b!"{" ++ newline (d + 1) ++ jsonString short k ++ b!": " ++ v.print short (d + 1) ++
      printFields short (d + 1) fs ++ newline d ++ b!"}"
/-- The elements after the first. Part of `json.MarshalIndent`, called at cmd/cddlc/commands.go:89. -/
def printVals (short : Bool) (d : Nat) : List JVal → Bytes
  | [] => []
  | x :: xs => b!"," ++ newline d ++ x.print short d ++ printVals short d xs
/-- The fields after the first. Part of `json.MarshalIndent`, called at cmd/cddlc/commands.go:89. -/
def printFields (short : Bool) (d : Nat) : List JField → Bytes
  | [] => []
  | .mk k v :: fs =>
    b!"," ++ newline d ++ jsonString short k ++ b!": " ++ v.print short d ++ printFields short d fs
end

mutual
/-- How deeply arrays and objects are nested. Part of `json.MarshalIndent`, called at cmd/cddlc/commands.go:89. -/
def JVal.depth : JVal → Nat
  | .arr xs => depthVals xs + 1
  | .obj fs => depthFields fs + 1
  | _ => 0
/-- The depth of the deepest element. Part of `json.MarshalIndent`, called at cmd/cddlc/commands.go:89. -/
def depthVals : List JVal → Nat
  | [] => 0
  | x :: xs => max x.depth (depthVals xs)
/-- The depth of the deepest field. Part of `json.MarshalIndent`, called at cmd/cddlc/commands.go:89. -/
def depthFields : List JField → Nat
  | [] => 0
  | .mk _ v :: fs => max v.depth (depthFields fs)
end

/-- models the constant `maxNestingDepth` of encoding/json (since Go 1.15).
Part of `json.MarshalIndent`, called at cmd/cddlc/commands.go:89. -/
def maxNesting : Nat := 10000

/-- models `json.MarshalIndent(v, "", "\t")`: `Indent` gives up on values nested too deeply.
Part of `json.MarshalIndent`, called at cmd/cddlc/commands.go:89. -/
def marshalIndent (short : Bool) (v : JVal) : Option Bytes :=
  if v.depth ≤ maxNesting then some (v.print short 0) else none

/-- What `ParseFile` returned as a value for `MarshalIndent` (cmd/cddlc/commands.go:91); the position of
the tree is never set. -/
def cddlJson (float : FloatVal → Bytes) : Option (List Node) → JVal
  | none => .null
  | some rules => (Node.cddl {} rules).json float

end Cddlc
