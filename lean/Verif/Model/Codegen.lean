import Verif.Model.Walk
import Verif.Model.Strconv
import Verif.Model.Utf8

/-! The Go code generator (transforms/codegen/golang). The syntax trees of `go/ast` it builds are
modelled as far as it fills them in; printing them is not modelled. -/

namespace Cddlc

/-! ### The part of go/ast that is used -/

/-- The literal kinds `token.INT`, `token.FLOAT` and `token.STRING` of package go/token.
Used at transforms/codegen/golang/gen_literals.go:11-30 and gen_grouped.go:150, 194. -/
inductive GoLit where
  | int | float | string
  deriving DecidableEq, Repr

mutual
/-- The expressions of package go/ast that the generator builds: `*Ident`, `*BasicLit`,
`*ArrayType` without length, `*StructType`.
Built at transforms/codegen/golang/gen_base_types.go:9-45, gen_literals.go:11-42, gen_grouped.go:180, 203 and
gen_operator.go:53. -/
inductive GoExpr where
  | ident (name : Bytes)
  | basic (kind : GoLit) (value : Bytes)
  | array (elt : GoExpr)
  | struct (fields : List GoField)
/-- `go/ast.Field`: the names (none if embedded), the type and the tag, if any.
Built at transforms/codegen/golang/gen_grouped.go:156-162, 189-195, 214-217. -/
inductive GoField where
  | mk (names : List Bytes) (type : GoExpr) (tag : Option Bytes)
end

/-- A `go/ast.CallExpr` as gen.go:34-53 makes them: `X.Sel(args…)`, each argument an `*Ident`. -/
structure GoCall where
  x : Bytes
  sel : Bytes
  args : List Bytes
  deriving DecidableEq, Repr

/-- The statements of gen_grouped.go:113-124: `*ExprStmt` with a call, `*ReturnStmt` with
identifiers. -/
inductive GoStmt where
  | expr (call : GoCall)
  | ret (results : List Bytes)
  deriving DecidableEq, Repr

/-- `go/ast.ImportSpec`: the name, if any, and the path with its quotes.
Built at transforms/codegen/golang/gen.go:98-104. -/
structure GoImport where
  name : Option Bytes
  path : Bytes
  deriving DecidableEq, Repr

/-- The declarations: `*GenDecl` with token `VAR`, `TYPE` or `IMPORT`, and `*FuncDecl` with a
receiver. The generator gives the first two exactly one spec with one name. `recvType` is the
identifier below the star of the receiver's type.
Built at transforms/codegen/golang/gen_grouped.go:54-59, 79-105 and gen.go:75. -/
inductive GoDecl where
  | var (doc name : Bytes) (value : GoExpr)
  | type (doc name : Bytes) (type : GoExpr)
  | imports (specs : List GoImport)
  | method (doc recv recvType name : Bytes) (results : List Bytes) (body : List GoStmt)

/-- `go/ast.File`. Built at transforms/codegen/golang/gen.go:116-120. -/
structure GoFile where
  name : Bytes
  imports : List GoImport := []
  decls : List GoDecl := []

/-- What is used of the dynamic type of the `node` of a `structure`. Of the pointer types, only the
`*Ident`, `*BasicLit`, `*ArrayType` and `*StructType` are an `ast.Expr`.
The field is at transforms/codegen/golang/gen.go:18. -/
inductive GoNode where
  | expr (e : GoExpr)
  | field (f : GoField)
  | fields (fs : List GoField)
  | comment (text : Bytes)

/-! ### Libraries -/

/-- Functions of other modules that are not modelled; theorems hold for any such functions.
`toCamel` is `strcase.ToCamel` (gen_identifiers.go:19), `lowerHi` is `strings.ToLower` on strings
that are not ASCII (gen_grouped.go:77), `float` is `strconv.FormatFloat(_, 'f', -1, 64)`
(gen_literals.go:21). -/
structure GoLib where
  toCamel : Bytes → Bytes
  lowerHi : Bytes → Bytes
  float : FloatVal → Bytes

/-- models `strings.ToLower` (gen_grouped.go:77): bytes A–Z become a–z if the string is ASCII. -/
def GoLib.toLower (lib : GoLib) (s : Bytes) : Bytes :=
  if s.all (· < 128) then s.map fun c => if 65 ≤ c ∧ c ≤ 90 then c + 32 else c else lib.lowerHi s

/-- The keywords of Go, `token.IsKeyword` of package go/token.
For the identifiers made at transforms/codegen/golang/gen_identifiers.go:18-37. -/
def goKeywords : List Bytes :=
  [b!"break", b!"case", b!"chan", b!"const", b!"continue", b!"default", b!"defer", b!"else",
    b!"fallthrough", b!"for", b!"func", b!"go", b!"goto", b!"if", b!"import", b!"interface",
    b!"map", b!"package", b!"range", b!"return", b!"select", b!"struct", b!"switch", b!"type",
    b!"var"]

/-- The runes of a string as `for i, c := range s` yields them; the count bounds the length.
For `strings.TrimLeft` and `strings.ToLower`, transforms/codegen/golang/gen_identifiers.go:22, gen_grouped.go:77. -/
def goRunes : Nat → Bytes → List Nat
  | 0, _ => []
  | _, [] => []
  | n + 1, s => (decodeRune s).1 :: goRunes n (s.drop (decodeRune s).2)

/-- models `token.IsIdentifier` of package go/token (called at gen_identifiers.go:25). -/
def isGoIdentifier [Unicode] (name : Bytes) : Bool :=
  !name.isEmpty && !goKeywords.contains name &&
    match goRunes name.length name with
    | [] => true
    | c :: cs =>
      (uniIsLetter c || c = 95) && cs.all fun c => uniIsLetter c || c = 95 || uniIsDigit c

/-! ### The generator -/

/-- models gen.go:17-22 `type structure struct`. -/
structure Structure where
  node : GoNode
  validators : List GoCall := []

/-- models gen.go:59-67 `type Generator struct`; the position table `fset` is left out, all
positions are `NoPos`. -/
structure Generator where
  pkg : Bytes
  imports : List GoImport := []
  file : GoFile

/-- models gen.go:112-127 `NewGenerator`. -/
def Generator.new (pkgName : Bytes) : Generator := { pkg := pkgName, file := { name := pkgName } }

/-- models gen.go:13-15 `VALIDATOR_PKG`. -/
def validatorPkg : Bytes := b!"github.com/HannesKimara/cddlc/runtime/validators"

/-- models gen.go:92-107 `addImport`. -/
def Generator.addImport (value name : Bytes) (g : Generator) : Generator :=
  { g with imports := g.imports ++
      [⟨if name.isEmpty then none else some name, b!"\"" ++ value ++ b!"\""⟩] }

/-- models gen.go:34-53 `addValidatorCall`; the arguments are already printed with `%v`. -/
def Structure.addValidatorCall (s : Structure) (x sel : Bytes) (args : List Bytes) : Structure :=
  { s with validators := s.validators ++ [⟨x, sel, args⟩] }

/-- models gen.go:24-26 `Embed`. -/
def Structure.embed (s em : Structure) : Structure :=
  { s with validators := s.validators ++ em.validators }

/-- What the transpile functions return: an error, or a pointer to a structure, possibly nil.
As at transforms/codegen/golang/gen_grouped.go:227. -/
abbrev Made := Except Unit (Option Structure)

/-- A returned structure without validators. models transforms/codegen/golang/gen.go:28-32 `newStructure`. -/
def made (n : GoNode) : Made := .ok (some { node := n })

/-- Access to a field of a returned structure: a nil pointer panics.
E.g. transforms/codegen/golang/gen_grouped.go:26, 142, 180. -/
def Act.deref (s : Option Structure) : Act Generator Structure := fun g =>
  match s with
  | none => (g, .panic .nilDeref)
  | some s => (g, .ok s)

/-- The type assertion `x.(gast.Expr)`. At transforms/codegen/golang/gen_grouped.go:216 and gen_operator.go:54. -/
def Act.asExpr (n : GoNode) : Act Generator GoExpr := fun g =>
  match n with
  | .expr e => (g, .ok e)
  | _ => (g, .panic .typeAssert)

/-- The type assertion `x.(*gast.Field)`. At transforms/codegen/golang/gen_grouped.go:142. -/
def Act.asField (n : GoNode) : Act Generator GoField := fun g =>
  match n with
  | .field f => (g, .ok f)
  | _ => (g, .panic .typeAssert)

/-- The type assertion `x.(*gast.FieldList)`. At transforms/codegen/golang/gen_grouped.go:180, 202. -/
def Act.asFields (n : GoNode) : Act Generator (List GoField) := fun g =>
  match n with
  | .fields fs => (g, .ok fs)
  | _ => (g, .panic .typeAssert)

/-- Return without effect. For the returns of transforms/codegen/golang/gen_grouped.go:14-269. -/
def Act.ret {σ α : Type} (a : α) : Act σ α := fun s => (s, .ok a)

/-- Panic. E.g. transforms/codegen/golang/gen_grouped.go:24, 164, 267. -/
def Act.fail {σ α : Type} (w : PanicKind) : Act σ α := fun s => (s, .panic w)

/-- `if err != nil { panic(…) }`.
At transforms/codegen/golang/gen_grouped.go:23-25, 139-141 and gen_operator.go:50-52. -/
def Act.orPanic {α : Type} (r : Except Unit α) : Act Generator α := fun g =>
  match r with
  | .ok a => (g, .ok a)
  | .error _ => (g, .panic .explicit)

/-- models `strings.TrimLeft(s, "$")` (gen_identifiers.go:22). -/
def trimDollars : Bytes → Bytes
  | [] => []
  | c :: s => if c = 36 then trimDollars s else c :: s

section
variable [Unicode] (lib : GoLib)

/-- models gen_identifiers.go:18-37 `transpileIdentifier`. -/
def transpileIdentifier (ident : Ident) : Out Bytes :=
  let formatted := if ident.isSocket || ident.isPlug then trimDollars ident.name
    else lib.toCamel ident.name
  if isGoIdentifier formatted then .ok formatted
  else match parseInt formatted with
    | .error _ => .panic .explicit
    | .ok _ => .ok (b!"IntKey_" ++ formatted)

/-- `transpileIdentifier` as a step of the generator. Called at transforms/codegen/golang/gen_grouped.go:38, 93. -/
def Act.name (ident : Ident) : Act Generator Bytes := fun g => (g, transpileIdentifier lib ident)

/-- models gen_base_types.go:9-45, gen_literals.go:11-42 and the default case of
gen_grouped.go:265-267 for a nil pointer of dynamic type `k`: the base types read no field. -/
def transpileNilPointer (k : NodeKind) : Act Generator Made :=
  match k with
  | .boolType => .ret (made (.expr (.ident b!"bool")))
  | .tstr => .ret (made (.expr (.ident b!"string")))
  | .bytes => .ret (made (.expr (.array (.ident b!"byte"))))
  | .null => .ret (made (.expr (.ident b!"nil")))
  | .intType => .ret (made (.expr (.ident b!"int")))
  | .uintType => .ret (made (.expr (.ident b!"uint")))
  | .group | .array | .entry | .ident | .comment | .intLit | .boolLit | .textLit | .floatLit | .nm
  | .size => .fail .nilDeref
  | _ => .fail .explicit

/-- models gen_operator.go:31-46, the validator of a size control on a type of kind `type`; `size`
is nil unless the size is an integer literal. -/
def sizeValidator (type : NodeKind) (size : Option Int) (stct : Structure) : Act Generator Made :=
  fun g =>
  match type with
  | .uintType | .bstr | .bytes | .tstr =>
    match size with
    | none => (g, .panic .nilDeref)
    | some n => (g.addImport validatorPkg [],
        .ok (.ok (some (stct.addValidatorCall b!"validators" b!"CheckSize" [b!"self", decInt n]))))
  | _ => (g, .panic .explicit)

/-- The first switch of gen_operator.go:15-21: the size if it is a literal; an identifier panics,
and so does reading a nil literal later. -/
def sizeLiteral (size : Node) : Act Generator (Option Int) :=
  match size with
  | .intLit _ _ v => .ret (some v)
  | .ident _ | .typedNil .ident => .fail .explicit
  | _ => .ret none

/-- models gen_grouped.go:173-185 `transpileGroup` after the call of `transpileGroupLike`. -/
def groupStruct (r : Made) : Act Generator Made :=
  match r with
  | .error e => .ret (.error e)
  | .ok fl => .bind (.deref fl) fun fl => .bind (.asFields fl.node) fun fs =>
      .ret (.ok (some (Structure.embed { node := .expr (.struct fs) } fl)))

/-- The marker field of gen_grouped.go:189-195. -/
def toArrayField : GoField := .mk [b!"_"] (.struct []) (some b!"`cbor:\",toarray\"`")

/-- models gen_grouped.go:187-204 `transpileArray` after the call of `transpileGroupLike`. -/
def arrayStruct (r : Made) : Act Generator Made :=
  match r with
  | .error e => .ret (.error e)
  | .ok fl => .bind (.deref fl) fun fl => .bind (.asFields fl.node) fun fs =>
      .ret (made (.expr (.struct (toArrayField :: fs))))

/-- models gen_grouped.go:206-225 `transpileEntry` after the call of `transpileNode`. -/
def entryField (ident : Bytes) (r : Made) : Act Generator Made :=
  match r with
  | .error e => .ret (.error e)
  | .ok s => .bind (.deref s) fun s => .bind (.asExpr s.node) fun e =>
      .ret (.ok (some (Structure.embed { node := .field (.mk [ident] e none) } s)))

/-- models gen_operator.go:48-56 `transpileNMOccurence` after the call of `transpileNode`. -/
def occurrenceArray (r : Made) : Act Generator GoExpr :=
  .bind (.orPanic r) fun s => .bind (.deref s) fun s => .bind (.asExpr s.node) fun e =>
    .ret (.array e)

/-- The tag of gen_grouped.go:150. -/
def omitEmpty : Bytes := b!"`cbor:\",omitempty\"`"

/-- models gen_grouped.go:149-154: the field of an optional entry; `none` if the item did not yield
a field. -/
def optionalField (s : Structure) : Option GoField :=
  match s.node with
  | .field (.mk names type _) => some (.mk names type (some omitEmpty))
  | _ => none

/-- The fields collected by `transpileGroupLike`: `.error` an error, `.ok none` a nil result.
The list is at transforms/codegen/golang/gen_grouped.go:133. -/
abbrev Fields := Except Unit (Option (List GoField))

/-- A field in front of the remaining ones. For the loop of transforms/codegen/golang/gen_grouped.go:134-170. -/
def Fields.cons (f : GoField) : Fields → Fields
  | .ok (some fs) => .ok (some (f :: fs))
  | r => r

/-- models gen_grouped.go:169-170: the structure around the fields. -/
def Fields.made : Fields → Made
  | .error e => .error e
  | .ok none => .ok none
  | .ok (some fs) => .ok (some { node := .fields fs })

mutual
/-- models gen_grouped.go:227-269 `transpileNode`. -/
def transpileNode (node : Node) : Act Generator Made :=
  match node with
  | .nil => .ret (.error ())
  | .typedNil k => transpileNilPointer k
  | .group _ entries => .bind (transpileGroupLike entries) fun r => groupStruct r.made
  | .array _ rules => .bind (transpileGroupLike rules) fun r => arrayStruct r.made
  | .entry _ name value _ =>
    .bind (.name lib name) fun ident => .bind (transpileNode value) (entryField ident)
  | .boolType .. => .ret (made (.expr (.ident b!"bool")))
  | .ident i => .bind (.name lib i) fun n => .ret (made (.expr (.ident n)))
  | .tstr _ => .ret (made (.expr (.ident b!"string")))
  | .bytes .. => .ret (made (.expr (.array (.ident b!"byte"))))
  | .comment c => .ret (made (.comment c.text))
  | .null .. => .ret (made (.expr (.ident b!"nil")))
  | .intType .. => .ret (made (.expr (.ident b!"int")))
  | .uintType .. => .ret (made (.expr (.ident b!"uint")))
  | .intLit _ _ v => .ret (made (.expr (.basic .int (decInt v))))
  | .boolLit _ b => .ret (made (.expr (.ident (if b then b!"true" else b!"false"))))
  | .textLit _ _ lit => .ret (made (.expr (.basic .string lit)))
  | .floatLit _ _ v => .ret (made (.expr (.basic .float (lib.float v))))
  | .nm _ _ _ _ item =>
    .bind (.bind (transpileNode item) occurrenceArray) fun e => .ret (made (.expr e))
  | .size _ _ size type =>
    .bind (sizeLiteral size) fun size => .bind (transpileNode type) fun r =>
      match r with
      | .error e => .ret (.error e)
      | .ok s => .bind (.deref s) fun s => sizeValidator type.kind size { node := s.node }
  | _ => .fail .explicit
/-- models gen_grouped.go:132-171 `transpileGroupLike`. -/
def transpileGroupLike (entries : List Node) : Act Generator Fields :=
  match entries with
  | [] => .ret (.ok (some []))
  | e :: rest =>
    match e with
    | .entry _ name value _ =>
      .bind (.bind (.name lib name) fun ident => .bind (transpileNode value) (entryField ident))
        fun r => .bind (.orPanic r) fun s => .bind (.deref s) fun s => .bind (.asField s.node) fun f =>
          .bind (transpileGroupLike rest) fun fs => .ret (fs.cons f)
    | .optional _ _ item =>
      .bind (transpileNode item) fun r =>
        match r with
        | .error e => .ret (.error e)
        | .ok s => .bind (.deref s) fun s =>
          match optionalField s with
          | none => .ret (.ok none)
          | some f => .bind (transpileGroupLike rest) fun fs => .ret (fs.cons f)
    | .ident i =>
      .bind (.name lib i) fun n =>
        .bind (transpileGroupLike rest) fun fs => .ret (fs.cons (.mk [] (.ident n) none))
    | .nm _ _ _ _ item =>
      .bind (.bind (transpileNode item) occurrenceArray) fun e =>
        .bind (transpileGroupLike rest) fun fs => .ret (fs.cons (.mk [] e none))
    | .typedNil .entry | .typedNil .optional | .typedNil .ident | .typedNil .nm => .fail .nilDeref
    | _ => .fail .explicit
end

/-- The statements of gen_grouped.go:111-118: Go before version 1.22 has one variable `validator`
for the whole loop (go.mod says 1.21), so that every statement points to what it holds at the end,
the last validator. -/
def validatorStmts (validators : List GoCall) : List GoStmt :=
  match validators.getLast? with
  | none => []
  | some last => validators.map fun _ => .expr last

/-- models gen_grouped.go:76-130 `bundleValidators`. -/
def bundleValidators (validators : List GoCall) (name : Ident) : Act Generator GoDecl :=
  .bind (.name lib name) fun recvType =>
    .ret (.method
      (b!"\n// Valid evaluates type constraints on " ++ name.name ++
        b!" and returns nil if valid \n// else it returns a list of validation errors")
      (lib.toLower name.name) recvType b!"Valid" [b!"error"]
      (validatorStmts validators ++ [.ret [b!"nil"]]))

/-- `g.file.Decls = append(g.file.Decls, decl)`. At transforms/codegen/golang/gen_grouped.go:61, 66. -/
def Act.declare (d : GoDecl) : Act Generator Unit := fun g =>
  ({ g with file := { g.file with decls := g.file.decls ++ [d] } }, .ok ())

/-- models gen_grouped.go:32-51: a variable for the listed literals, else a type. -/
def ruleDecl (name : Ident) (value : NodeKind) (n : Bytes) (e : GoExpr) : GoDecl :=
  let doc := b!"\n// (cddlc) Ident: " ++ name.name ++ b!"\n"
  match value with
  | .boolLit | .floatLit | .intLit | .textLit | .uintLit => .var doc n e
  | _ => .type doc n e

/-- How the panic at gen_grouped.go:28 ends: its text contains the end of the value, the computation of which
may itself panic. -/
def endPanic (value : Node) : PanicKind :=
  match value.stop with
  | .panic w => w
  | _ => .explicit

/-- models gen_grouped.go:16-66, `Visit` of a rule. -/
def visitRule (name : Ident) (value : Node) : Act Generator Unit :=
  .bind (transpileNode lib value) fun r => .bind (.orPanic r) fun s => .bind (.deref s) fun s =>
    match s.node with
    | .expr e =>
      .bind (.name lib name) fun n =>
      .bind (.declare (ruleDecl name value.kind n e)) fun _ =>
      .bind (bundleValidators lib s.validators name) .declare
    | _ => .fail (endPanic value)

mutual
/-- models gen_grouped.go:14-74 `Visit`. -/
def visit (node : Node) : Act Generator Unit :=
  match node with
  | .rule _ name value _ => visitRule lib name value
  | .cddl _ rules => visitList rules
  | .typedNil .rule | .typedNil .cddl => .fail .nilDeref
  | _ => .ret ()
/-- The loop of gen_grouped.go:68-70. -/
def visitList (rules : List Node) : Act Generator Unit :=
  match rules with
  | [] => .ret ()
  | r :: rest => .bind (visit r) fun _ => visitList rest
end

end

/-- models `ast.SortImports` of package go/ast on a file all of whose positions are `NoPos`: no
import declaration has parentheses, so nothing is sorted. Later versions (`resets`) then set
`File.Imports` to the specs of the import declarations of the file. Called at transforms/codegen/golang/gen.go:72. -/
def sortImports (resets : Bool) (f : GoFile) : GoFile :=
  if resets then
    { f with imports := f.decls.flatMap fun d => match d with | .imports specs => specs | _ => [] }
  else f

/-- models gen.go:70-85 `String`: the generator after the call, whose file is what is handed to
`format.Node` to be printed. -/
def Generator.string (resets : Bool) (g : Generator) : Generator :=
  let file := sortImports resets { g.file with imports := g.file.imports ++ g.imports }
  if file.imports.length > 0 then
    { g with file := { file with decls := .imports file.imports :: file.decls } }
  else { g with file := file }

/-- models options.go:7-11 `type Options struct`, the field that is checked. -/
structure GenOptions where
  caseConversion : Bytes

/-- models gen_identifiers.go:16 and 39-44, the package variable `converters` after `init`: `init`
declares a new variable of the same name and fills that, so that the package variable is nil, a map
without keys. The map is modelled by its keys. -/
def converters : List Bytes :=
  let _converters := [b!"camelcase", b!"snakecase"]
  []

/-- models options.go:13-18 `Valid`; `false` is the error. -/
def GenOptions.valid (o : GenOptions) : Bool := converters.contains o.caseConversion

end Cddlc
