import Verif.Spec.GoTypes

/-! What the Go compiler (1.21, 64 bits) asks of a file of the kind the generator builds, taken alone in its
package, and what that means for a schema. -/

namespace Cddlc.Spec
variable [Unicode]

/-! ### Go -/

/-- The predeclared types of Go; `comparable`, which is for type parameters only, is left out. -/
def universeTypes : List Bytes :=
  [b!"any", b!"bool", b!"byte", b!"complex64", b!"complex128", b!"error", b!"float32", b!"float64", b!"int", b!"int8",
   b!"int16", b!"int32", b!"int64", b!"rune", b!"string", b!"uint", b!"uint8", b!"uint16", b!"uint32", b!"uint64",
   b!"uintptr"]

omit [Unicode] in
/-- The names declared at the top level of the package. -/
def topNames (ds : List GoDecl) : List Bytes := (ds.filterMap declared).map (·.1)

omit [Unicode] in
/-- The identifier stands for a type: one of the package, or a predeclared one that is not hidden. -/
def TypeName (ds : List GoDecl) (n : Bytes) : Prop :=
  n ≠ b!"_" ∧ ((∃ doc e, GoDecl.type doc n e ∈ ds) ∨ n ∉ topNames ds ∧ n ∈ universeTypes)

mutual
/-- Types: names of types, slices and structs, the fields of which have different names. -/
inductive GoType (ds : List GoDecl) : GoExpr → Prop
  | name {n} : TypeName ds n → GoType ds (.ident n)
  | slice {e} : GoType ds e → GoType ds (.array e)
  | struct {fs} : GoFields ds fs → ((fieldNames fs).filter (· ≠ b!"_")).Nodup → GoType ds (.struct fs)
/-- Fields: identifiers with a type, or the name of a type that is embedded. -/
inductive GoFields (ds : List GoDecl) : List GoField → Prop
  | nil : GoFields ds []
  | named {n ns e t fs} : (∀ m ∈ n :: ns, GoIdent m) → GoType ds e → GoFields ds fs → GoFields ds (.mk (n :: ns) e t :: fs)
  | embedded {n t fs} : TypeName ds n → GoFields ds fs → GoFields ds (.mk [] (.ident n) t :: fs)
end

omit [Unicode] in
/-- The underlying type of a type. -/
inductive Underlying (ds : List GoDecl) : GoExpr → GoExpr → Prop
  | slice {e} : Underlying ds (.array e) (.array e)
  | struct {fs} : Underlying ds (.struct fs) (.struct fs)
  | declared {doc n e u} : GoDecl.type doc n e ∈ ds → Underlying ds e u → Underlying ds (.ident n) u
  | predeclared {n} : n ∉ topNames ds → n ∈ universeTypes → Underlying ds (.ident n) (.ident n)

omit [Unicode] in
/-- The interfaces among the predeclared types. -/
def IsInterface (u : GoExpr) : Prop := u = .ident b!"error" ∨ u = .ident b!"any"

omit [Unicode] in
/-- What a variable can be declared with. -/
def GoValue (ds : List GoDecl) : GoExpr → Prop
  | .basic .int s => ∃ v : Int, s = decInt v ∧ -2 ^ 63 ≤ v ∧ v < 2 ^ 63
  | .basic .float _ => True
  | .basic .string s => ∃ t, GoString s t
  | .ident n => (n = b!"true" ∨ n = b!"false") ∧ n ∉ topNames ds
  | _ => False

omit [Unicode] in
/-- A call in a method with the receiver `recv`: of `CheckSize` of the package `validators`, which must be imported and
not hidden by the receiver, with a variable and a number of type `uint`
(runtime/validators/validators.go: `func CheckSize(val interface{}, size uint) bool`). -/
def CallOk (ds : List GoDecl) (imported : List Bytes) (recv : Bytes) (c : GoCall) : Prop :=
  c.x = b!"validators" ∧ c.sel = b!"CheckSize" ∧ c.x ∈ imported ∧ c.x ≠ recv ∧
  ∃ (a : Bytes) (v : Nat), c.args = [a, decInt v] ∧ v < 2 ^ 64 ∧ a ≠ b!"_" ∧
    (a = recv ∨ ∃ doc e, GoDecl.var doc a e ∈ ds)

omit [Unicode] in
/-- Results that are returned: `nil`, which must not be hidden, for results of a type that has it. -/
inductive Returns (ds : List GoDecl) (recv : Bytes) : List Bytes → List Bytes → Prop
  | nil : Returns ds recv [] []
  | cons {t rs ts u} : recv ≠ b!"nil" → b!"nil" ∉ topNames ds → Underlying ds (.ident t) u →
      (IsInterface u ∨ ∃ e, u = .array e) → Returns ds recv rs ts → Returns ds recv (b!"nil" :: rs) (t :: ts)

omit [Unicode] in
/-- Statements of a method. -/
def StmtOk (ds : List GoDecl) (imported : List Bytes) (recv : Bytes) (results : List Bytes) : GoStmt → Prop
  | .expr c => CallOk ds imported recv c
  | .ret rs => Returns ds recv rs results

/-- A method on `*type`. -/
structure MethodOk (ds : List GoDecl) (imported : List Bytes) (recv type name : Bytes) (results : List Bytes)
    (body : List GoStmt) : Prop where
  names : GoIdent recv ∧ GoIdent name
  /-- the base type is declared in the package and not an interface -/
  base : type ≠ b!"_" ∧ ∃ doc e, GoDecl.type doc type e ∈ ds
  noInterface : ∀ u, Underlying ds (.ident type) u → ¬ IsInterface u
  /-- if it is a struct, it has no field with the name of the method -/
  fields : ∀ fs, Underlying ds (.ident type) (.struct fs) → name ∉ fieldNames fs
  resultTypes : ∀ t ∈ results, TypeName ds t
  statements : ∀ s ∈ body, StmtOk ds imported recv results s
  /-- the last statement returns -/
  ends : ∃ init rs, body = init ++ [.ret rs]

omit [Unicode] in
/-- The name under which a package is imported, if there is such a package. -/
def importName (s : GoImport) : Option Bytes :=
  match s.name with
  | some n => some n
  | none => if s.path = b!"\"github.com/HannesKimara/cddlc/runtime/validators\"" then some b!"validators" else none

omit [Unicode] in
/-- The imports of a file. -/
def importSpecs (ds : List GoDecl) : List GoImport := ds.flatMap fun d => match d with
  | .imports specs => specs
  | _ => []

omit [Unicode] in
/-- What a method belongs to, and its name. -/
def methodKey : GoDecl → Option (Bytes × Bytes)
  | .method _ _ type name _ _ => some (type, name)
  | _ => none

/-- The Go compiler accepts the file. -/
structure Compiles (f : GoFile) : Prop where
  package : GoIdent f.name ∧ f.name ≠ b!"_"
  /-- imports come first -/
  first : ∃ is ds, f.decls = is ++ ds ∧ (∀ d ∈ is, ∃ specs, d = .imports specs) ∧ ∀ d ∈ ds, ∀ specs, d ≠ .imports specs
  /-- what is imported exists, and is imported once -/
  known : ∀ s ∈ importSpecs f.decls, (importName s).isSome
  once : ((importSpecs f.decls).filterMap importName).Nodup
  /-- what is imported is used, and its name is not declared -/
  used : ∀ n ∈ (importSpecs f.decls).filterMap importName, n ∉ topNames f.decls ∧
    ∃ doc recv type name results body c, GoDecl.method doc recv type name results body ∈ f.decls ∧
      GoStmt.expr c ∈ body ∧ c.x = n ∧ recv ≠ n
  /-- names are declared once -/
  distinct : ((topNames f.decls).filter (· ≠ b!"_")).Nodup
  idents : ∀ n ∈ topNames f.decls, GoIdent n ∧ n ≠ b!"init" ∧ (n = b!"main" → f.name ≠ b!"main")
  methods : (f.decls.filterMap methodKey).Nodup
  types : ∀ doc n e, GoDecl.type doc n e ∈ f.decls → GoType f.decls e
  finite : ¬ InvalidRecursive f.decls
  values : ∀ doc n e, GoDecl.var doc n e ∈ f.decls → GoValue f.decls e
  bodies : ∀ doc recv type name results body, GoDecl.method doc recv type name results body ∈ f.decls →
    MethodOk f.decls ((importSpecs f.decls).filterMap importName) recv type name results body

/-! ### Schemas -/

omit [Unicode] in
/-- The names of the rules, in order. -/
def ruleIdents (rules : List Node) : List Ident := rules.filterMap fun r => match r with
  | .rule _ i _ _ => some i
  | _ => none

omit [Unicode] in
/-- The entries of a group or array. -/
def entriesOf : Node → List Node
  | .group _ es => es
  | .array _ es => es
  | _ => []

omit [Unicode] in
/-- The name is not one of a socket or plug, and camel case makes it begin neither with a small letter of ASCII nor with
an underscore or a sign. -/
def Capital (lib : GoLib) (i : Ident) : Prop :=
  i.name.head? ≠ some 36 ∧ ∀ c t, lib.toCamel i.name = c :: t → ¬ (97 ≤ c ∧ c ≤ 122) ∧ c ∉ [95, 43, 45]

omit [Unicode] in
/-- All names in a tree: those of rules, keys and types. -/
def identsOf (n : Node) : List Ident := (subs n).filterMap fun x => match x with
  | .ident i => some i
  | .entry _ i _ _ => some i
  | .rule _ i _ _ => some i
  | _ => none

/-- What the value of a rule and its name must be like. -/
structure RuleCompiles (lib : GoLib) (i : Ident) (v : Node) : Prop where
  /-- no value, as its method would belong to a variable -/
  noLiteral : ¬ IsLiteral v
  /-- no null, no values as types, no occurrences directly in a group or array -/
  types : typeLike v = true
  /-- no two entries with the same Go name -/
  fields : ClashFree lib v
  /-- no entry with the name of the method -/
  noValid : ∀ x ∈ entriesOf v, ∀ k, key x = some k → ¬ Named lib k b!"Valid"
  /-- the name in small letters can be the name of the receiver -/
  receiver : GoIdent (lib.toLower i.name) ∧ lib.toLower i.name ≠ b!"nil"

/-- What a schema must be like for its code to be accepted. `resets` is for versions of go/ast that lose the imports. -/
structure SchemaCompiles (lib : GoLib) (resets : Bool) (pkg : Bytes) (rules : List Node) : Prop where
  package : GoIdent pkg ∧ pkg ≠ b!"_"
  /-- no two rules with the same Go name, so none with `/=` or `//=` for a name that is declared -/
  names : (ruleIdents rules).Pairwise fun i j => ∀ m, Named lib i m → ¬ Named lib j m
  each : ∀ p i v c, Node.rule p i v c ∈ rules → RuleCompiles lib i v
  /-- no rule is part of itself -/
  finite : ∀ a, ¬ Relation.TransGen (HasPart rules) a a
  /-- no rule is a size control, if imports are lost; else there is no size control at all, or just one, which is the value of
  a rule named `self` -/
  sizes : if resets then ∀ p i v c, Node.rule p i v c ∈ rules → v.kind ≠ .size else
    ((rules.filterMap valueOf).map sizeControls).sum = 0 ∨
    ((rules.filterMap valueOf).map sizeControls).sum = 1 ∧
      ∃ p i v c, Node.rule p i v c ∈ rules ∧ v.kind = .size ∧ lib.toLower i.name = b!"self"

end Cddlc.Spec
