import Verif.Spec.Compile

/-! Which data a schema admits, and which data is written by values of Go types. -/

namespace Cddlc.Spec
variable [Unicode]

/-- A data item of CBOR (RFC 8949), without tags, floating point numbers and other simple values, and with maps from
texts only. -/
inductive Data where
  | int (v : Int)
  | bytes (b : Bytes)
  | text (s : List Char)
  | bool (b : Bool)
  | null
  | array (items : List Data)
  | map (items : List (Bytes × Data))

omit [Unicode] in
/-- The item is the other one or stands in it. -/
inductive PartOf (x : Data) : Data → Prop
  | self : PartOf x x
  | array {y items} : y ∈ items → PartOf x y → PartOf x (.array items)
  | map {k y items} : (k, y) ∈ items → PartOf x y → PartOf x (.map items)

omit [Unicode] in
/-- The integers of CBOR, major types 0 and 1. -/
def cborInt (v : Int) : Prop := -2 ^ 64 ≤ v ∧ v < 2 ^ 64

omit [Unicode] in
/-- The values of the Go type `int` with 64 bits. -/
def goInt (v : Int) : Prop := -2 ^ 63 ≤ v ∧ v < 2 ^ 63

/-! ### The meaning of a schema -/

omit [Unicode] in
mutual
/-- The data that matches a type (RFC 8610, appendix C), for the types that the generator knows. `ints` are the integers
that `int` stands for, in CDDL all of them. A group is not a type. -/
inductive Matches (ints : Int → Prop) (rules : List Node) : Node → Data → Prop
  | bool {n b} : n.kind = .boolType → Matches ints rules n (.bool b)
  | tstr {n s} : n.kind = .tstr → Matches ints rules n (.text s)
  | bytes {n b} : n.kind = .bytes → Matches ints rules n (.bytes b)
  | null {n} : n.kind = .null → Matches ints rules n .null
  | int {n v} : n.kind = .intType → ints v → Matches ints rules n (.int v)
  | uint {n} {v : Int} : n.kind = .uintType → 0 ≤ v → v < 2 ^ 64 → Matches ints rules n (.int v)
  | intLit {p t v} : Matches ints rules (.intLit p t v) (.int v)
  | boolLit {p b} : Matches ints rules (.boolLit p b) (.bool b)
  | textLit {p t s} : Matches ints rules (.textLit p t (enc s)) (.text s)
  | sizeInt {p t q u ty} {v k : Int} : Matches ints rules ty (.int v) → 0 ≤ v → v < 256 ^ k.toNat →
      Matches ints rules (.size p t (.intLit q u k) ty) (.int v)
  | sizeText {p t q u ty s} {k : Int} : Matches ints rules ty (.text s) → ((enc s).length : Int) = k →
      Matches ints rules (.size p t (.intLit q u k) ty) (.text s)
  | sizeBytes {p t q u ty b} {k : Int} : Matches ints rules ty (.bytes b) → (b.length : Int) = k →
      Matches ints rules (.size p t (.intLit q u k) ty) (.bytes b)
  | name {j p i v c d} : Node.rule p i v c ∈ rules → i.name = j.name → Matches ints rules v d → Matches ints rules (.ident j) d
  | array {p es items} : Fills ints rules es items → Matches ints rules (.array p es) (.array items)
/-- The items that the entries of an array stand for. A name of a group stands for the entries of the group. -/
inductive Fills (ints : Int → Prop) (rules : List Node) : List Node → List Data → Prop
  | nil : Fills ints rules [] []
  | entry {p i v c es d items} : Matches ints rules v d → Fills ints rules es items →
      Fills ints rules (.entry p i v c :: es) (d :: items)
  | type {j es d items} : Matches ints rules (.ident j) d → Fills ints rules es items → Fills ints rules (.ident j :: es) (d :: items)
  | group {j p i q es' c es part items} : Node.rule p i (.group q es') c ∈ rules → i.name = j.name → Fills ints rules es' part →
      Fills ints rules es items → Fills ints rules (.ident j :: es) (part ++ items)
  | alias {j p i k c es part items} : Node.rule p i (.ident k) c ∈ rules → i.name = j.name → Fills ints rules [.ident k] part →
      Fills ints rules es items → Fills ints rules (.ident j :: es) (part ++ items)
  | absent {p t x es items} : Fills ints rules es items → Fills ints rules (.optional p t x :: es) items
  | present {p t x es part items} : Fills ints rules [x] part → Fills ints rules es items →
      Fills ints rules (.optional p t x :: es) (part ++ items)
  | repeated {p t a b x es k part items} : (∀ u, a = some u → u.value ≤ k) → (∀ u, b = some u → k ≤ u.value) →
      Fills ints rules (.replicate k x) part → Fills ints rules es items → Fills ints rules (.nm p t a b x :: es) (part ++ items)
end

/-! ### The meaning of Go types -/

/-- A field that is reached from a struct: its name, how many structs it is embedded in, its type, and whether it is left
out if it is empty. -/
structure FlatField where
  name : Bytes
  depth : Nat
  type : GoExpr
  optional : Bool

omit [Unicode] in
/-- The tag says that a field is left out if it is empty. -/
def saysOmit (tag : Option Bytes) : Bool := tag == some b!"`cbor:\",omitempty\"`"

omit [Unicode] in
/-- The fields of a struct and of the structs embedded in it, in order. -/
inductive Reaches (ds : List GoDecl) : Nat → List GoField → List FlatField → Prop
  | nil {k} : Reaches ds k [] []
  | named {k n t tag fs r} : Reaches ds k fs r → Reaches ds k (.mk [n] t tag :: fs) (⟨n, k, t, saysOmit tag⟩ :: r)
  | struct {k n tag fs' fs r' r} : Underlying ds (.ident n) (.struct fs') → Reaches ds (k + 1) fs' r' → Reaches ds k fs r →
      Reaches ds k (.mk [] (.ident n) tag :: fs) (r' ++ r)
  | other {k n tag u fs r} : Underlying ds (.ident n) u → (∀ fs', u ≠ .struct fs') → Reaches ds k fs r →
      Reaches ds k (.mk [] (.ident n) tag :: fs) (⟨n, k, .ident n, saysOmit tag⟩ :: r)

omit [Unicode] in
/-- The name begins with a capital letter of ASCII. -/
def exported : Bytes → Bool
  | c :: _ => decide (65 ≤ c ∧ c ≤ 90)
  | [] => false

omit [Unicode] in
/-- The fields that a library following `encoding/json` writes: those that are exported and the least embedded of their
name. If several are, none of them is. -/
def writtenFields (l : List FlatField) : List FlatField :=
  l.filter fun x => exported x.name && decide ((l.filter fun y => decide (y.name = x.name ∧ y.depth ≤ x.depth)).length = 1)

omit [Unicode] in
/-- The struct is marked to be written as an array. -/
def markedArray (fs : List GoField) : Prop := ∃ t, GoField.mk [b!"_"] t (some b!"`cbor:\",toarray\"`") ∈ fs

omit [Unicode] in
mutual
/-- `Writes ds e d`: a value of the Go type `e`, in a package with the declarations `ds`, is written as `d` by a CBOR library
that follows `encoding/json` and has the option `toarray`, such as github.com/fxamacker/cbor. The predeclared types are
those that the generator uses; a slice that is nil is written as null. -/
inductive Writes (ds : List GoDecl) : GoExpr → Data → Prop
  | bool {b} : b!"bool" ∉ topNames ds → Writes ds (.ident b!"bool") (.bool b)
  | string {s} : b!"string" ∉ topNames ds → Writes ds (.ident b!"string") (.text s)
  | int {v} : b!"int" ∉ topNames ds → goInt v → Writes ds (.ident b!"int") (.int v)
  | uint {v : Int} : b!"uint" ∉ topNames ds → 0 ≤ v → v < 2 ^ 64 → Writes ds (.ident b!"uint") (.int v)
  | declared {doc n e d} : GoDecl.type doc n e ∈ ds → Writes ds e d → Writes ds (.ident n) d
  | nilSlice {e} : Writes ds (.array e) .null
  | bytes {b} : b!"byte" ∉ topNames ds → Writes ds (.array (.ident b!"byte")) (.bytes b)
  | slice {e items} : e ≠ .ident b!"byte" → (∀ d ∈ items, Writes ds e d) → Writes ds (.array e) (.array items)
  | array {fs r items} : markedArray fs → Reaches ds 0 fs r → WritesAll ds ((writtenFields r).map (·.type)) items →
      Writes ds (.struct fs) (.array items)
  | map {fs r items} {l : List FlatField} : ¬ markedArray fs → Reaches ds 0 fs r → l.Sublist (writtenFields r) → (∀ x ∈ writtenFields r, x.optional = false → x ∈ l) →
      WritesAll ds (l.map (·.type)) items → Writes ds (.struct fs) (.map ((l.map (·.name)).zip items))
/-- The same for a list of types. -/
inductive WritesAll (ds : List GoDecl) : List GoExpr → List Data → Prop
  | nil : WritesAll ds [] []
  | cons {e d es items} : Writes ds e d → WritesAll ds es items → WritesAll ds (e :: es) (d :: items)
end

/-! ### Plain schemas -/

omit [Unicode] in
/-- What a name stands for, in the end. -/
inductive Resolves (rules : List Node) : Bytes → Node → Prop
  | done {p i v c} : Node.rule p i v c ∈ rules → v.kind ≠ .ident → Resolves rules i.name v
  | step {p i j c v} : Node.rule p i (.ident j) c ∈ rules → Resolves rules j.name v → Resolves rules i.name v

omit [Unicode] in
/-- The name of a group. -/
def IsGroup (rules : List Node) (name : Bytes) : Prop := ∃ p es, Resolves rules name (.group p es)

omit [Unicode] in
/-- The name of an array. -/
def IsArray (rules : List Node) (name : Bytes) : Prop := ∃ p es, Resolves rules name (.array p es)

omit [Unicode] in
mutual
/-- Types without occurrences and literals: `bool`, `tstr`, `bytes`, `int`, `uint`, the names of types, and arrays. With
`sizes` also size controls, with `opt` optional entries. -/
inductive PlainType (opt sizes : Bool) (rules : List Node) : Node → Prop
  | base {n} : n.kind ∈ [NodeKind.boolType, .tstr, .bytes, .intType, .uintType] → PlainType opt sizes rules n
  | name {j} : ¬ IsGroup rules j.name → PlainType opt sizes rules (.ident j)
  | array {p es} : PlainEntries opt sizes rules es → PlainType opt sizes rules (.array p es)
  | size {p t q u k ty} : sizes = true → ty.kind ∈ [NodeKind.uintType, .bytes, .tstr] →
      PlainType opt sizes rules (.size p t (.intLit q u k) ty)
/-- Entries with a key and a type, and names of groups or of types other than arrays. -/
inductive PlainEntries (opt sizes : Bool) (rules : List Node) : List Node → Prop
  | nil : PlainEntries opt sizes rules []
  | entry {p i v c es} : PlainType opt sizes rules v → PlainEntries opt sizes rules es → PlainEntries opt sizes rules (.entry p i v c :: es)
  | optional {p t q i v c es} : opt = true → PlainType opt sizes rules v → PlainEntries opt sizes rules es →
      PlainEntries opt sizes rules (.optional p t (.entry q i v c) :: es)
  | name {j es} : ¬ IsArray rules j.name → PlainEntries opt sizes rules es → PlainEntries opt sizes rules (.ident j :: es)
end

omit [Unicode] in
/-- The keys of the entries of an array, with those of the groups that are named in it; an entry without a key has the name
of its type for one. -/
inductive Keys (rules : List Node) : List Node → List Ident → Prop
  | nil : Keys rules [] []
  | entry {p i v c es ks} : Keys rules es ks → Keys rules (.entry p i v c :: es) (i :: ks)
  | optional {p t q i v c es ks} : Keys rules es ks → Keys rules (.optional p t (.entry q i v c) :: es) (i :: ks)
  | type {j es ks} : ¬ IsGroup rules j.name → Keys rules es ks → Keys rules (.ident j :: es) (j :: ks)
  | group {j p es' ks' es ks} : Resolves rules j.name (.group p es') → Keys rules es' ks' → Keys rules es ks →
      Keys rules (.ident j :: es) (ks' ++ ks)

/-- Schemas of plain types and of groups of such entries, where no two rules have the same Go name, and no two entries of an
array either, with those of the groups named in it. -/
structure PlainSchema (opt sizes : Bool) (lib : GoLib) (rules : List Node) : Prop where
  names : (ruleIdents rules).Pairwise fun i j => ∀ m, Named lib i m → ¬ Named lib j m
  values : ∀ p i v c, Node.rule p i v c ∈ rules →
    (∃ q es, v = .group q es ∧ PlainEntries opt sizes rules es) ∨ (∃ j, v = .ident j) ∨ PlainType opt sizes rules v
  keys : ∀ p i v c, Node.rule p i v c ∈ rules → ∀ q es, Node.array q es ∈ subs v → ∀ ks, Keys rules es ks →
    ks.Pairwise fun i j => ∀ m, Named lib i m → ¬ Named lib j m

omit [Unicode] in
/-- The name is not one of a socket or plug, and camel case makes it begin with a capital letter of ASCII or a digit. -/
def UpperName (lib : GoLib) (i : Ident) : Prop :=
  i.name.head? ≠ some 36 ∧ ∃ c t, lib.toCamel i.name = c :: t ∧ (65 ≤ c ∧ c ≤ 90 ∨ 48 ≤ c ∧ c ≤ 57)

end Cddlc.Spec
