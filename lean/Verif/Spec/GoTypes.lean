import Verif.Spec.Codegen

/-! What the Go compiler and a CBOR library ask of generated types: fields with different names, no
type that contains itself, and the keys under which fields are written. -/

namespace Cddlc.Spec
variable [Unicode]

/-! ### Fields -/

omit [Unicode] in
/-- The names of the fields of a struct; an embedded field has the name of its type. -/
def fieldNames : List GoField → List Bytes
  | [] => []
  | .mk [] (.ident n) _ :: rest => n :: fieldNames rest
  | .mk ns _ _ :: rest => ns ++ fieldNames rest

omit [Unicode] in
mutual
/-- No struct in the type has two fields with the same name; the blank identifier may be repeated. -/
def distinctFields : GoExpr → Prop
  | .struct fs => ((fieldNames fs).filter (· ≠ b!"_")).Nodup ∧ distinctIn fs
  | .array e => distinctFields e
  | .ident _ => True
  | .basic .. => True
@[inherit_doc distinctFields] def distinctIn : List GoField → Prop
  | [] => True
  | .mk _ t _ :: rest => distinctFields t ∧ distinctIn rest
end

omit [Unicode] in
/-- The name an entry of a group or array is known by: its key, or the name of the group or type
it is if it has none. -/
def key : Node → Option Ident
  | .entry _ i _ _ => some i
  | .optional _ _ (.entry _ i _ _) => some i
  | .ident i => some i
  | _ => none

/-- No two entries of a list have the same Go name. -/
def NoClash (lib : GoLib) (es : List Node) : Prop :=
  (es.filterMap key).Pairwise fun i j => ∀ m, Named lib i m → Named lib j m → m = b!"_"

/-- Nor do those of any group or array in the tree. -/
def ClashFree (lib : GoLib) (n : Node) : Prop :=
  ∀ x ∈ subs n, ∀ p es, x = .group p es ∨ x = .array p es → NoClash lib es

/-! ### Containment -/

omit [Unicode] in
mutual
/-- The names of the types whose values are part of a value of the type. A slice refers to its
elements and does not contain them. -/
def holds : GoExpr → List Bytes
  | .ident n => [n]
  | .struct fs => holdsIn fs
  | .array _ => []
  | .basic .. => []
@[inherit_doc holds] def holdsIn : List GoField → List Bytes
  | [] => []
  | .mk _ t _ :: rest => holds t ++ holdsIn rest
end

omit [Unicode] in
/-- A value of the declared type `m` has a value of type `k` as a part. -/
def Contains (ds : List GoDecl) (m k : Bytes) : Prop := ∃ doc e, GoDecl.type doc m e ∈ ds ∧ k ∈ holds e

omit [Unicode] in
/-- What the Go compiler rejects as an "invalid recursive type": a type that contains itself,
directly or through others. -/
def InvalidRecursive (ds : List GoDecl) : Prop := ∃ m, Relation.TransGen (Contains ds) m m

omit [Unicode] in
mutual
/-- The names in a CDDL type that stand for a part of it, occurrences other than `?` left out. -/
def parts : Node → List Ident
  | .ident i => [i]
  | .group _ es => partsIn es
  | .array _ es => partsIn es
  | .entry _ _ v _ => parts v
  | .optional _ _ i => parts i
  | _ => []
@[inherit_doc parts] def partsIn : List Node → List Ident
  | [] => []
  | e :: es => parts e ++ partsIn es
end

omit [Unicode] in
/-- The rule named `a` has what is named `b` as a part. -/
def HasPart (rules : List Node) (a b : Bytes) : Prop :=
  ∃ p i v c, Node.rule p i v c ∈ rules ∧ i.name = a ∧ ∃ j ∈ parts v, j.name = b

/-! ### Keys -/

omit [Unicode] in
/-- The name in a struct tag for CBOR: what stands before the first comma or quote. -/
def tagName (tag : Bytes) : Bytes :=
  if tag.take 7 = b!"`cbor:\"" then (tag.drop 7).takeWhile fun c => c ≠ 44 && c ≠ 34 else []

omit [Unicode] in
/-- The map key under which a CBOR library that follows `encoding/json` writes a field: the name in
its tag if there is one, else its Go name. -/
def cborKey : GoField → Option Bytes
  | .mk [n] _ none => some n
  | .mk [n] _ (some tag) => some (if tagName tag = [] then n else tagName tag)
  | _ => none

end Cddlc.Spec
