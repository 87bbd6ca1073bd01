import Verif.Model.Ast

/-! `astutils.Walk` (ast/astutils/walk.go) with an arbitrary visitor. -/

namespace Cddlc

/-- A Go computation that changes a state `σ`; the state survives a panic.
For ast/astutils/walk.go:13 and the visitors of :9-11. -/
abbrev Act (σ α : Type) := σ → σ × Out α

/-- Sequencing of computations: after a panic nothing more happens.
For the sequences of statements of ast/astutils/walk.go:13-188. -/
def Act.bind {σ α β : Type} (a : Act σ α) (f : α → Act σ β) : Act σ β := fun s =>
  match a s with
  | (s, .ok x) => f x s
  | (s, .panic w) => (s, .panic w)
  | (s, .hang) => (s, .hang)

/-- models ast/astutils/walk.go:9-11 `type Visitor interface`: what `Visit` does when called on the
visitor `v` with a node, for all visitors a program may use at once. It may change the state `σ`
of the program, panic, and return another visitor, or nil (`none`). `Visit(nil)` passes
`Node.nil`. -/
structure Visitors (σ V : Type) where
  visit : V → Node → Act σ (Option V)

/-- A pointer-valued field as a node, walk.go:67, 73, 122, 125, 141, 147, 152, 155. -/
def someComment : Option Comment → Node
  | none => .nil
  | some c => .comment c

/-- A pointer-valued field as a node. At ast/astutils/walk.go:122, 125, 152, 155. -/
def someUint : Option UintLit → Node
  | none => .nil
  | some u => .uintLit u

/-- models the cases of ast/astutils/walk.go:18-185 for a nil pointer of dynamic type `k`: a case
without fields passes, any other reads a field of it, and unlisted types reach the default. -/
def walkNilPointer (k : NodeKind) : Option PanicKind :=
  match k with
  | .boolType | .bytes | .bstr | .comment | .floatType | .floatLit | .ident | .intType | .nintType
  | .intLit | .null | .textLit | .tstr | .uintLit => none
  | .array | .cddl | .comparator | .regexp | .size | .entry | .group | .groupChoice | .map
  | .optional | .nm | .range | .rule | .tag | .typeChoice | .unwrap => some .nilDeref
  | .none | .badNode | .boolLit | .commentGroup | .bits | .enumeration | .uintType => some .explicit

section
variable {σ V : Type} (vs : Visitors σ V)

/-- The calls of ast/astutils/walk.go:14-16 and 187 around the cases `body`. -/
def walkAround (v : V) (node : Node) (body : V → Act σ Unit) : Act σ Unit :=
  Act.bind (vs.visit v node) fun v => match v with
    | none => fun s => (s, .ok ())
    | some v => Act.bind (body v) fun _ => Act.bind (vs.visit v .nil) fun _ s => (s, .ok ())

/-- An optional field that is a leaf: `if f != nil { Walk(v, f) }`. E.g. ast/astutils/walk.go:67, 73, 122, 125. -/
def walkLeaf (v : V) (node : Node) : Act σ Unit :=
  if node.isNil then fun s => (s, .ok ()) else walkAround vs v node fun _ s => (s, .ok ())

/-- `if f != nil { Walk(v, f) }`, e.g. walk.go:43-45. -/
def ifPresent {σ : Type} (node : Node) (call : Act σ Unit) : Act σ Unit :=
  if node.isNil then fun s => (s, .ok ()) else call

mutual
/-- models ast/astutils/walk.go:13-188 `func Walk(v Visitor, node ast.Node)`, for a non-nil `v`. -/
def walk (v : V) (node : Node) : Act σ Unit :=
  match node with
  | .nil => walkAround vs v .nil fun _ s => (s, .panic .explicit)
  | .typedNil k => walkAround vs v (.typedNil k) fun _ s => match walkNilPointer k with
      | none => (s, .ok ())
      | some w => (s, .panic w)
  | .array p rules => walkAround vs v (.array p rules) fun v => walkList v rules
  | .badNode p t b e => walkAround vs v (.badNode p t b e) fun _ s => (s, .panic .explicit)
  | .boolType p t => walkAround vs v (.boolType p t) fun _ s => (s, .ok ())
  | .boolLit r b => walkAround vs v (.boolLit r b) fun _ s => (s, .panic .explicit)
  | .bstr p t => walkAround vs v (.bstr p t) fun _ s => (s, .ok ())
  | .bytes p t => walkAround vs v (.bytes p t) fun _ s => (s, .ok ())
  | .cddl p rules => walkAround vs v (.cddl p rules) fun v => walkList v rules
  | .comment c => walkAround vs v (.comment c) fun _ s => (s, .ok ())
  | .commentGroup l => walkAround vs v (.commentGroup l) fun _ s => (s, .panic .explicit)
  | .bits p t a b => walkAround vs v (.bits p t a b) fun _ s => (s, .panic .explicit)
  | .comparator p t o a b => walkAround vs v (.comparator p t o a b) fun v =>
      Act.bind (ifPresent a (walk v a)) fun _ => ifPresent b (walk v b)
  | .regexp p t b r => walkAround vs v (.regexp p t b r) fun v =>
      Act.bind (walkLeaf vs v (.tstr b)) fun _ => ifPresent r (walk v r)
  | .size p t sz ty => walkAround vs v (.size p t sz ty) fun v =>
      Act.bind (ifPresent ty (walk v ty)) fun _ => ifPresent sz (walk v sz)
  | .entry p n x c => walkAround vs v (.entry p n x c) fun v =>
      Act.bind (walkLeaf vs v (.ident n)) fun _ => Act.bind (ifPresent x (walk v x)) fun _ =>
        walkLeaf vs v (someComment c)
  | .enumeration p t x => walkAround vs v (.enumeration p t x) fun _ s => (s, .panic .explicit)
  | .floatType p t => walkAround vs v (.floatType p t) fun _ s => (s, .ok ())
  | .floatLit r t x => walkAround vs v (.floatLit r t x) fun _ s => (s, .ok ())
  | .group p es => walkAround vs v (.group p es) fun v => walkList v es
  | .groupChoice p t a b => walkAround vs v (.groupChoice p t a b) fun v =>
      Act.bind (ifPresent a (walk v a)) fun _ => ifPresent b (walk v b)
  | .ident i => walkAround vs v (.ident i) fun _ s => (s, .ok ())
  | .intType p t => walkAround vs v (.intType p t) fun _ s => (s, .ok ())
  | .nintType p t => walkAround vs v (.nintType p t) fun _ s => (s, .ok ())
  | .intLit p t x => walkAround vs v (.intLit p t x) fun _ s => (s, .ok ())
  | .map p es => walkAround vs v (.map p es) fun v => walkList v es
  | .null p t => walkAround vs v (.null p t) fun _ s => (s, .ok ())
  | .optional p t i => walkAround vs v (.optional p t i) fun v => ifPresent i (walk v i)
  | .nm p t a b i => walkAround vs v (.nm p t a b i) fun v =>
      Act.bind (walkLeaf vs v (someUint a)) fun _ => Act.bind (walkLeaf vs v (someUint b)) fun _ =>
        ifPresent i (walk v i)
  | .range p t a b => walkAround vs v (.range p t a b) fun v =>
      Act.bind (ifPresent a (walk v a)) fun _ => ifPresent b (walk v b)
  | .rule p n x c => walkAround vs v (.rule p n x c) fun v =>
      Act.bind (walkLeaf vs v (.ident n)) fun _ => Act.bind (ifPresent x (walk v x)) fun _ =>
        walkLeaf vs v (someComment c)
  | .tag p t a b i => walkAround vs v (.tag p t a b i) fun v =>
      Act.bind (walkLeaf vs v (someUint a)) fun _ => Act.bind (walkLeaf vs v (someUint b)) fun _ =>
        ifPresent i (walk v i)
  | .textLit p t l => walkAround vs v (.textLit p t l) fun _ s => (s, .ok ())
  | .tstr t => walkAround vs v (.tstr t) fun _ s => (s, .ok ())
  | .typeChoice p t a b => walkAround vs v (.typeChoice p t a b) fun v =>
      Act.bind (ifPresent a (walk v a)) fun _ => ifPresent b (walk v b)
  | .uintType r t => walkAround vs v (.uintType r t) fun _ s => (s, .panic .explicit)
  | .uintLit u => walkAround vs v (.uintLit u) fun _ s => (s, .ok ())
  | .unwrap p t i => walkAround vs v (.unwrap p t i) fun v => ifPresent i (walk v i)
/-- `for _, rule := range … { Walk(v, rule) }`, e.g. walk.go:21-23. -/
def walkList (v : V) (nodes : List Node) : Act σ Unit :=
  match nodes with
  | [] => fun s => (s, .ok ())
  | x :: xs => Act.bind (walk v x) fun _ => walkList v xs
end
end

end Cddlc
