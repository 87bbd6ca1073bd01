import Verif.Model.Ast

/-! What the tree printer shows of a tree, independently of `format`. -/

namespace Cddlc.Spec

/-- The nodes the printer looks at: the operands of a type choice and the value of an enumeration;
it names any other node without looking below it. -/
inductive Printed : Node → Node → Prop
  | root (n) : Printed n n
  | first {pos tok a b x} : Printed a x → Printed (.typeChoice pos tok a b) x
  | second {pos tok a b x} : Printed b x → Printed (.typeChoice pos tok a b) x
  | value {pos tok a x} : Printed a x → Printed (.enumeration pos tok a) x

/-- A nil pointer of a kind that is printed with its fields. -/
def NilPrinted (x : Node) : Prop := ∃ k, x = .typedNil k ∧
  k ∈ [NodeKind.ident, .typeChoice, .intLit, .floatLit, .intType, .floatType, .enumeration, .group]

/-- A text without its tabs. -/
def noTabs (s : Bytes) : Bytes := s.filter fun c => c ≠ 9

end Cddlc.Spec
