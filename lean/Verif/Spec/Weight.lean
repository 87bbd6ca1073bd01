import Verif.Spec.Tree

/-! How large a tree is. -/

namespace Cddlc.Spec

/-- A rule, and not a comment. -/
def isRule : Node → Bool
  | .rule .. => true
  | _ => false

/-- How many nodes a list of trees has; the nil interface is not a node. -/
def nodes (xs : List Node) : Nat := (subsList xs).length

end Cddlc.Spec
