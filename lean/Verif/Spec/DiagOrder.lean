import Verif.Spec.Diag

/-! In what order diagnostics are listed. -/

namespace Cddlc.Spec

/-- A diagnostic of the checks that are made of names, behind the last rule: by its message, or because it is at a
name. -/
def OfCheck [Unicode] (l : Lexer) (d : Diag) : Prop :=
  onlyDeferred d.msg = true ∨ ((d.msg = .floatInIntRange ∨ d.msg = .intInFloatRange) ∧ TkAt l .IDENT d.start)

/-- That two names have different types, which is said at the first of them. -/
def comparesTwo : Msg → Bool
  | .boundTypes .. => true
  | _ => false

/-- `d` stands before `e` in the text. -/
def Before (d e : Diag) : Prop := d.start.offset < e.start.offset

end Cddlc.Spec
