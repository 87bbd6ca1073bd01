import Verif.Model.Parser

/-! Where a top-level node of a file begins. -/

namespace Cddlc

/-- The position of the first token of a top-level node. -/
def headPos : Node → Pos
  | .rule _ name _ _ => name.pos
  | .comment c => c.pos
  | .commentGroup (c :: _) => c.pos
  | _ => {}

end Cddlc
