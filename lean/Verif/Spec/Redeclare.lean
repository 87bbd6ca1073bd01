import Verif.Spec.Language
import Verif.Spec.Diag

/-! Names that are declared more than once. -/

namespace Cddlc.Spec
open Cddlc

/-- The declarations of a name that is declared already, with what it was declared as first. -/
def repeats (seen : List (Bytes × Node)) : List (Bytes × Node) → List (Bytes × Node)
  | [] => []
  | d :: ds =>
    (match seen.find? (·.1 = d.1) with
      | some b => [(d.1, b.2)]
      | none => []) ++ repeats (seen ++ [d]) ds

/-- A comparison, or a range that has lost its ends, is at the left end of the type, in front of choices and `.bits`. -/
def headless : Node → Bool
  | .comparator .. => true
  | .range _ _ .nil _ => true
  | .typeChoice _ _ a _ => headless a
  | .bits _ _ a _ => headless a
  | _ => false

/-- The diagnostics that are about what is declared, and not about how it is written. -/
def semantic : Msg → Bool
  | .existing .. => true
  | m => onlyDeferred m

end Cddlc.Spec
