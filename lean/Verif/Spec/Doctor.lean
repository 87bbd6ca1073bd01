import Verif.Model.Basic

/-! How a report of lines "label: value" is read. -/

namespace Cddlc.Spec
open Cddlc

/-- The lines of a text; what follows the last line break is a line as well. -/
def textLines : Bytes → List Bytes
  | [] => [[]]
  | c :: s =>
    if c = 10 then [] :: textLines s
    else match textLines s with
      | [] => [[c]]
      | l :: ls => (c :: l) :: ls

/-- What is in front of the first colon, without tabs, and what follows the colon and a space. -/
def labelled : Bytes → Option (Bytes × Bytes)
  | [] => none
  | 58 :: 32 :: s => some ([], s)
  | c :: s => (labelled s).map fun (l, v) => (if c = 9 then l else c :: l, v)

/-- The labels and values of a report. -/
def report (s : Bytes) : List (Bytes × Bytes) := (textLines s).filterMap labelled

end Cddlc.Spec
