import Verif.Spec.Layout
import Verif.Spec.Diag

/-! What is said of texts that are put one behind the other. -/

namespace Cddlc.Spec
open Cddlc
variable [Unicode]

/-- The tokens of the source are read without lexical errors, and the last is `c`. -/
def LastToken (src : Bytes) (c : Token) : Prop :=
  ∃ ts l x s l', Scans (Lexer.new src) (ts ++ [c]) l ∧ (∀ t ∈ ts ++ [c], t.tok ≠ .EOF) ∧
    l.scan = .ok (.EOF, x, s, l') ∧ l.errors = []

/-- A text that can have another behind it: it ends in a line break; its tokens are read without lexical
errors, and the last is neither a comment nor `.regexp`. -/
def Whole (cs : List Char) : Prop :=
  '�' ∉ cs ∧ (∃ t, cs = t ++ ['\n']) ∧ ∃ c, LastToken (enc cs) c ∧ c.tok ≠ .COMMENT ∧ c.tok ≠ .REGEXP

/-- The parser returns a tree and reports nothing, or only what the checks at the end report. -/
def ReadWell (r : PState.FileResult) (rules : List Node) : Prop :=
  r.cddl = some rules ∧ ∀ d ∈ r.errs, onlyDeferred d.msg = true

end Cddlc.Spec
