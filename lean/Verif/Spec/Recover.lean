import Verif.Spec.Join

/-! Mistakes that are noticed at the end of a source only. -/

namespace Cddlc.Spec
variable [Unicode]

/-- The diagnostic says that the source, whose last token is `c`, stops where more was expected: an operand, or
the assignment to the name that is the last token. -/
def CutOff (c : Token) (d : Diag) : Prop :=
  (∃ x, d.msg = .unexpectedPrefix .EOF x) ∨ ((∃ name, d.msg = .expectedAssign name) ∧ d.start = c.pos)

/-- None of the mistakes is that the source stops where more was expected. -/
def Finished (src : Bytes) (errs : List Diag) : Prop := ∀ c, LastToken src c → ∀ d ∈ errs, ¬ CutOff c d

/-- The source begins with a name or a comment, or is empty: what is in front of it cannot be continued by it. -/
def Opens (src : Bytes) : Prop :=
  ∀ c l, Scans (Lexer.new src) [c] l → c.tok = .EOF ∨ c.tok = .IDENT ∨ c.tok = .COMMENT

/-- The diagnostic is of a kind that the checks behind the last rule report. -/
def LateKind (d : Diag) : Prop := onlyDeferred d.msg = true ∨ d.msg = .floatInIntRange ∨ d.msg = .intInFloatRange

/-- No name is declared by both. -/
def NamesApart (env : Env) (x y : PState.FileResult) : Prop :=
  ∀ k, x.final.env.exists? k = true → y.final.env.exists? k = true → env.exists? k = true

/-- The texts are parts of a file and `xs` are the results of parsing each alone: no part but the last stops where more
was expected, each but the first begins with a name or a comment, and no name is declared in two parts. -/
structure Parts (env : Env) (texts : List (List Char)) (xs : List (Bytes × PState.FileResult)) : Prop where
  whole : ∀ t ∈ texts, Whole t
  some : texts ≠ []
  sources : xs.map (·.1) = texts.map enc
  parsed : ∀ x ∈ xs, ∃ n, parseSource n x.1 env = .ok x.2
  finished : ∀ x ∈ xs.dropLast, Finished x.1 x.2.errs
  opens : ∀ x ∈ xs.tail, Opens x.1
  apart : xs.Pairwise fun x y => NamesApart env x.2 y.2

end Cddlc.Spec
