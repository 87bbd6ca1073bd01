import Verif.Spec.Language

/-! Sources without their comments: where it makes no difference whether there are comments. -/

namespace Cddlc.Spec
open Cddlc

/-- The tokens that are not comments. -/
def code (ts : List Token) : List Token := ts.filter (·.tok ≠ .COMMENT)

/-- Signs behind which an operand is still to come. -/
def breaks : List Tok := [.COMMA, .LPAREN, .LBRACK, .LBRACE, .ASSIGN, .TYPE_CHOICE_ASSIGN, .GROUP_CHOICE_ASSIGN,
  .COLON, .ARROW_MAP]

/-- A number, and not the name of a type. -/
def IsNumber (t : Token) : Prop := t.tok = .INT ∧ t.lit ≠ b!"int" ∨ t.tok = .FLOAT ∧ t.lit ≠ b!"float"

/-- Tokens that mean the same with comments between them and without. -/
structure Apart (l r : Token) : Prop where
  /-- no operator, but a `*` or `+` that begins an entry -/
  op : r.tok ∈ infixes → (r.tok = .ZERO_OR_MORE ∨ r.tok = .ONE_OR_MORE) ∧ l.tok ∈ breaks
  /-- not two commas -/
  comma : r.tok = .COMMA → l.tok ≠ .COMMA
  /-- not an occurrence and its upper bound -/
  upper : l.tok = .ZERO_OR_MORE ∨ l.tok = .ONE_OR_MORE → ¬ (r.tok = .INT ∧ r.lit ≠ b!"int")
  /-- not the parts of a tag -/
  tag : l.tok = .HASH → r.tok ≠ .INT ∧ r.tok ≠ .FLOAT
  item : r.tok = .LPAREN → l.tok ≠ .HASH ∧ ¬ IsNumber l

/-- All comments stand between such tokens. -/
def Removable (ts : List Token) : Prop :=
  ∀ A l gs r B, ts = A ++ l :: gs ++ r :: B → gs ≠ [] → (∀ g ∈ gs, g.tok = .COMMENT) → l.tok ≠ .COMMENT →
    r.tok ≠ .COMMENT → Apart l r

/-- As many parentheses are closed as are opened. -/
def Closed (ts : List Token) : Prop :=
  ts.countP (·.tok = .LPAREN) = ts.countP (·.tok = .RPAREN)

/-- Behind the comment of a rule there is nothing, or another comment. -/
def NothingLost (ts : List Token) (rules : List Node) : Prop :=
  ∀ p n v k, Node.rule p n v (some k) ∈ rules → ∀ A c B, ts = A ++ c :: B → c.pos = k.pos →
    ∀ d ∈ B.head?, d.tok = .COMMENT

/-- The rules of a file without comments. -/
def uncommented (rules : List Node) : List Node :=
  rules.filterMap fun
    | .rule p n v _ => some (.rule p n (noNotes v) none)
    | _ => none

end Cddlc.Spec
