import Verif.Spec.Uncomment

/-! Where comments can be put into a source. -/

namespace Cddlc.Spec
open Cddlc

def leftBrackets : List Tok := [.LPAREN, .LBRACK, .LBRACE]
def rightBrackets : List Tok := [.RPAREN, .RBRACK, .RBRACE]
def ruleSigns : List Tok := [.ASSIGN, .TYPE_CHOICE_ASSIGN, .GROUP_CHOICE_ASSIGN]

/-- Operators between the parts of a type, but for those of ranges. -/
def separators : List Tok := [.TYPE_CHOICE, .GROUP_CHOICE, .SIZE, .REGEXP, .BITS, .LT, .LE, .GT, .GE, .EQ, .NE]

/-- How many more brackets are opened than are closed. -/
def rise (ts : List Token) : Int := ts.countP (·.tok ∈ leftBrackets) - ts.countP (·.tok ∈ rightBrackets)

/-- No bracket is closed that is not opened before, and all are closed. -/
def WellNested (ts : List Token) : Prop := rise ts = 0 ∧ ∀ V W, ts = V ++ W → 0 ≤ rise V

/-- The value of a field, as far as is seen from the brackets and operators in it: single tokens and lists in
brackets, with operators between them, and ranges that begin with a name or a number; no tags. -/
inductive FieldValue : List Token → Prop
  | one {t} : t.tok ∉ .COMMA :: .HASH :: infixes ++ leftBrackets ++ rightBrackets → FieldValue [t]
  | list {o c ts} : o.tok ∈ leftBrackets → c.tok ∈ rightBrackets → WellNested ts → (∀ t ∈ ts, t.tok ≠ .HASH) → FieldValue (o :: ts ++ [c])
  | more {ts us op} : FieldValue ts → op.tok ∈ separators → FieldValue us → FieldValue (ts ++ op :: us)
  | range {t us op} : t.tok = .IDENT ∨ IsNumber t → op.tok = .INCLUSIVE_BOUND ∨ op.tok = .EXCLUSIVE_BOUND → FieldValue us →
      FieldValue (t :: op :: us)

/-- The tokens end with a field, perhaps with a comma behind it. -/
def EndsField (pre : List Token) : Prop :=
  ∃ A op us c, pre = A ++ op :: us ++ c ∧ (op.tok = .COLON ∨ op.tok = .ARROW_MAP) ∧ FieldValue us ∧
    (c = [] ∨ ∃ d, c = [d] ∧ d.tok = .COMMA)

/-- The comments `gs` can be put between the tokens `l` and `r`; `pre` are the tokens in front of `l`. -/
structure Placed (pre : List Token) (l : Token) (gs : List Token) (r : Token) : Prop where
  /-- not in front of an operator; in front of a `*` or `+` that begins an entry, but then not on the line of a comma -/
  op : r.tok ∈ infixes → (r.tok = .ZERO_OR_MORE ∨ r.tok = .ONE_OR_MORE) ∧ l.tok ∈ breaks ∧
    (l.tok = .COMMA → ∀ g ∈ gs.head?, g.pos.line ≠ l.pos.line)
  /-- not in front of a comma, nor behind the name of a rule -/
  comma : r.tok ≠ .COMMA
  assign : r.tok ∉ ruleSigns
  /-- in front of a closing bracket only one comment, on the line of the last field -/
  closing : r.tok ∈ rightBrackets → ∃ g, gs = [g] ∧ l.pos.line = g.pos.line ∧ EndsField (pre ++ [l])
  /-- not between an occurrence and a number -/
  upper : l.tok = .ZERO_OR_MORE ∨ l.tok = .ONE_OR_MORE → ¬ (r.tok = .INT ∧ r.lit ≠ b!"int")
  /-- not between the parts of a tag -/
  tag : l.tok = .HASH → r.tok ≠ .INT ∧ r.tok ≠ .FLOAT
  item : r.tok = .LPAREN → l.tok ≠ .HASH ∧ ¬ IsNumber l
  /-- not behind `.regexp` -/
  regexp : l.tok ≠ .REGEXP

/-- All comments stand where they can be. -/
def WellPlaced (ts : List Token) : Prop :=
  ∀ A l gs r B, ts = A ++ l :: gs ++ r :: B → gs ≠ [] → (∀ g ∈ gs, g.tok = .COMMENT) → l.tok ≠ .COMMENT →
    r.tok ≠ .COMMENT → Placed (code A) l gs r

/-- Between two rules there is not just one comment that begins on the line of the first one. -/
def Separated (ts : List Token) : Prop :=
  ∀ A l g n a B, ts = A ++ l :: g :: n :: a :: B → l.tok ≠ .COMMENT → g.tok = .COMMENT → n.tok = .IDENT → a.tok ∈ ruleSigns →
    l.pos.line ≠ g.pos.line

end Cddlc.Spec
