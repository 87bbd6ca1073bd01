import Verif.Spec.Tree
import Verif.Spec.Tiles

/-! Where the text of a node starts and ends, independently of the `Start` and `End` methods. -/

namespace Cddlc.Spec

/-- The nodes made of one token. -/
def oneToken : Node → Prop
  | .boolType .. | .boolLit .. | .tstr .. | .textLit .. | .floatLit .. | .floatType .. | .uintLit ..
  | .uintType .. | .intLit .. | .intType .. | .nintType .. | .bstr .. | .bytes .. | .null ..
  | .ident .. => True
  | _ => False

/-- The one-token nodes, with the text `raw` of their token, whose end is the end of that text. -/
def Exact (raw : Bytes) : Node → Prop
  | .boolType .. | .tstr .. | .uintType .. | .intType .. | .nintType .. | .bytes .. | .ident .. => True
  | .null _ t => t = .NULL
  | .floatType _ t => t = .FLOAT
  -- an integer written in decimal without leading zeros and without underscores
  | .intLit _ _ v => (decInt v).length = raw.length
  -- the reserved word `text_literal`
  | .textLit _ _ lit => raw = lit
  | _ => False

/-- `x` ends with `y`: `y` is `x`, or what `x` ends with in the text apart from closing brackets. -/
inductive EndsWith : Node → Node → Prop
  | refl (x) : EndsWith x x
  | array {p es e y} : es.getLast? = some e → EndsWith e y → EndsWith (.array p es) y
  | group {p es e y} : es.getLast? = some e → EndsWith e y → EndsWith (.group p es) y
  | map {p es e y} : es.getLast? = some e → EndsWith e y → EndsWith (.map p es) y
  | bits {p t a b y} : EndsWith b y → EndsWith (.bits p t a b) y
  | comparator {p t o a b y} : EndsWith b y → EndsWith (.comparator p t o a b) y
  | regexp {p t a b y} : EndsWith b y → EndsWith (.regexp p t a b) y
  | size {p t s a y} : EndsWith s y → EndsWith (.size p t s a) y
  | entry {p n v c y} : EndsWith v y → EndsWith (.entry p n v c) y
  | enumeration {p t v y} : EndsWith v y → EndsWith (.enumeration p t v) y
  | optional {p t v y} : EndsWith v y → EndsWith (.optional p t v) y
  | unwrap {p t v y} : EndsWith v y → EndsWith (.unwrap p t v) y
  | typeChoice {p t a b y} : EndsWith b y → EndsWith (.typeChoice p t a b) y
  | range {p t a b y} : EndsWith b y → EndsWith (.range p t a b) y
  | tag {p t a b v y} : EndsWith v y → EndsWith (.tag p t a b v) y
  | rule {p n v c y} : EndsWith v y → EndsWith (.rule p n v c) y

/-- `x` starts with `y`: `y` is `x`, or the left part of what `x` starts with. -/
inductive StartsWith : Node → Node → Prop
  | refl (x) : StartsWith x x
  | bits {p t a b y} : StartsWith a y → StartsWith (.bits p t a b) y
  | size {p t s a y} : StartsWith a y → StartsWith (.size p t s a) y
  | typeChoice {p t a b y} : StartsWith a y → StartsWith (.typeChoice p t a b) y
  | range {p t a b y} : StartsWith a y → StartsWith (.range p t a b) y

/-- Nodes without a right end: an occurrence without an upper bound, a range without an upper
bound, a tag without a type, a rule whose value could not be read. -/
def NoEnd : Node → Prop
  | .nm _ _ _ none _ => True
  | .range _ _ _ .nil => True
  | .tag _ _ _ _ .nil => True
  | .rule _ _ .nil _ => True
  | _ => False

/-- Nodes without a left end: a comparison, which has no left side, and a range without a lower
bound. -/
def NoStart : Node → Prop
  | .comparator .. => True
  | .range _ _ .nil _ => True
  | _ => False

end Cddlc.Spec
