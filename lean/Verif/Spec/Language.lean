import Verif.Spec.Schema
import Verif.Spec.Scans
import Verif.Model.Strconv

/-! Exactly which token sequences are accepted, and the trees of these: a grammar in which every operator takes all
that stands on its right, without precedences. -/

namespace Cddlc.Spec
open Cddlc

/-- Types and values of one token, but for names. -/
inductive Single (t : Token) : Node → Prop
  | bool : t.tok = .BOOL → Single t (.boolType t.pos t.tok)
  | true : t.tok = .TRUE → Single t (.boolLit ⟨t.pos, t.pos.to 3⟩ Bool.true)
  | false : t.tok = .FALSE → Single t (.boolLit ⟨t.pos, t.pos.to 4⟩ Bool.false)
  | text : t.tok = .TSTR ∨ t.tok = .TEXT → Single t (.tstr ⟨t.pos, t.tok⟩)
  | literal : t.tok = .TEXT_LITERAL → Single t (.textLit t.pos t.tok t.lit)
  | float : t.tok ∈ [Tok.FLOAT16, .FLOAT32, .FLOAT64] ∨ t.tok = .FLOAT ∧ t.lit = b!"float" →
      Single t (.floatType t.pos t.tok)
  | fraction {v} : t.tok = .FLOAT → t.lit ≠ b!"float" → parseFloat t.lit = .ok v →
      Single t (.floatLit ⟨t.pos, t.pos.to ((t.lit.length : Int) - 1)⟩ t.tok v)
  | uint : t.tok = .UINT → Single t (.uintType ⟨t.pos, t.pos.to 4⟩ t.tok)
  | int : t.tok = .INT → t.lit = b!"int" → Single t (.intType t.pos t.tok)
  | number {v} : t.tok = .INT → t.lit ≠ b!"int" → parseInt t.lit = .ok v → Single t (.intLit t.pos t.tok v)
  | nint : t.tok = .NINT → Single t (.nintType t.pos t.tok)
  | bstr : t.tok = .BSTR → Single t (.bstr t.pos t.tok)
  | bytes : t.tok = .BYTES → Single t (.bytes t.pos t.tok)
  | null : t.tok = .NULL ∨ t.tok = .NIL → Single t (.null t.pos t.tok)

/-- The numbers behind `#`: none, a major type (`#6`), or a major type and the number of a tag (`#6.32`). -/
inductive TagNums : List Token → Option UintLit → Option UintLit → Prop
  | none : TagNums [] none none
  | major {t v} : t.tok = .INT → parseUint t.lit = .ok v → TagNums [t] (some { value := v }) none
  | both {t a b v w} : t.tok = .FLOAT → splitDots t.lit = [a, b] → parseUint a = .ok v → parseUint b = .ok w →
      TagNums [t] (some ⟨t.pos, t.tok, v⟩) (some ⟨t.pos, t.tok, w⟩)

/-- Behind `*` and `+` a number is taken for an upper bound (and left to be the item as well). -/
inductive Upper (f : Token) : Option UintLit → Prop
  | none : ¬ (f.tok = .INT ∧ f.lit ≠ b!"int") → Upper f none
  | some {v} : f.tok = .INT → f.lit ≠ b!"int" → parseUint f.lit = .ok v → Upper f (some ⟨f.pos, f.tok, v⟩)

/-- What a mark in front of an entry makes of it; `f` is the first token of the entry. -/
inductive Marked (m f : Token) (x : Node) : Node → Prop
  | optional : m.tok = .OPTIONAL → Marked m f x (.optional m.pos m.tok x)
  | unwrap : m.tok = .UNWRAP → Marked m f x (.unwrap m.pos m.tok x)
  | enumeration : m.tok = .AMPERSAND → Marked m f x (.enumeration m.pos m.tok x)
  | any {u} : m.tok = .ZERO_OR_MORE → Upper f u → Marked m f x (.nm m.pos m.tok (some ⟨m.pos, .UINT, 0⟩) u x)
  | some {u} : m.tok = .ONE_OR_MORE → Upper f u → Marked m f x (.nm m.pos m.tok (some ⟨m.pos, .UINT, 1⟩) u x)

/-- The upper end that is kept of a range, if the range is in order. -/
def keptEnd : Node → Node → Option Node
  | .ident _, b => some b
  | .intLit .., .intLit p t v => some (.intLit p t v)
  | .intLit .., .ident i => some (.ident i)
  | .intLit .., .floatLit .. => none
  | .intLit .., _ => some .nil
  | .floatLit .., .floatLit r t v => some (.floatLit r t v)
  | .floatLit .., .ident i => some (.ident i)
  | .floatLit .., .intLit .. => none
  | .floatLit .., _ => some .nil
  | _, _ => none

/-- What an operator makes of the operands on its sides, and what is to be checked later; `f` is the first token of
the operand on the right. -/
inductive Joined (op f : Token) : Node → Node → Node → List Check → Prop
  | field {i b} : op.tok = .COLON ∨ op.tok = .ARROW_MAP → Joined op f (.ident i) b (.entry op.pos i b none) []
  | keyed {p t v b} : op.tok = .COLON ∨ op.tok = .ARROW_MAP →
      Joined op f (.intLit p t v) b (.entry op.pos ⟨op.pos, decInt v⟩ b none) []
  | choice {a b} : op.tok = .TYPE_CHOICE ∨ op.tok = .GROUP_CHOICE → Joined op f a b (.typeChoice op.pos op.tok a b) []
  | size {a b} : op.tok = .SIZE → a.kind ∈ [NodeKind.tstr, .bstr, .uintType] →
      Joined op f a b (.size op.pos op.tok b a) []
  | regexp {s b} : op.tok = .REGEXP → f.tok = .TEXT_LITERAL ∨ f.tok = .IDENT →
      Joined op f (.tstr s) b (.regexp op.pos op.tok s b) []
  | bits {a b} : op.tok = .BITS → Joined op f a b (.bits op.pos op.tok a b) []
  | compare {a b} : op.tok ∈ [Tok.LT, .LE, .GT, .GE, .EQ, .NE] → a.kind ∈ [NodeKind.uintType, .intType, .floatType] →
      Joined op f a b (.comparator op.pos op.tok op.lit (.typedNil .intType) b) []
  | occ {p t v b u} : op.tok = .ZERO_OR_MORE ∨ op.tok = .ONE_OR_MORE → 0 ≤ v → Upper f u →
      Joined op f (.intLit p t v) b (.nm op.pos op.tok (some ⟨p, .UINT, v.toNat⟩) u b) []
  | range {a b hi} : op.tok = .INCLUSIVE_BOUND ∨ op.tok = .EXCLUSIVE_BOUND → keptEnd a b = some hi →
      Joined op f a b (.range op.pos op.tok a hi) (rangeChecks op.tok a b)

/-- The first of some tokens, or the one behind them. -/
def firstTok (ts : List Token) (nx : Token) : Token :=
  match ts with
  | [] => nx
  | t :: _ => t

/-- The token `c` is a comment on the line of the last of the tokens `ts`. -/
def Trails (ts : List Token) (c : Token) : Prop :=
  c.tok = .COMMENT ∧ ∃ l, ts.getLast? = some l ∧ l.pos.line = c.pos.line

/-- What the tokens can be: an operand, that an operator may follow; an entry; entries one after the other. -/
inductive Part where
  | operand (x : Node)
  | entry (x : Node)
  | entries (xs : List Node)

/-- `Lang part ts nx cs`: in front of the token `nx` the tokens `ts` are this part, and `cs` is to be checked
after the last rule. -/
inductive Lang : Part → List Token → Token → List Check → Prop
  | name {t nx} : t.tok = .IDENT →
      Lang (.operand (.ident ⟨t.pos, t.lit⟩)) [t] nx
        (if nx.tok = .COLON ∨ t.lit.head? = some 36 then [] else [.declared t.lit])
  | single {t x nx} : Single t x → Lang (.operand x) [t] nx []
  | group {o c ts xs cs nx} : o.tok = .LPAREN → c.tok = .RPAREN → Lang (.entries xs) ts c cs →
      Lang (.operand (.group o.pos (xs.filter (listable ·.kind)))) (o :: ts ++ [c]) nx cs
  | array {o c ts xs cs nx} : o.tok = .LBRACK → c.tok = .RBRACK → Lang (.entries xs) ts c cs →
      Lang (.operand (.array o.pos (xs.filter (listable ·.kind)))) (o :: ts ++ [c]) nx cs
  | map {o c ts xs cs nx} : o.tok = .LBRACE → c.tok = .RBRACE → Lang (.entries xs) ts c cs →
      Lang (.operand (.map o.pos xs)) (o :: ts ++ [c]) nx cs
  | tag {h ns a b nx} : h.tok = .HASH → TagNums ns a b → nx.tok ≠ .LPAREN → (ns = [] → nx.tok ≠ .INT ∧ nx.tok ≠ .FLOAT) →
      Lang (.operand (.tag h.pos h.tok a b .nil)) (h :: ns) nx []
  | tagged {h ns a b o c ts x cs nx} : h.tok = .HASH → TagNums ns a b → o.tok = .LPAREN → c.tok = .RPAREN →
      Lang (.entry x) ts c cs → Lang (.operand (.tag h.pos h.tok a b x)) (h :: ns ++ o :: ts ++ [c]) nx cs
  /-- behind anything but a name or a number a range operator takes no upper end, and forgets the lower one -/
  | noRange {op ts a cs nx} : op.tok = .INCLUSIVE_BOUND ∨ op.tok = .EXCLUSIVE_BOUND → Lang (.operand a) ts op cs →
      a.kind ∉ [NodeKind.ident, .intLit, .floatLit] →
      Lang (.operand (.range {} .ILLEGAL .nil .nil)) (ts ++ [op]) nx cs
  /-- a comment on the line where a field ends belongs to the field; behind it the field is an operand once more -/
  | noted {op f ts us a b c r i v cs ds es nx} : Lang (.operand a) ts op cs → Lang (.entry b) (f :: us) c ds →
      Joined op f a b (.entry r i v none) es → Trails (f :: us) c →
      Lang (.operand (.entry r i v (some ⟨c.pos, c.lit⟩))) (ts ++ op :: f :: us ++ [c]) nx (cs ++ (ds ++ es))
  | only {ts x cs nx} : Lang (.operand x) ts nx cs → nx.tok ∉ infixes → nx.tok ≠ .COMMA → Lang (.entry x) ts nx cs
  | comma {ts c x cs nx} : c.tok = .COMMA → Lang (.operand x) ts c cs → Lang (.entry x) (ts ++ [c]) nx cs
  | marked {m f ts x y cs nx} : Marked m f x y → Lang (.entry x) (f :: ts) nx cs → Lang (.entry y) (m :: f :: ts) nx cs
  /-- the bracket behind a tag need not be closed -/
  | unclosed {h ns a b o ts x cs nx} : h.tok = .HASH → TagNums ns a b → o.tok = .LPAREN → nx.tok ≠ .RPAREN →
      Lang (.entry x) ts nx cs → Lang (.entry (.tag h.pos h.tok a b x)) (h :: ns ++ o :: ts) nx cs
  | joined {op f ts us a b y cs ds es nx} : Lang (.operand a) ts op cs → Lang (.entry b) (f :: us) nx ds →
      Joined op f a b y es → (op.tok = .COLON ∨ op.tok = .ARROW_MAP → ¬ Trails (f :: us) nx) →
      Lang (.entry y) (ts ++ op :: f :: us) nx (cs ++ (ds ++ es))
  /-- comments in front of an entry are passed over -/
  | skip {c ts x cs nx} : c.tok = .COMMENT → Lang (.entry x) ts nx cs → Lang (.entry x) (c :: ts) nx cs
  | nil {nx} : Lang (.entries []) [] nx []
  | cons {ts us x xs cs ds nx} : Lang (.entry x) ts (firstTok us nx) cs → Lang (.entries xs) us nx ds →
      Lang (.entries (x :: xs)) (ts ++ us) nx (cs ++ ds)

/-- What is behind the tokens `ts` of a rule: nothing that belongs to the rule; or a comment on the line where it
ends, and then the token behind the comment is passed over, whatever it is. -/
inductive Behind (eof : Token) (ts : List Token) : List Token → Option Comment → List Token → Prop
  | none {us} : ¬ Trails ts (firstTok us eof) → Behind eof ts us none us
  | some {c us} : Trails ts c → Behind eof ts (c :: us) (some ⟨c.pos, c.lit⟩) us.tail

/-- The tree of consecutive comments. -/
def commentTree : List Token → Node
  | [c] => .comment ⟨c.pos, c.lit⟩
  | cs => .commentGroup (cs.map fun c => ⟨c.pos, c.lit⟩)

/-- The rules of a file in front of its end, what they declare, and what is to be checked. -/
inductive Rules (eof : Token) : List Token → List Node → List (Bytes × Node) → List Check → Prop
  | nil : Rules eof [] [] [] []
  | comments {gs us rs ds es} : gs ≠ [] → (∀ g ∈ gs, g.tok = .COMMENT) → (firstTok us eof).tok ≠ .COMMENT →
      Rules eof us rs ds es → Rules eof (gs ++ us) (commentTree gs :: rs) ds es
  | declare {n a ts us vs x k cs rs ds es} : n.tok = .IDENT → a.tok = .ASSIGN → Lang (.entry x) ts (firstTok us eof) cs →
      Behind eof ts us k vs → Rules eof vs rs ds es →
      Rules eof (n :: a :: ts ++ us) (.rule {} ⟨n.pos, n.lit⟩ x k :: rs) ((n.lit, x) :: ds) (cs ++ es)
  | extend {n a ts us vs x k cs rs ds es} : n.tok = .IDENT → a.tok = .TYPE_CHOICE_ASSIGN ∨ a.tok = .GROUP_CHOICE_ASSIGN →
      Lang (.entry x) ts (firstTok us eof) cs → Behind eof ts us k vs → Rules eof vs rs ds es →
      Rules eof (n :: a :: ts ++ us) (.rule {} ⟨n.pos, n.lit⟩ x k :: rs) ds (cs ++ es)

/-- The kind of what a name is declared as. -/
def declaredKind (ds : List (Bytes × Node)) (k : Bytes) : Option NodeKind :=
  (ds.find? (·.1 = k)).map (·.2.kind)

end Cddlc.Spec
