import Verif.Spec.Listable
import Verif.Spec.Scans
import Verif.Model.Parser

/-! Trees, independently of the parser: the nodes of a tree, and what it means for a tree to be
made of the tokens of a source. -/

namespace Cddlc.Spec

mutual
/-- A node and all nodes below it; the nil interface is not a node. -/
def subs : Node → List Node
  | .nil => []
  | .array p rs => .array p rs :: subsList rs
  | .badNode p t b e => .badNode p t b e :: subs b
  | .cddl p rs => .cddl p rs :: subsList rs
  | .bits p t a b => .bits p t a b :: (subs a ++ subs b)
  | .comparator p t o a b => .comparator p t o a b :: (subs a ++ subs b)
  | .regexp p t b r => .regexp p t b r :: .tstr b :: subs r
  | .size p t s ty => .size p t s ty :: (subs ty ++ subs s)
  | .entry p n v c => .entry p n v c :: subs v
  | .enumeration p t v => .enumeration p t v :: subs v
  | .group p es => .group p es :: subsList es
  | .groupChoice p t a b => .groupChoice p t a b :: (subs a ++ subs b)
  | .map p es => .map p es :: subsList es
  | .optional p t i => .optional p t i :: subs i
  | .nm p t n m i => .nm p t n m i :: subs i
  | .range p t a b => .range p t a b :: (subs a ++ subs b)
  | .rule p n v c => .rule p n v c :: subs v
  | .tag p t a b i => .tag p t a b i :: subs i
  | .typeChoice p t a b => .typeChoice p t a b :: (subs a ++ subs b)
  | .unwrap p t i => .unwrap p t i :: subs i
  | x => [x]
/-- The nodes of a list of trees. -/
def subsList : List Node → List Node
  | [] => []
  | x :: xs => subs x ++ subsList xs
end

/-- The identifiers a tree uses as a type or value; names of entries and rules do not count. -/
def refs (x : Node) : List Ident := (subs x).filterMap fun y => match y with
  | .ident i => some i
  | _ => none

theorem mem_refs {x : Node} {i : Ident} : i ∈ refs x ↔ Node.ident i ∈ subs x := by
  unfold refs
  rw [List.mem_filterMap]
  constructor
  · rintro ⟨y, hy, h⟩
    split at h <;> cases h
    exact hy
  · intro h; exact ⟨_, h, rfl⟩

theorem mem_subsList {y : Node} {xs : List Node} : y ∈ subsList xs ↔ ∃ x ∈ xs, y ∈ subs x := by
  induction xs with
  | nil => simp [subsList]
  | cons a as ih => simp [subsList, ih]

variable [Unicode]

/-- `t` is one of the tokens scanned from `l`. -/
def Tk (l : Lexer) (t : Token) : Prop := ∃ ts l', Scans l (ts ++ [t]) l'

/-- A token of kind `t` stands at `pos`. -/
def TkAt (l : Lexer) (t : Tok) (pos : Pos) : Prop := ∃ lit, Tk l ⟨t, pos, lit⟩

/-- The identifier `i` stands in the source and the token after it is `t`. -/
def TkThen (l : Lexer) (i : Ident) (t : Tok) : Prop :=
  ∃ ts a l', Scans l (ts ++ [⟨.IDENT, i.pos, i.name⟩, a]) l' ∧ a.tok = t

/-- The numbers of a tag: none, the value of an integer token, or the two parts of a token with one
dot. -/
def TagNumbers (l : Lexer) (a b : Option UintLit) : Prop :=
  (a = none ∧ b = none) ∨
  (b = none ∧ ∃ u pos lit, a = some u ∧ u.pos = {} ∧ Tk l ⟨.INT, pos, lit⟩ ∧ parseUint lit = .ok u.value) ∨
  (∃ u v lit s0 s1, a = some u ∧ b = some v ∧ Tk l ⟨.FLOAT, u.pos, lit⟩ ∧ v.pos = u.pos ∧
    splitDots lit = [s0, s1] ∧ parseUint s0 = .ok u.value ∧ parseUint s1 = .ok v.value)

/-- How a node is made of tokens of the source and of its children. -/
def FromTokens (l : Lexer) : Node → Prop
  | .typedNil k => k = .intType ∧ ∃ pos, ∃ t ∈ [Tok.LT, .LE, .GT, .GE, .EQ, .NE], TkAt l t pos
  | .boolType pos t => t = .BOOL ∧ TkAt l t pos
  | .boolLit r b => ∃ t, (t = .TRUE ∨ t = .FALSE) ∧ Tk l ⟨t, r.start, if b then b!"true" else b!"false"⟩ ∧ r.stop = r.start.to (if b then 3 else 4)
  | .tstr t => (t.tok = .TSTR ∨ t.tok = .TEXT) ∧ TkAt l t.tok t.pos
  | .textLit pos t lit => t = .TEXT_LITERAL ∧ Tk l ⟨t, pos, lit⟩
  | .floatLit r t v => ∃ lit, Tk l ⟨t, r.start, lit⟩ ∧ parseFloat lit = .ok v ∧
      t ∈ [Tok.FLOAT, .FLOAT16, .FLOAT32, .FLOAT64] ∧ r.stop = r.start.to ((lit.length : Int) - 1)
  | .floatType pos t => t ∈ [Tok.FLOAT, .FLOAT16, .FLOAT32, .FLOAT64] ∧ Tk l ⟨t, pos, t.text⟩
  | .uintLit u => ∃ lit, Tk l ⟨.UINT, u.pos, lit⟩ ∧ parseUint lit = .ok u.value
  | .uintType r t => t = .UINT ∧ Tk l ⟨t, r.start, b!"uint"⟩ ∧ r.stop = r.start.to 4
  | .intLit pos t v => t = .INT ∧ ∃ lit, Tk l ⟨t, pos, lit⟩ ∧ parseInt lit = .ok v
  | .intType pos t => t = .INT ∧ Tk l ⟨t, pos, b!"int"⟩
  | .nintType pos t => t = .NINT ∧ TkAt l t pos
  | .bstr pos t => t = .BSTR ∧ TkAt l t pos
  | .bytes pos t => t = .BYTES ∧ TkAt l t pos
  | .null pos t => (t = .NULL ∨ t = .NIL) ∧ TkAt l t pos
  | .ident i => Tk l ⟨.IDENT, i.pos, i.name⟩
  | .group pos es => TkAt l .LPAREN pos ∧ ∀ e ∈ es, listable e.kind = true
  | .array pos es => TkAt l .LBRACK pos ∧ ∀ e ∈ es, listable e.kind = true
  | .map pos es => TkAt l .LBRACE pos ∧ ∀ e ∈ es, e.isNil = false
  | .optional pos t i => t = .OPTIONAL ∧ TkAt l t pos ∧ i.isNil = false
  | .unwrap pos t i => t = .UNWRAP ∧ TkAt l t pos ∧ i.isNil = false
  | .enumeration pos t i => t = .AMPERSAND ∧ TkAt l t pos ∧ i.isNil = false
  | .tag pos t a b _ => t = .HASH ∧ TkAt l t pos ∧ TagNumbers l a b
  | .entry pos name v c => (TkAt l .COLON pos ∨ TkAt l .ARROW_MAP pos) ∧ v.isNil = false ∧
      (Tk l ⟨.IDENT, name.pos, name.name⟩ ∨
        ∃ p lit n, Tk l ⟨.INT, p, lit⟩ ∧ parseInt lit = .ok n ∧ name = ⟨pos, decInt n⟩) ∧
      ∀ x ∈ c, Tk l ⟨.COMMENT, x.pos, x.text⟩
  | .typeChoice pos t a b => (t = .TYPE_CHOICE ∨ t = .GROUP_CHOICE) ∧ TkAt l t pos ∧
      a.isNil = false ∧ b.isNil = false
  | .size pos t s ty => t = .SIZE ∧ TkAt l t pos ∧ s.isNil = false ∧
      (ty.kind = .bstr ∨ ty.kind = .uintType ∨ ty.kind = .tstr)
  | .regexp pos t _ r => t = .REGEXP ∧ TkAt l t pos ∧ r.isNil = false
  | .bits pos t a b => t = .BITS ∧ TkAt l t pos ∧ a.isNil = false ∧ b.isNil = false
  | .comparator pos t op a b => t ∈ [Tok.LT, .LE, .GT, .GE, .EQ, .NE] ∧ Tk l ⟨t, pos, op⟩ ∧
      a = .typedNil .intType ∧ b.isNil = false
  | .nm pos t n m i => (t = .ZERO_OR_MORE ∨ t = .ONE_OR_MORE) ∧ TkAt l t pos ∧ i.isNil = false ∧
      (∃ u, n = some u ∧
        ((u.pos = pos ∧ u.value = if t = .ZERO_OR_MORE then 0 else 1) ∨
         (∃ lit, Tk l ⟨.INT, u.pos, lit⟩ ∧ parseInt lit = .ok (u.value : Int)) ∨
         (∃ lit, Tk l ⟨.UINT, u.pos, lit⟩ ∧ parseUint lit = .ok u.value))) ∧
      (∀ u ∈ m, ∃ lit, Tk l ⟨.INT, u.pos, lit⟩ ∧ parseUint lit = .ok u.value)
  | .range pos t a b =>
      (pos = {} ∧ t = .ILLEGAL ∧ a = .nil ∧ b = .nil ∧
        ∃ pos', TkAt l .INCLUSIVE_BOUND pos' ∨ TkAt l .EXCLUSIVE_BOUND pos') ∨
      ((t = .INCLUSIVE_BOUND ∨ t = .EXCLUSIVE_BOUND) ∧ TkAt l t pos ∧
        ((a.kind = .ident ∧ b.isNil = false) ∨
         (a.kind = .intLit ∧ (b = .nil ∨ b.kind = .intLit ∨ b.kind = .ident)) ∨
         (a.kind = .floatLit ∧ (b = .nil ∨ b.kind = .floatLit ∨ b.kind = .ident))))
  | _ => False

/-- `e` is a rule that declares `k` with `=`, and whose value `v` could be parsed. -/
def Declares (l0 : Lexer) (e : Node) (k : Bytes) (v : Node) : Prop :=
  ∃ pos tc, e = .rule {} ⟨pos, k⟩ v tc ∧ v.isNil = false ∧ TkThen l0 ⟨pos, k⟩ .ASSIGN

/-- `v` is the value of the first rule among `rules` that declares `k`. -/
def FirstDecl (l0 : Lexer) (rules : List Node) (k : Bytes) (v : Node) : Prop :=
  ∃ pre e post, rules = pre ++ e :: post ∧ Declares l0 e k v ∧ ∀ e' ∈ pre, ∀ v', ¬ Declares l0 e' k v'

end Cddlc.Spec
