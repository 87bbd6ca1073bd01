import Verif.Spec.Layout

/-! What it is to rename the identifiers of a text. -/

namespace Cddlc.Spec
open Cddlc

mutual
/-- The tree with all names replaced. -/
def rename (ρ : Bytes → Bytes) : Node → Node
  | .array p rs => .array p (renameL ρ rs)
  | .badNode p t b e => .badNode p t (rename ρ b) e
  | .cddl p rs => .cddl p (renameL ρ rs)
  | .bits p t a b => .bits p t (rename ρ a) (rename ρ b)
  | .comparator p t o a b => .comparator p t o (rename ρ a) (rename ρ b)
  | .regexp p t b r => .regexp p t b (rename ρ r)
  | .size p t s ty => .size p t (rename ρ s) (rename ρ ty)
  | .entry p n v c => .entry p ⟨n.pos, ρ n.name⟩ (rename ρ v) c
  | .enumeration p t v => .enumeration p t (rename ρ v)
  | .group p es => .group p (renameL ρ es)
  | .groupChoice p t a b => .groupChoice p t (rename ρ a) (rename ρ b)
  | .ident i => .ident ⟨i.pos, ρ i.name⟩
  | .map p rs => .map p (renameL ρ rs)
  | .optional p t i => .optional p t (rename ρ i)
  | .nm p t n m i => .nm p t n m (rename ρ i)
  | .range p t a b => .range p t (rename ρ a) (rename ρ b)
  | .rule p n v c => .rule p ⟨n.pos, ρ n.name⟩ (rename ρ v) c
  | .tag p t a b i => .tag p t a b (rename ρ i)
  | .typeChoice p t a b => .typeChoice p t (rename ρ a) (rename ρ b)
  | .unwrap p t i => .unwrap p t (rename ρ i)
  | x => x
/-- The trees with all names replaced. -/
def renameL (ρ : Bytes → Bytes) : List Node → List Node
  | [] => []
  | x :: xs => rename ρ x :: renameL ρ xs
end

/-- The message with all names replaced. -/
def renameMsg (ρ : Bytes → Bytes) : Msg → Msg
  | .noSuchIdent k => .noSuchIdent (ρ k)
  | .expectedAssign k => .expectedAssign (ρ k)
  | .existing k l c => .existing (ρ k) l c
  | .boundTypes t a b k l => .boundTypes t (ρ a) (ρ b) k l
  | m => m

/-- The bindings with all names replaced. -/
def renameEnv (ρ : Bytes → Bytes) (e : Env) : Env := ⟨e.symbols.map fun b => (ρ b.1, rename ρ b.2)⟩

/-- Different names stay different, sockets (names that begin with `$`) stay sockets and other names
do not become sockets. The names that are made from integer keys are not identifiers of the text and
are left alone. -/
structure Renaming (ρ : Bytes → Bytes) : Prop where
  inj : ∀ a b, ρ a = ρ b → a = b
  socket : ∀ a, (ρ a).head? = some 36 ↔ a.head? = some 36
  empty : ∀ a, ρ a = [] ↔ a = []
  keys : ∀ v : Int, ρ (decInt v) = decInt v

/-- The text of a token after the renaming. -/
def renameLit (ρ : Bytes → Bytes) (t : Tok) (s : Bytes) : Bytes := if t = .IDENT then ρ s else s

variable [Unicode]

/-- The lexers `l` and `m` return tokens of the same kinds, `k` calls long, or fail in the same way;
the texts are the same too, but the identifiers of `m` are those of `l` renamed; and a comment is on
the line of the token before it in both or in neither. `a` and `b` are the lines of the tokens
returned before. -/
def RenamedToks (ρ : Bytes → Bytes) : Nat → Int → Lexer → Int → Lexer → Prop
  | 0, _, _, _, _ => True
  | k + 1, a, l, b, m =>
    match l.scan, m.scan with
    | .ok (t, x, s, l'), .ok (t', x', s', m') =>
      t = t' ∧ renameLit ρ t s = s' ∧ (t = .COMMENT → (a = x.line ↔ b = x'.line)) ∧
        (l'.errors = [] ↔ m'.errors = []) ∧ RenamedToks ρ k x.line l' x'.line m'
    | .panic w, .panic w' => w = w'
    | .hang, .hang => True
    | _, _ => False

/-- `r'` is `r` renamed, up to positions: the tree, the messages in their order, and the bindings. -/
structure RenamedResult (ρ : Bytes → Bytes) (r r' : PState.FileResult) : Prop where
  tree : r.cddl.map (fun rs => noPosL (renameL ρ rs)) = r'.cddl.map noPosL
  messages : r.errs.map (fun d => noPosMsg (renameMsg ρ d.msg)) = r'.errs.map (noPosMsg ·.msg)
  bindings : noPosEnv (renameEnv ρ r.final.env) = noPosEnv r'.final.env

/-- The outcome renamed: a result renamed, or a panic for the same reason, or no result in both. -/
def RenamedOutcome (ρ : Bytes → Bytes) : Out PState.FileResult → Out PState.FileResult → Prop
  | .ok r, .ok r' => RenamedResult ρ r r'
  | .panic w, .panic w' => w = w'
  | .hang, .hang => True
  | _, _ => False

/-- As `SameReading`, but the identifiers of `r'` are those of `r` renamed. -/
def RenamedReading (ρ : Bytes → Bytes) : Nat → Bool → List Char → List Char → Prop
  | 0, _, _, _ => True
  | k + 1, after, r, r' =>
    match lexeme (r.dropWhile ws), lexeme (r'.dropWhile ws) with
    | some x, some y =>
      x.tok = y.tok ∧ renameLit ρ x.tok x.lit = y.lit ∧ x.err = y.err ∧
        (after = true → x.tok = .COMMENT → ('\n' ∈ r.takeWhile ws ↔ '\n' ∈ r'.takeWhile ws)) ∧
        RenamedReading ρ k true ((r.dropWhile ws).drop x.len) ((r'.dropWhile ws).drop y.len)
    | none, none => True
    | _, _ => False

/-- The same token texts in the same order, but identifiers are renamed; and a comment is on the line
of the text before it in both or in neither. -/
def RenamedTexts (ρ : Bytes → Bytes) : List (Piece × List Char) → List (Piece × List Char) → Prop
  | [], [] => True
  | (p, g) :: ps, (q, h) :: qs =>
    p.tok = q.tok ∧ renameLit ρ p.tok (enc p.lit) = enc q.lit ∧
      ((∃ c ∈ ps.head?, c.1.tok = .COMMENT) → ('\n' ∈ g ↔ '\n' ∈ h)) ∧ RenamedTexts ρ ps qs
  | _, _ => False

/-- Two names change places. -/
def swapName (a b s : Bytes) : Bytes := if s = a then b else if s = b then a else s

/-- The token text with an identifier replaced. Reserved words, control operators and all other texts
are left alone. -/
def renamePiece (w w' : List Char) : Piece → Piece
  | .word x => .word (if x = w then w' else x)
  | p => p

end Cddlc.Spec
