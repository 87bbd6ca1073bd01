import Verif.Spec.Schema
import Verif.Spec.Scans
import Verif.Model.Os

/-! What stays the same when only the white space of a text changes. -/

namespace Cddlc.Spec
open Cddlc

variable [Unicode]

/-- The lexers `l` and `m` return tokens of the same kinds with the same texts, `k` calls long, or
fail in the same way; and a comment is on the line of the token before it in both or in neither.
`a` and `b` are the lines of the tokens returned before. -/
def Alike : Nat → Int → Lexer → Int → Lexer → Prop
  | 0, _, _, _, _ => True
  | k + 1, a, l, b, m =>
    match l.scan, m.scan with
    | .ok (t, x, s, l'), .ok (t', x', s', m') =>
      t = t' ∧ s = s' ∧ (t = .COMMENT → (a = x.line ↔ b = x'.line)) ∧ (l'.errors = [] ↔ m'.errors = []) ∧
        Alike k x.line l' x'.line m'
    | .panic w, .panic w' => w = w'
    | .hang, .hang => True
    | _, _ => False

/-- The bindings without positions. -/
def noPosEnv (e : Env) : List (Bytes × Node) := e.symbols.map fun b => (b.1, noPos b.2)

/-- Two results of `ParseFile` that differ at most in positions: the same tree, the same messages in
the same order, the same bindings. -/
structure SameResult (r r' : PState.FileResult) : Prop where
  tree : r.cddl.map noPosL = r'.cddl.map noPosL
  messages : r.errs.map (noPosMsg ·.msg) = r'.errs.map (noPosMsg ·.msg)
  bindings : noPosEnv r.final.env = noPosEnv r'.final.env

/-- The same outcome: both return results that are the same up to positions, or both panic for the
same reason, or both run out of fuel. -/
def SameOutcome : Out PState.FileResult → Out PState.FileResult → Prop
  | .ok r, .ok r' => SameResult r r'
  | .panic w, .panic w' => w = w'
  | .hang, .hang => True
  | _, _ => False

/-- The texts `r` and `r'` are made of the same lexemes for the next `k` of them, or fail at the same
one; and between a comment and the lexeme before it there is a newline in both or in neither. `after`
says that a lexeme came before. -/
def SameReading : Nat → Bool → List Char → List Char → Prop
  | 0, _, _, _ => True
  | k + 1, after, r, r' =>
    match lexeme (r.dropWhile ws), lexeme (r'.dropWhile ws) with
    | some x, some y =>
      x.tok = y.tok ∧ x.lit = y.lit ∧ x.err = y.err ∧
        (after = true → x.tok = .COMMENT → ('\n' ∈ r.takeWhile ws ↔ '\n' ∈ r'.takeWhile ws)) ∧
        SameReading k true ((r.dropWhile ws).drop x.len) ((r'.dropWhile ws).drop y.len)
    | none, none => True
    | _, _ => False

/-- The same token texts in the same order, and a comment is on the line of the text before it in
both or in neither. -/
def SameTexts : List (Piece × List Char) → List (Piece × List Char) → Prop
  | [], [] => True
  | (p, g) :: ps, (q, h) :: qs =>
    p = q ∧ ((∃ c ∈ ps.head?, c.1.tok = .COMMENT) → ('\n' ∈ g ↔ '\n' ∈ h)) ∧ SameTexts ps qs
  | _, _ => False

/-- Two runs that differ only in the layout of the files that were read, the configuration excepted:
the same calls with the same answers, but the texts read are made of the same lexemes. -/
inductive Reformatted : List Event → List Event → Prop
  | nil : Reformatted [] []
  | same {ev t t'} : Reformatted t t' → Reformatted (ev :: t) (ev :: t')
  | read {p cs cs' t t'} : basePath p ≠ b!"cddlc.json" → basePath p ≠ b!"cddlc.yaml" →
      '\uFFFD' ∉ cs → '\uFFFD' ∉ cs' → (∀ k, SameReading k false cs cs') → Reformatted t t' →
      Reformatted (⟨.readFile p, .ok (enc cs)⟩ :: t) (⟨.readFile p, .ok (enc cs')⟩ :: t')

end Cddlc.Spec
