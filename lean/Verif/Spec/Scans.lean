import Verif.Model.Lexer

/-! Sequences of calls of `Scan`. -/

namespace Cddlc

/-- A token as returned by `Scan`: kind, position, literal. -/
structure Token where
  tok : Tok
  pos : Pos
  lit : Bytes
  deriving DecidableEq, Repr

/-- Calling `Scan` repeatedly from `l` returned the tokens `ts` and left the lexer in `l'`. -/
inductive Scans [Unicode] : Lexer → List Token → Lexer → Prop
  | nil (l) : Scans l [] l
  | cons {l l' l'' tok pos lit ts} : l.scan = .ok (tok, pos, lit, l') → Scans l' ts l'' →
      Scans l (⟨tok, pos, lit⟩ :: ts) l''

/-- Line of the byte offset `o`: one plus the number of newlines before it. -/
def Spec.lineAt (src : Bytes) (o : Nat) : Nat := 1 + (src.take o).count 10

/-- Column of the byte offset `o`: one plus the number of bytes since the last newline. -/
def Spec.colAt (src : Bytes) (o : Nat) : Nat :=
  1 + ((src.take o).reverse.takeWhile (· ≠ 10)).length

end Cddlc
