import Verif.Spec.Scans
import Verif.Spec.Pieces

/-! Sequences of tokens written with `Token.String`, as in `TestLexerFuzz` (/repo/lexer/lexer_test.go:200-247). -/

namespace Cddlc.Spec
open Cddlc

/-- One item of such a sequence. -/
inductive LineItem where
  /-- a token, written as `String()` -/
  | tok (t : Tok)
  /-- an integer -/
  | int (ds : List Char)
  /-- a decimal fraction `a.b` -/
  | float (a b : List Char)
  /-- a string, without its quotes -/
  | text (s : List Char)

/-- The markers in the list of tokens, which no source text stands for. -/
def markers : List Tok := [.literal_begin, .literal_end, .numeric_begin, .numeric_end, .operator_begin, .operator_end,
  .control_operators_begin, .control_operators_end]

/-- From `IDENT` to `FEATURE`, without the markers; digits are digits, and strings have neither quotes nor
newlines (nor U+FFFD, which the lexer cannot read). -/
def LineItem.Ok : LineItem → Prop
  | .tok t => Tok.IDENT.val ≤ t.val ∧ t.val ≤ Tok.FEATURE.val ∧ t ∉ markers
  | .int ds => ds ≠ [] ∧ ∀ c ∈ ds, digit c = true
  | .float a b => a ≠ [] ∧ b ≠ [] ∧ (∀ c ∈ a, digit c = true) ∧ ∀ c ∈ b, digit c = true
  | .text s => '"' ∉ s ∧ '\n' ∉ s ∧ '�' ∉ s

/-- How it is written. -/
def LineItem.source : LineItem → Bytes
  | .tok t => t.string
  | .int ds => enc ds
  | .float a b => enc (a ++ '.' :: b)
  | .text s => enc ('"' :: (s ++ ['"']))

/-- What `Scan` is to return for it. -/
def LineItem.scanned : LineItem → Tok × Bytes
  | .tok t => (t, t.string)
  | .int ds => (.INT, enc ds)
  | .float a b => (.FLOAT, enc (a ++ '.' :: b))
  | .text s => (.TEXT_LITERAL, enc s)

/-- The items with a blank after each but the last. -/
def printAll : List LineItem → Bytes
  | [] => []
  | [x] => x.source
  | x :: xs => x.source ++ 32 :: printAll xs

/-- The tokens of a line of items that starts at offset `o`, and the end of input. -/
def scanAll (o : Nat) : List LineItem → List Token
  | [] => [⟨.EOF, ⟨o, 1, (o : Int) + 1, []⟩, []⟩]
  | [x] => [⟨x.scanned.1, ⟨o, 1, (o : Int) + 1, []⟩, x.scanned.2⟩,
      ⟨.EOF, ⟨o + x.source.length, 1, ((o + x.source.length : Nat) : Int) + 1, []⟩, []⟩]
  | x :: xs => ⟨x.scanned.1, ⟨o, 1, (o : Int) + 1, []⟩, x.scanned.2⟩ :: scanAll (o + x.source.length + 1) xs

end Cddlc.Spec
