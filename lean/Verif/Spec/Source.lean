import Verif.Model.Basic

/-! What a clean source is, independently of the lexer: the UTF-8 encoding of a sequence of
characters none of which is U+FFFD. -/

namespace Cddlc

/-- The UTF-8 encoding of a sequence of characters (core's `String.utf8EncodeChar`). -/
def enc (cs : List Char) : Bytes := cs.flatMap String.utf8EncodeChar

/-- The source is valid UTF-8 and does not contain U+FFFD. -/
def Clean (src : Bytes) : Prop := ∃ cs : List Char, '�' ∉ cs ∧ src = enc cs

end Cddlc
