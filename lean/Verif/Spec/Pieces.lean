import Verif.Spec.Lex

/-! Token texts: how each kind of token is written, and what token it stands for. -/

namespace Cddlc.Spec
open Cddlc

/-- The operators and delimiters. -/
def operators : List (String × Tok) :=
  [("-", .MINUS), ("(", .LPAREN), ("[", .LBRACK), ("{", .LBRACE), (")", .RPAREN), ("]", .RBRACK),
   ("}", .RBRACE), (",", .COMMA), (".", .PERIOD), (":", .COLON), ("=", .ASSIGN),
   ("=>", .ARROW_MAP), ("?", .OPTIONAL), ("/", .TYPE_CHOICE), ("//", .GROUP_CHOICE),
   ("/=", .TYPE_CHOICE_ASSIGN), ("//=", .GROUP_CHOICE_ASSIGN), ("&", .AMPERSAND), ("#", .HASH),
   ("<", .LEFT_ANGLE_BRACKET), (">", .RIGHT_ANGLE_BRACKET), ("..", .INCLUSIVE_BOUND),
   ("...", .EXCLUSIVE_BOUND), ("*", .ZERO_OR_MORE), ("+", .ONE_OR_MORE), ("~", .UNWRAP)]

/-- A token text. -/
inductive Piece where
  /-- an identifier or reserved word -/
  | word (w : List Char)
  /-- a decimal integer -/
  | dec (ds : List Char)
  /-- a decimal fraction `a.b` -/
  | frac (a b : List Char)
  /-- `0x...` -/
  | hex (ds : List Char)
  /-- `0o...` -/
  | oct (ds : List Char)
  /-- `0b...` -/
  | bin (ds : List Char)
  /-- a string, without its quotes -/
  | str (body : List Char)
  /-- a control operator, without its dot -/
  | ctl (w : List Char)
  /-- an operator or delimiter -/
  | op (s : String) (t : Tok)
  /-- a comment, without its semicolon; runs to the end of the line. `same` says whether it is to stand
  on the line of the text before it; this is not a matter of its own text. -/
  | comment (body : List Char) (same : Bool)
  deriving DecidableEq

namespace Piece

/-- Which texts are allowed. -/
def WF : Piece → Prop
  | word w => (∃ c ∈ w.head?, idStart c = true) ∧ ∀ c ∈ w, idBody c = true
  | dec ds => ds ≠ [] ∧ ∀ c ∈ ds, digit c = true
  | frac a b => a ≠ [] ∧ b ≠ [] ∧ (∀ c ∈ a, digit c = true) ∧ ∀ c ∈ b, digit c = true
  | hex ds => ∀ c ∈ ds, hexDigit c = true
  | oct ds => ∀ c ∈ ds, octDigit c = true
  | bin ds => ∀ c ∈ ds, binDigit c = true
  | str body => '"' ∉ body ∧ '\n' ∉ body ∧ '\uFFFD' ∉ body
  | ctl w => w ≠ [] ∧ ∀ c ∈ w, alpha c = true
  | op s t => (s, t) ∈ operators
  | comment body _ => '\n' ∉ body ∧ '\uFFFD' ∉ body

/-- How it is written. -/
def render : Piece → List Char
  | word w => w
  | dec ds => ds
  | frac a b => a ++ '.' :: b
  | hex ds => '0' :: 'x' :: ds
  | oct ds => '0' :: 'o' :: ds
  | bin ds => '0' :: 'b' :: ds
  | str body => '"' :: (body ++ ['"'])
  | ctl w => '.' :: w
  | op s _ => s.toList
  | comment body _ => ';' :: body

/-- The token it stands for. -/
def tok : Piece → Tok
  | word w => Spec.word w
  | dec _ => .INT
  | frac _ _ => .FLOAT
  | hex _ => .INT
  | oct _ => .INT
  | bin _ => .INT
  | str _ => .TEXT_LITERAL
  | ctl w => Spec.word ('.' :: w)
  | op _ t => t
  | comment _ _ => .COMMENT

/-- The literal of that token: the text, without quotes or semicolon. -/
def lit : Piece → List Char
  | str body => body
  | comment body _ => body
  | p => p.render

/-- The white space that may follow a token text: at least one character unless it is the last
text; a comment must be followed by a newline. -/
def Gap (p : Piece) (last : Bool) (g : List Char) : Prop :=
  (∀ c ∈ g, ws c = true) ∧ (last = false → g ≠ []) ∧
    match p with
    | comment _ _ => ∀ c ∈ g.head?, c = '\n'
    | _ => True

end Piece

/-- Token texts, each followed by white space. -/
def renderAll : List (Piece × List Char) → List Char
  | [] => []
  | (p, g) :: ps => p.render ++ g ++ renderAll ps

/-- All texts are allowed and separated by white space. -/
def PiecesWF : List (Piece × List Char) → Prop
  | [] => True
  | (p, g) :: ps => p.WF ∧ p.Gap ps.isEmpty g ∧ PiecesWF ps

/-- The offsets of texts of which the first stands at offset `o`, and of the end. -/
def starts (o : Nat) : List (Piece × List Char) → List Nat
  | [] => [o]
  | (p, g) :: ps => o :: starts (o + (enc p.render).length + (enc g).length) ps

instance : DecidablePred Piece.WF := fun p =>
  match p with
  | .word w =>
    match w with
    | [] => .isFalse (by rintro ⟨⟨_, h, _⟩, _⟩; cases h)
    | c :: cs => decidable_of_iff (idStart c = true ∧ ∀ d ∈ c :: cs, idBody d = true)
        ⟨fun h => ⟨⟨c, rfl, h.1⟩, h.2⟩, fun ⟨⟨_, h1, h2⟩, h3⟩ => by cases h1; exact ⟨h2, h3⟩⟩
  | .dec ds => inferInstanceAs (Decidable (ds ≠ [] ∧ ∀ c ∈ ds, digit c = true))
  | .frac a b => inferInstanceAs (Decidable (a ≠ [] ∧ b ≠ [] ∧ (∀ c ∈ a, digit c = true) ∧ ∀ c ∈ b, digit c = true))
  | .hex ds => inferInstanceAs (Decidable (∀ c ∈ ds, hexDigit c = true))
  | .oct ds => inferInstanceAs (Decidable (∀ c ∈ ds, octDigit c = true))
  | .bin ds => inferInstanceAs (Decidable (∀ c ∈ ds, binDigit c = true))
  | .str body => inferInstanceAs (Decidable ('"' ∉ body ∧ '\n' ∉ body ∧ '\uFFFD' ∉ body))
  | .ctl w => inferInstanceAs (Decidable (w ≠ [] ∧ ∀ c ∈ w, alpha c = true))
  | .op s t => inferInstanceAs (Decidable ((s, t) ∈ operators))
  | .comment body _ => inferInstanceAs (Decidable ('\n' ∉ body ∧ '\uFFFD' ∉ body))

end Cddlc.Spec
