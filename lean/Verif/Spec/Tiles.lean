import Verif.Spec.Scans

/-! How the source is made of white space and token texts, at the level of bytes. -/

namespace Cddlc.Spec

/-- White-space bytes: space, tab, CR, LF. -/
def wsByte (b : UInt8) : Bool := b = 32 || b = 9 || b = 13 || b = 10
/-- Bytes an identifier can start with: ASCII letters, `@`, `_`, `$`. -/
def idStartByte (b : UInt8) : Bool :=
  (97 ≤ b && b ≤ 122) || (65 ≤ b && b ≤ 90) || b = 64 || b = 95 || b = 36
/-- Bytes an identifier can contain: also digits, `-` and `.`. -/
def idByte (b : UInt8) : Bool := idStartByte b || (48 ≤ b && b ≤ 57) || b = 45 || b = 46

/-- `raw` is the text in the source of the token `tok` with literal `lit`. -/
def RawOf (tok : Tok) (lit raw : Bytes) : Prop :=
  match tok with
  | .COMMENT => raw = 59 :: lit
  | .TEXT_LITERAL =>
    -- a closed string, an unterminated string (the literal misses its last byte), or the
    -- reserved word `text_literal`
    (raw = 34 :: (lit ++ [34]) ∧ 34 ∉ lit ∧ 10 ∉ lit) ∨
    (∃ x, raw = 34 :: (lit ++ [x]) ∧ 34 ∉ lit ++ [x] ∧ 10 ∉ lit ++ [x]) ∨
    (raw = lit ∧ lit = b!"text_literal")
  | _ => raw = lit

/-- `Tiles off ts s rest`: the text `s`, which starts at offset `off`, is white space and
the texts of the tokens `ts`, followed by `rest`. -/
inductive Tiles : Nat → List Token → Bytes → Bytes → Prop
  | nil (off s) : Tiles off [] s s
  | cons {off : Nat} {t : Token} {ts s rest gap raw} :
      (∀ b ∈ gap, wsByte b = true) → t.pos.offset = off + gap.length → RawOf t.tok t.lit raw →
      (t.tok = .EOF ↔ raw = []) → (t.tok = .EOF → s = []) →
      Tiles (off + gap.length + raw.length) ts s rest →
      Tiles off (t :: ts) (gap ++ raw ++ s) rest

end Cddlc.Spec
