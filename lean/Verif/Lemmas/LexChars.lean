import Verif.Lemmas.LexClean

/-! Character classes of the lexer and of the specification agree; list lemmas. -/

namespace Cddlc

theorem char_le_iff (a b : Char) : a ≤ b ↔ a.toNat ≤ b.toNat := Iff.rfl
theorem char_eq_iff (a b : Char) : a = b ↔ a.toNat = b.toNat :=
  ⟨fun h => by rw [h], char_toNat_inj⟩

namespace Lexer
open Spec

theorem isLetter_char (c : Char) : isLetter c.toNat = alpha c := by
  rw [Bool.eq_iff_iff]
  simp only [isLetter, alpha, Bool.or_eq_true, Bool.and_eq_true, decide_eq_true_eq, char_le_iff,
    Char.reduceToNat]
  omega

theorem isDigit_char (c : Char) : isDigit c.toNat = digit c := by
  rw [Bool.eq_iff_iff]
  simp only [isDigit, digit, Bool.and_eq_true, decide_eq_true_eq, char_le_iff,
    Char.reduceToNat]
  omega

theorem isHex_char (c : Char) : isHex c.toNat = hexDigit c := by
  rw [Bool.eq_iff_iff]
  simp only [isHex, hexDigit, isDigit, digit, Bool.or_eq_true, Bool.and_eq_true, decide_eq_true_eq,
    char_le_iff, Char.reduceToNat]
  omega

theorem isOctal_char (c : Char) : isOctal c.toNat = octDigit c := by
  rw [Bool.eq_iff_iff]
  simp only [isOctal, octDigit, Bool.and_eq_true, decide_eq_true_eq, char_le_iff, Char.reduceToNat]
  omega

theorem isBinary_char (c : Char) : isBinary c.toNat = binDigit c := by
  rw [Bool.eq_iff_iff]
  simp only [isBinary, binDigit, Bool.or_eq_true, decide_eq_true_eq, char_eq_iff, Char.reduceToNat]
  omega

theorem isIdentStart_char (c : Char) : isIdentStart c.toNat = idStart c := by
  rw [Bool.eq_iff_iff]
  simp only [isIdentStart, idStart, alpha, Bool.or_eq_true, Bool.and_eq_true, decide_eq_true_eq,
    char_le_iff, char_eq_iff, Char.reduceToNat]
  omega

theorem isIdentBody_char (c : Char) : isIdentBody c.toNat = idBody c := by
  rw [Bool.eq_iff_iff]
  simp only [isIdentBody, idBody, isIdentStart, idStart, alpha, isDigit, digit, Bool.or_eq_true,
    Bool.and_eq_true, decide_eq_true_eq, char_le_iff, char_eq_iff, Char.reduceToNat]
  omega

theorem isSpace_char (c : Char) : isSpace c.toNat = ws c := by
  rw [Bool.eq_iff_iff]
  simp only [isSpace, ws, Bool.or_eq_true, decide_eq_true_eq, char_eq_iff, Char.reduceToNat]
  omega

end Lexer

/-- `rest` is the unread text `r` with the padding space, or nothing at the end of input. -/
def Tail (r rest : List Char) : Prop := rest = r ++ [' '] ∨ (r = [] ∧ rest = [])

theorem takeWhile_pad {p : Char → Bool} (hp : p ' ' = false) (r : List Char) :
    (r ++ [' ']).takeWhile p = r.takeWhile p := by
  induction r with
  | nil => simp [hp]
  | cons c r ih => simp only [List.cons_append, List.takeWhile_cons]; split <;> simp_all

theorem dropWhile_pad {p : Char → Bool} (hp : p ' ' = false) (r : List Char) :
    (r ++ [' ']).dropWhile p = r.dropWhile p ++ [' '] := by
  induction r with
  | nil => simp [hp]
  | cons c r ih => simp only [List.cons_append, List.dropWhile_cons]; split <;> simp_all

theorem pad_cases {p : Char → Bool} (hp : p ' ' = true) (r : List Char) :
    (r.dropWhile p = [] ∧ r.takeWhile p = r ∧ (r ++ [' ']).takeWhile p = r ++ [' '] ∧
      (r ++ [' ']).dropWhile p = []) ∨
    (r.dropWhile p ≠ [] ∧ (r ++ [' ']).takeWhile p = r.takeWhile p ∧
      (r ++ [' ']).dropWhile p = r.dropWhile p ++ [' ']) := by
  induction r with
  | nil => simp [hp]
  | cons c r ih =>
    simp only [List.cons_append, List.takeWhile_cons, List.dropWhile_cons]
    by_cases hc : p c
    · simp only [hc, if_true]
      rcases ih with ⟨h1, h2, h3, h4⟩ | ⟨h1, h2, h3⟩
      · left; simp [h1, h2, h3, h4]
      · right; simp [h1, h2, h3]
    · simp [hc]

theorem drop_takeWhile_length {p : Char → Bool} (r : List Char) :
    r.drop (r.takeWhile p).length = r.dropWhile p := by
  induction r with
  | nil => simp
  | cons c r ih => simp only [List.takeWhile_cons, List.dropWhile_cons]; split <;> simp_all

theorem take_takeWhile_length {p : Char → Bool} (r : List Char) :
    r.take (r.takeWhile p).length = r.takeWhile p := by
  induction r with
  | nil => simp
  | cons c r ih => simp only [List.takeWhile_cons]; split <;> simp_all

end Cddlc
