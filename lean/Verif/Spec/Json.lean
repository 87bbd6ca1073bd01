import Verif.Spec.Source

/-! JSON texts (RFC 8259), independently of any printer: which bytes are the text of which value. A
value keeps the text of its numbers and the order of its members. -/

namespace Cddlc.Spec

mutual
/-- JSON values. -/
inductive Json where
  | null
  | bool (b : Bool)
  | num (text : Bytes)
  | str (s : List Char)
  | arr (xs : List Json)
  | obj (ms : List Member)
/-- Members of objects. -/
inductive Member where
  | mk (name : List Char) (val : Json)
end

/-- White space (section 2). -/
def jWs (c : UInt8) : Bool := c = 32 || c = 9 || c = 10 || c = 13

/-- A decimal digit. -/
def jDigit (c : UInt8) : Bool := 48 ≤ c && c ≤ 57

/-- Digits, at least one. -/
def jDigits (s : Bytes) : Prop := s ≠ [] ∧ ∀ c ∈ s, jDigit c = true

/-- The integer part of a number: no leading zeros. -/
def jInt (s : Bytes) : Prop := jDigits s ∧ (s.head? = some 48 → s = [48])

/-- Numbers (section 6): `[ minus ] int [ frac ] [ exp ]`. -/
def JNumber (t : Bytes) : Prop := ∃ sign int frac exp : Bytes, t = sign ++ int ++ frac ++ exp ∧
  (sign = [] ∨ sign = b!"-") ∧ jInt int ∧
  (frac = [] ∨ ∃ d, frac = 46 :: d ∧ jDigits d) ∧
  (exp = [] ∨ ∃ e s d, exp = e :: (s ++ d) ∧ (e = 101 ∨ e = 69) ∧ (s = [] ∨ s = b!"+" ∨ s = b!"-") ∧ jDigits d)

/-- The value of a hexadecimal digit. -/
def jHex (c : UInt8) : Option Nat :=
  if 48 ≤ c ∧ c ≤ 57 then some (c.toNat - 48)
  else if 97 ≤ c ∧ c ≤ 102 then some (c.toNat - 87)
  else if 65 ≤ c ∧ c ≤ 70 then some (c.toNat - 55)
  else none

/-- `\uXXXX` with the given number. -/
def JUnit (t : Bytes) (v : Nat) : Prop := ∃ a b c d a' b' c' d', t = [92, 117, a, b, c, d] ∧
  jHex a = some a' ∧ jHex b = some b' ∧ jHex c = some c' ∧ jHex d = some d' ∧
  v = a' * 4096 + b' * 256 + c' * 16 + d'

/-- The short escapes: the letter behind the backslash and what it stands for. -/
def jShort : List (UInt8 × Char) :=
  [(34, '"'), (92, '\\'), (47, '/'), (98, '\x08'), (102, '\x0c'), (110, '\n'), (114, '\r'), (116, '\t')]

/-- One character of a string (section 7). -/
inductive JChar : Bytes → Char → Prop
  | raw {c : Char} : 0x20 ≤ c.toNat → c ≠ '"' → c ≠ '\\' → JChar (String.utf8EncodeChar c) c
  | short {e : UInt8} {c : Char} : (e, c) ∈ jShort → JChar [92, e] c
  | unit {t : Bytes} {c : Char} : JUnit t c.toNat → JChar t c
  | pair {t u : Bytes} {hi lo : Nat} {c : Char} : JUnit t (0xD800 + hi) → JUnit u (0xDC00 + lo) →
      hi < 0x400 → lo < 0x400 → c.toNat = 0x10000 + hi * 0x400 + lo → JChar (t ++ u) c

/-- The characters of a string. -/
inductive JChars : Bytes → List Char → Prop
  | nil : JChars [] []
  | cons {t u : Bytes} {c : Char} {cs} : JChar t c → JChars u cs → JChars (t ++ u) (c :: cs)

/-- A string with its quotes. -/
def JString (t : Bytes) (s : List Char) : Prop := ∃ u, JChars u s ∧ t = 34 :: (u ++ [34])

/-- Any amount of white space. -/
def JSpace (t : Bytes) : Prop := ∀ c ∈ t, jWs c = true

mutual
/-- The text, without white space around it, of a value. -/
inductive JText : Bytes → Json → Prop
  | null : JText b!"null" .null
  | yes : JText b!"true" (.bool true)
  | no : JText b!"false" (.bool false)
  | num {t : Bytes} : JNumber t → JText t (.num t)
  | str {t : Bytes} {s} : JString t s → JText t (.str s)
  | arr0 {w : Bytes} : JSpace w → JText (91 :: (w ++ [93])) (.arr [])
  | arr {t : Bytes} {x xs} : JElems t (x :: xs) → JText (91 :: (t ++ [93])) (.arr (x :: xs))
  | obj0 {w : Bytes} : JSpace w → JText (123 :: (w ++ [125])) (.obj [])
  | obj {t : Bytes} {x xs} : JMembers t (x :: xs) → JText (123 :: (t ++ [125])) (.obj (x :: xs))
/-- Values with white space around them, separated by commas. -/
inductive JElems : Bytes → List Json → Prop
  | one {a t b : Bytes} {x} : JSpace a → JText t x → JSpace b → JElems (a ++ (t ++ b)) [x]
  | more {a t b u : Bytes} {x xs} : JSpace a → JText t x → JSpace b → JElems u xs →
      JElems (a ++ (t ++ (b ++ 44 :: u))) (x :: xs)
/-- Members with white space around names and values, separated by commas. -/
inductive JMembers : Bytes → List Member → Prop
  | one {a k b c t d : Bytes} {s x} : JSpace a → JString k s → JSpace b → JSpace c → JText t x → JSpace d →
      JMembers (a ++ (k ++ (b ++ 58 :: (c ++ (t ++ d))))) [.mk s x]
  | more {a k b c t d u : Bytes} {s x xs} : JSpace a → JString k s → JSpace b → JSpace c → JText t x →
      JSpace d → JMembers u xs →
      JMembers (a ++ (k ++ (b ++ 58 :: (c ++ (t ++ (d ++ 44 :: u)))))) (.mk s x :: xs)
end

/-- A JSON document (section 2): a value with white space around it. -/
def JsonText (t : Bytes) (v : Json) : Prop :=
  ∃ a u b, t = a ++ (u ++ b) ∧ JSpace a ∧ JText u v ∧ JSpace b

end Cddlc.Spec
