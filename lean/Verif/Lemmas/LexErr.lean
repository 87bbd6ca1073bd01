import Verif.Lemmas.LexRaw

/-! When a lexeme panics or records an error, at the level of bytes. -/

namespace Cddlc
open Spec

theorem enc_eq_nil {r : List Char} : enc r = [] ↔ r = [] := by
  constructor
  · intro h
    cases r with
    | nil => rfl
    | cons c r =>
      have := congrArg List.length h
      have h2 := encChar_length_pos c
      simp only [enc_cons, List.length_append, List.length_nil] at this; omega
  · rintro rfl; rfl

theorem enc_cons_ascii {r : List Char} {s : Bytes} (k : Char) (hk : k.toNat < 128) :
    enc r = UInt8.ofNat k.toNat :: s ↔ ∃ t, r = k :: t ∧ enc t = s := by
  have hv : (UInt8.ofNat k.toNat).toNat = k.toNat := by simp; omega
  constructor
  · intro h
    cases r with
    | nil => cases h
    | cons c t =>
      rw [enc_cons] at h
      have hp := encChar_length_pos c
      cases hx : String.utf8EncodeChar c with
      | nil => rw [hx] at hp; simp at hp
      | cons v vs =>
        rw [hx, List.cons_append] at h
        have hvv : v = UInt8.ofNat k.toNat := by injection h
        have := byte_mem_encChar (c := c) (v := v) (by rw [hvv]; omega) (by rw [hx]; simp)
        have hck : c = k := char_toNat_inj (by rw [this.1, hvv, hv])
        refine ⟨t, by rw [hck], ?_⟩
        rw [hx] at this
        have : vs = [] := by simpa using this.2
        subst this
        injection h
  · rintro ⟨t, rfl, rfl⟩
    rw [enc_cons, enc_ascii hk]; rfl

theorem enc_head_ascii {r : List Char} (k : Char) (hk : k.toNat < 128) :
    (enc r).head? = some (UInt8.ofNat k.toNat) ↔ r.head? = some k := by
  constructor
  · intro h
    obtain ⟨s, hs⟩ : ∃ s, enc r = UInt8.ofNat k.toNat :: s := by
      cases hx : enc r with
      | nil => rw [hx] at h; cases h
      | cons v vs => rw [hx] at h; simp at h; exact ⟨vs, by rw [h]⟩
    obtain ⟨t, rfl, _⟩ := (enc_cons_ascii k hk).mp hs
    rfl
  · intro h
    obtain ⟨t, rfl⟩ := Lexer.head_cons h
    rw [enc_cons, enc_ascii hk]; rfl

/-- Bytes of a string body. -/
def Spec.strByte (b : UInt8) : Bool := b ≠ 34 && b ≠ 10

theorem str_class : ClassEq strByte (fun c => c ≠ '"' && c ≠ '\n') := by
  apply classEq_of
  all_goals
    intros
    simp only [strByte, Bool.and_eq_true, decide_eq_true_eq, ne_eq, char_eq_iff, u8_eq_iff,
      Char.reduceToNat, UInt8.reduceToNat]
    omega

namespace Spec
open Lexer

theorem string_none {t : List Char} : string t = none ↔ t = [] ∨ t.head? = some '\n' := by
  unfold string
  simp only [drop_takeWhile_length]
  cases t with
  | nil => simp
  | cons c t =>
    by_cases h1 : c = '"'
    · subst h1; simp
    · by_cases h2 : c = '\n'
      · subst h2; simp
      · simp only [List.takeWhile_cons, List.dropWhile_cons, h1, h2, ne_eq, not_false_eq_true,
          decide_true, Bool.and_self, if_true, reduceCtorEq, List.head?_cons, Option.some.injEq,
          or_self, if_false, iff_false]
        split <;> simp

/-- Only an unclosed string records an error. -/
theorem string_err {t : List Char} {x : Lexeme} (h : string t = some x) :
    x.err = true ↔ (t.dropWhile (fun c => c ≠ '"' && c ≠ '\n')).head? ≠ some '"' := by
  unfold string at h
  simp only [drop_takeWhile_length] at h
  split at h
  · rename_i hd; cases h; simp only [Bool.false_eq_true, ne_eq, false_iff, Decidable.not_not]; simpa using hd
  · rename_i hd
    split at h
    · cases h
    · cases h; simp only [true_iff, ne_eq]; simpa using hd

theorem string_err_drop {t : List Char} {x : Lexeme} (h : string t = some x) (he : x.err = true) :
    ('"' :: t).drop x.len = t.dropWhile (fun c => c ≠ '"' && c ≠ '\n') := by
  unfold string at h
  simp only [] at h
  split at h
  · cases h; cases he
  · split at h
    · cases h
    · cases h; simp only [List.drop_succ_cons, drop_takeWhile_length]

variable [Unicode]

theorem lexeme_string (t : List Char) : lexeme ('"' :: t) = string t := rfl

theorem lexeme_not_string {c : Char} {t : List Char} (h : c ≠ '"') :
    ∃ x, lexeme (c :: t) = some x ∧ x.err = false := by
  show ∃ x, (if idStart c = true then _ else _) = _ ∧ _
  by_cases hx : idStart c = true
  · rw [if_pos hx]; exact ⟨_, rfl, rfl⟩
  rw [if_neg hx]; clear hx
  by_cases hx : digit c = true
  · rw [if_pos hx]
    refine ⟨_, rfl, ?_⟩
    unfold number
    split <;> rfl
  rw [if_neg hx]; clear hx
  by_cases hx : c = ';'
  · rw [if_pos hx]; exact ⟨_, rfl, rfl⟩
  rw [if_neg hx, if_neg h]; clear hx
  by_cases hx : c = '=' ∧ t.head? = some '>'
  · rw [if_pos hx]; exact ⟨_, rfl, rfl⟩
  rw [if_neg hx]; clear hx
  by_cases hx : c = '/' ∧ t.head? = some '='
  · rw [if_pos hx]; exact ⟨_, rfl, rfl⟩
  rw [if_neg hx]; clear hx
  by_cases hx : c = '/' ∧ t.take 2 = ['/', '=']
  · rw [if_pos hx]; exact ⟨_, rfl, rfl⟩
  rw [if_neg hx]; clear hx
  by_cases hx : c = '/' ∧ t.head? = some '/'
  · rw [if_pos hx]; exact ⟨_, rfl, rfl⟩
  rw [if_neg hx]; clear hx
  by_cases hx : c = '.' ∧ t.take 2 = ['.', '.']
  · rw [if_pos hx]; exact ⟨_, rfl, rfl⟩
  rw [if_neg hx]; clear hx
  by_cases hx : c = '.' ∧ t.head? = some '.'
  · rw [if_pos hx]; exact ⟨_, rfl, rfl⟩
  rw [if_neg hx]; clear hx
  by_cases hx : c = '.' ∧ (∃ d ∈ t.head?, uniIsLetter (d.toNat : Int) = true)
  · rw [if_pos hx]; exact ⟨_, rfl, rfl⟩
  · rw [if_neg hx]; exact ⟨_, rfl, rfl⟩

end Spec
end Cddlc
