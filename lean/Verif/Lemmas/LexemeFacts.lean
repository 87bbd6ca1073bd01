import Verif.Lemmas.LexScan

/-! Consequences of the lexical grammar itself. -/

namespace Cddlc.Spec
open Lexer
variable [Unicode]

omit [Unicode] in
theorem take_takeWhile_len (q : Char → Bool) (r : List Char) :
    (r.takeWhile q).length ≤ r.length := by
  have := congrArg List.length (List.takeWhile_append_dropWhile (p := q) (l := r))
  simp only [List.length_append] at this; omega

omit [Unicode] in
theorem not_mem_takeWhile {q : Char → Bool} (h : q '\n' = false) (r : List Char) :
    '\n' ∉ r.takeWhile q := by
  intro hm
  have := List.all_eq_true.mp (List.all_takeWhile (l := r) (p := q)) _ hm
  rw [h] at this; exact absurd this (by simp)

theorem numChars_no_nl (r : List Char) : '\n' ∉ numChars r := by
  induction r with
  | nil => simp [numChars]
  | cons c r ih =>
    rw [numChars]
    split
    · rename_i h
      have : ¬ c = '\n' := by
        rintro rfl
        rw [show uniIsDigit (('\n'.toNat : Nat) : Int) = false from rfl] at h
        exact absurd h (by simp)
      simp only [List.mem_cons, not_or]; exact ⟨fun h' => this h'.symm, ih⟩
    · split
      · rename_i h
        simp only [List.mem_cons, not_or]; exact ⟨by rw [h.1]; decide, ih⟩
      · simp

theorem take_numChars (r : List Char) : r.take (numChars r).length = numChars r := by
  conv => lhs; arg 2; rw [← numChars_length r]
  simp

theorem numChars_le (r : List Char) : (numChars r).length ≤ r.length := by
  have := congrArg List.length (numChars_length r)
  simp only [List.length_append] at this; omega

/-- Basic facts about a lexeme of a non-empty text not starting with a newline. -/
structure Facts (r : List Char) (x : Lexeme) : Prop where
  le : x.len ≤ r.length
  pos : 0 < x.len
  noNl : '\n' ∉ r.take x.len
  tok : x.tok ≠ .EOF

omit [Unicode] in
theorem word_ne_eof (w : List Char) : word w ≠ .EOF := by
  unfold word
  have : ∀ e ∈ reserved, e.2 ≠ .EOF := by decide
  split
  · rename_i e he
    exact this e (List.mem_of_find?_eq_some he)
  · simp

theorem number_facts {c : Char} {t : List Char} (h : digit c = true) :
    Facts (c :: t) (number (c :: t)) := by
  have hrad : ∀ (d : Char) (q : Char → Bool) (body : List Char) (l : Bytes), q '\n' = false → d ≠ '\n' →
      Facts ('0' :: d :: body) ⟨.INT, l, 2 + (body.takeWhile q).length, false⟩ := by
    intro d q body l hq hd
    refine ⟨?_, by simp; omega, ?_, by simp⟩
    · have := take_takeWhile_len q body
      simp only [List.length_cons]; omega
    · rw [Nat.add_comm 2]
      simp only [List.take_succ_cons, take_takeWhile_length, List.mem_cons, not_or]
      exact ⟨by decide, fun h => hd h.symm, not_mem_takeWhile hq _⟩
  unfold number
  split
  · rename_i heq; cases heq; exact hrad _ _ _ _ rfl (by decide)
  · rename_i heq; cases heq; exact hrad _ _ _ _ rfl (by decide)
  · rename_i heq; cases heq; exact hrad _ _ _ _ rfl (by decide)
  · have h1 : numChars (c :: t) = c :: numChars t := by
      rw [numChars, if_pos (uniIsDigit_of_digit h)]
    refine ⟨numChars_le _, ?_, ?_, ?_⟩
    · simp [h1]
    · simp only [take_numChars]; exact numChars_no_nl _
    · simp only []; split <;> simp

omit [Unicode] in
theorem string_facts {t : List Char} {x : Lexeme} (h : string t = some x) : Facts ('"' :: t) x := by
  have hq : (fun c => decide (c ≠ '"') && decide (c ≠ '\n')) '\n' = false := by decide
  unfold string at h
  simp only [drop_takeWhile_length] at h
  generalize hB : t.takeWhile (fun c => decide (c ≠ '"') && decide (c ≠ '\n')) = body at *
  generalize hD : t.dropWhile (fun c => decide (c ≠ '"') && decide (c ≠ '\n')) = d at *
  have ht : t = body ++ d := by
    rw [← hB, ← hD, List.takeWhile_append_dropWhile]
  have hb : '\n' ∉ body := by rw [← hB]; exact not_mem_takeWhile hq _
  split at h
  · rename_i hd
    obtain ⟨d', rfl⟩ := head_cons hd
    cases h
    refine ⟨by simp [ht], by simp, ?_, by simp⟩
    subst ht
    have : ('"' :: (body ++ '"' :: d')).take (body.length + 2) = '"' :: (body ++ ['"']) := by
      simp [List.take_append, List.take_of_length_le, show body.length + 1 - body.length = 1 by omega]
    rw [this]; simp [hb]
  · split at h
    · exact absurd h (by simp)
    · cases h
      refine ⟨by simp [ht], by simp, ?_, by simp⟩
      subst ht; simp [hb]

theorem lexeme_facts {c : Char} {t : List Char} {x : Lexeme} (hc : c ≠ '\n')
    (h : lexeme (c :: t) = some x) : Facts (c :: t) x := by
  have hone : ∀ tok lit, tok ≠ .EOF → Facts (c :: t) ⟨tok, lit, 1, false⟩ := by
    intro tok lit htok
    exact ⟨by simp, by simp, by simpa using fun h => hc h.symm, htok⟩
  have htwo : ∀ d tok lit, t.head? = some d → d ≠ '\n' → tok ≠ .EOF →
      Facts (c :: t) ⟨tok, lit, 2, false⟩ := by
    intro d tok lit ht hd htok
    obtain ⟨t', rfl⟩ := head_cons ht
    refine ⟨by simp, by simp, ?_, htok⟩
    simp only [List.take_succ_cons, List.take_zero, List.mem_cons, not_or]
    exact ⟨fun h => hc h.symm, fun h => hd h.symm, by simp⟩
  have hthree : ∀ d d' tok lit, t.take 2 = [d, d'] → d ≠ '\n' → d' ≠ '\n' → tok ≠ .EOF →
      Facts (c :: t) ⟨tok, lit, 3, false⟩ := by
    intro d d' tok lit ht hd hd' htok
    have h2 : 2 ≤ t.length := by
      have := congrArg List.length ht; simp at this; omega
    refine ⟨by simp only [List.length_cons]; omega, by simp, ?_, htok⟩
    rw [List.take_succ_cons, ht]
    simp only [List.mem_cons, not_or]
    exact ⟨fun h => hc h.symm, fun h => hd h.symm, fun h => hd' h.symm, by simp⟩
  unfold lexeme at h
  change (if idStart c = true then _ else _) = _ at h
  by_cases hx : idStart c = true
  · rw [if_pos hx] at h
    cases h
    have hb : idBody c = true := by simp [idBody, hx]
    refine ⟨take_takeWhile_len _ _, by simp [hb], ?_, ?_⟩
    · rw [take_takeWhile_length]
      exact not_mem_takeWhile rfl _
    · simp only []; split
      · exact word_ne_eof _
      · simp
  rw [if_neg hx] at h; clear hx
  by_cases hx : digit c = true
  · rw [if_pos hx] at h
    cases h; exact number_facts hx
  rw [if_neg hx] at h; clear hx
  by_cases hx : c = ';'
  · rw [if_pos hx] at h
    cases h
    refine ⟨?_, by simp, ?_, by simp⟩
    · have := take_takeWhile_len (· ≠ '\n') t
      simp only [List.length_cons]; omega
    · simp only [List.take_succ_cons, take_takeWhile_length, List.mem_cons, not_or]
      exact ⟨fun h => hc h.symm, not_mem_takeWhile rfl _⟩
  rw [if_neg hx] at h; clear hx
  by_cases hx : c = '"'
  · rw [if_pos hx] at h
    subst hx; exact string_facts h
  rw [if_neg hx] at h; clear hx
  by_cases hx : c = '=' ∧ t.head? = some '>'
  · rw [if_pos hx] at h
    cases h; exact htwo '>' _ _ (And.right hx) (by decide) (by simp)
  rw [if_neg hx] at h; clear hx
  by_cases hx : c = '/' ∧ t.head? = some '='
  · rw [if_pos hx] at h
    cases h; exact htwo '=' _ _ (And.right hx) (by decide) (by simp)
  rw [if_neg hx] at h; clear hx
  by_cases hx : c = '/' ∧ t.take 2 = ['/', '=']
  · rw [if_pos hx] at h
    cases h; exact hthree '/' '=' _ _ (And.right hx) (by decide) (by decide) (by simp)
  rw [if_neg hx] at h; clear hx
  by_cases hx : c = '/' ∧ t.head? = some '/'
  · rw [if_pos hx] at h
    cases h; exact htwo '/' _ _ (And.right hx) (by decide) (by simp)
  rw [if_neg hx] at h; clear hx
  by_cases hx : c = '.' ∧ t.take 2 = ['.', '.']
  · rw [if_pos hx] at h
    cases h; exact hthree '.' '.' _ _ (And.right hx) (by decide) (by decide) (by simp)
  rw [if_neg hx] at h; clear hx
  by_cases hx : c = '.' ∧ t.head? = some '.'
  · rw [if_pos hx] at h
    cases h; exact htwo '.' _ _ (And.right hx) (by decide) (by simp)
  rw [if_neg hx] at h; clear hx
  by_cases hx : c = '.' ∧ (∃ d ∈ t.head?, uniIsLetter (d.toNat : Int) = true)
  · rw [if_pos hx] at h
    cases h
    refine ⟨?_, by simp, ?_, word_ne_eof _⟩
    · have := take_takeWhile_len alpha t
      simp only [List.length_cons]; omega
    · simp only [List.length_cons, List.take_succ_cons, take_takeWhile_length, List.mem_cons, not_or]
      exact ⟨fun h => hc h.symm, not_mem_takeWhile rfl _⟩
  · rw [if_neg hx] at h
    cases h
    apply hone
    have : ∀ c, (single c).getD .ILLEGAL ≠ .EOF := by
      intro c; unfold single; split <;> simp
    exact this c

end Cddlc.Spec
