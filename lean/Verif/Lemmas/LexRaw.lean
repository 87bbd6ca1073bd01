import Verif.Lemmas.LexInv
import Verif.Spec.Tiles

/-! Byte-level consequences of the character-level grammar. -/

namespace Cddlc
open Spec

theorem byte_mem_encChar {c : Char} {v : UInt8} (hv : v.toNat < 128)
    (h : v ∈ String.utf8EncodeChar c) : c.toNat = v.toNat ∧ String.utf8EncodeChar c = [v] := by
  have hc : c.val.toNat = c.toNat := rfl
  have hr := char_range c
  have key : ∀ {n : Nat}, v = UInt8.ofNat n → n % 256 = v.toNat := by
    intro n hn
    have := congrArg UInt8.toNat hn
    simpa using this.symm
  by_cases ha : c.toNat < 128
  · rw [enc_ascii ha] at h ⊢
    simp only [List.mem_singleton] at h
    have := key h
    exact ⟨by omega, by rw [h]⟩
  · exfalso
    simp only [String.utf8EncodeChar, hc] at h
    rw [if_neg (by omega)] at h
    split at h
    · simp only [List.mem_cons, List.not_mem_nil, or_false] at h
      rcases h with h | h <;> (have := key h; omega)
    split at h
    · simp only [List.mem_cons, List.not_mem_nil, or_false] at h
      rcases h with h | h | h <;> (have := key h; omega)
    · simp only [List.mem_cons, List.not_mem_nil, or_false] at h
      rcases h with h | h | h | h <;> (have := key h; omega)

theorem byte_mem_enc {cs : List Char} {k : Char} (hk : k.toNat < 128) :
    UInt8.ofNat k.toNat ∈ enc cs ↔ k ∈ cs := by
  have hv : (UInt8.ofNat k.toNat).toNat = k.toNat := by simp; omega
  induction cs with
  | nil => simp [enc_nil]
  | cons c cs ih =>
    have ih' : UInt8.ofNat k.toNat ∈ enc cs ↔ k ∈ cs := ih
    rw [enc_cons, List.mem_append, List.mem_cons]
    constructor
    · rintro (h | h)
      · left; have := (byte_mem_encChar (by omega) h).1
        exact char_toNat_inj (by omega)
      · right; exact ih'.mp h
    · rintro (rfl | h)
      · left; rw [enc_ascii hk]; simp
      · right; exact ih'.mpr h

/-- A byte class and a character class that agree. -/
structure ClassEq (p : UInt8 → Bool) (q : Char → Bool) : Prop where
  ascii : ∀ v : UInt8, v.toNat < 128 → ∀ c : Char, c.toNat = v.toNat → p v = q c
  high : ∀ c : Char, 128 ≤ c.toNat → ∀ v : UInt8, 128 ≤ v.toNat → p v = q c

theorem encChar_high {c : Char} (h : 128 ≤ c.toNat) : ∀ v ∈ String.utf8EncodeChar c, 128 ≤ v.toNat := by
  intro v hv
  by_cases hh : v.toNat < 128
  · have := (byte_mem_encChar hh hv).1; omega
  · omega

theorem ClassEq.all {p q} (h : ClassEq p q) (c : Char) : ∀ v ∈ String.utf8EncodeChar c, p v = q c := by
  intro v hv
  by_cases hc : c.toNat < 128
  · rw [enc_ascii hc, List.mem_singleton] at hv
    have : v.toNat = c.toNat := by rw [hv]; simp; omega
    exact h.ascii v (by omega) c this.symm
  · exact h.high c (by omega) v (encChar_high (by omega) v hv)

theorem ClassEq.takeWhile {p q} (h : ClassEq p q) (cs : List Char) :
    (enc cs).takeWhile p = enc (cs.takeWhile q) := by
  induction cs with
  | nil => rfl
  | cons c cs ih =>
    rw [enc_cons, List.takeWhile_cons]
    by_cases hc : q c = true
    · rw [List.takeWhile_append_of_pos (by intro v hv; rw [h.all c v hv, hc]), ih, if_pos hc, enc_cons]
    · rw [if_neg hc]
      have := h.all c
      have hp := encChar_length_pos c
      cases hx : String.utf8EncodeChar c with
      | nil => rw [hx] at hp; simp at hp
      | cons v vs =>
        have h1 := this v (by rw [hx]; simp)
        rw [List.cons_append, List.takeWhile_cons, if_neg (by rw [h1]; exact hc)]; rfl

theorem ClassEq.dropWhile {p q} (h : ClassEq p q) (cs : List Char) :
    (enc cs).dropWhile p = enc (cs.dropWhile q) := by
  have h1 := List.takeWhile_append_dropWhile (p := p) (l := enc cs)
  have h2 : enc cs = enc (cs.takeWhile q) ++ enc (cs.dropWhile q) := by
    rw [← enc_append, List.takeWhile_append_dropWhile]
  rw [h.takeWhile] at h1
  conv at h1 => rhs; rw [h2]
  exact List.append_cancel_left h1

theorem classEq_of {p : UInt8 → Bool} {q : Char → Bool}
    (h1 : ∀ v : UInt8, v.toNat < 128 → ∀ c : Char, c.toNat = v.toNat → (p v = true ↔ q c = true))
    (h2 : ∀ c : Char, 128 ≤ c.toNat → ∀ v : UInt8, 128 ≤ v.toNat → (p v = true ↔ q c = true)) :
    ClassEq p q :=
  ⟨fun v hv c hc => Bool.eq_iff_iff.mpr (h1 v hv c hc),
   fun c hc v hv => Bool.eq_iff_iff.mpr (h2 c hc v hv)⟩

theorem u8_eq_iff (a b : UInt8) : a = b ↔ a.toNat = b.toNat := UInt8.toNat_inj.symm

theorem ws_class : ClassEq wsByte ws := by
  apply classEq_of
  all_goals
    intros
    simp only [wsByte, ws, Bool.or_eq_true, decide_eq_true_eq, char_eq_iff, u8_eq_iff,
      Char.reduceToNat, UInt8.reduceToNat]
    omega

theorem idStart_class : ClassEq idStartByte idStart := by
  apply classEq_of
  all_goals
    intros
    simp only [idStartByte, idStart, alpha, Bool.or_eq_true, Bool.and_eq_true, decide_eq_true_eq,
      char_eq_iff, char_le_iff, u8_eq_iff, UInt8.le_iff_toNat_le,
      Char.reduceToNat, UInt8.reduceToNat]
    omega

theorem idBody_class : ClassEq idByte idBody := by
  apply classEq_of
  all_goals
    intros
    simp only [idByte, idBody, idStartByte, idStart, alpha, digit, Bool.or_eq_true,
      Bool.and_eq_true, decide_eq_true_eq, char_eq_iff, char_le_iff, u8_eq_iff,
      UInt8.le_iff_toNat_le, Char.reduceToNat, UInt8.reduceToNat]
    omega

theorem nl_class : ClassEq (· ≠ 10) (· ≠ '\n') := by
  apply classEq_of
  all_goals
    intros
    simp only [decide_eq_true_eq, ne_eq, char_eq_iff, u8_eq_iff, Char.reduceToNat,
      UInt8.reduceToNat]
    omega

namespace Spec
open Lexer

theorem word_cases (w : List Char) : word w = .IDENT ∨ ∃ e ∈ reserved, word w = e.2 ∧ e.1.toList = w := by
  unfold word
  split
  · rename_i e he
    right
    refine ⟨e, List.mem_of_find?_eq_some he, rfl, ?_⟩
    have := List.find?_some he
    simpa using this
  · left; rfl

/-- The text of a word token. -/
theorem rawOf_word (w : List Char) : RawOf (word w) (enc w) (enc w) := by
  rcases word_cases w with h | ⟨e, he, h, hw⟩
  · rw [h]; rfl
  · have : ∀ e ∈ reserved, e.2 = .TEXT_LITERAL → enc e.1.toList = b!"text_literal" := by decide
    have h2 : ∀ e ∈ reserved, e.2 ≠ .COMMENT := by decide
    have h3 := this e he
    have h4 := h2 e he
    rw [h]
    generalize e.2 = t at *
    cases t <;> first
      | rfl
      | exact absurd rfl h4
      | (right; right; exact ⟨rfl, by rw [← hw]; exact h3 rfl⟩)

variable [Unicode]

omit [Unicode] in
theorem rawOf_string {t : List Char} {x : Lexeme} (h : string t = some x) :
    x.tok = .TEXT_LITERAL ∧ RawOf .TEXT_LITERAL x.lit (enc (('"' :: t).take x.len)) := by
  have hq1 : ∀ c ∈ t.takeWhile (fun c => decide (c ≠ '"') && decide (c ≠ '\n')), c ≠ '"' ∧ c ≠ '\n' := by
    intro c hc
    have := List.all_eq_true.mp List.all_takeWhile c hc
    simpa using this
  unfold string at h
  simp only [drop_takeWhile_length] at h
  generalize hB : t.takeWhile (fun c => decide (c ≠ '"') && decide (c ≠ '\n')) = body at *
  generalize hD : t.dropWhile (fun c => decide (c ≠ '"') && decide (c ≠ '\n')) = d at *
  have ht : t = body ++ d := by
    rw [← hB, ← hD, List.takeWhile_append_dropWhile]
  have hb1 : (34 : UInt8) ∉ enc body := by
    rw [show (34 : UInt8) = UInt8.ofNat '"'.toNat from rfl, byte_mem_enc (by decide)]
    intro hm; exact (hq1 _ hm).1 rfl
  have hb2 : (10 : UInt8) ∉ enc body := by
    rw [show (10 : UInt8) = UInt8.ofNat '\n'.toNat from rfl, byte_mem_enc (by decide)]
    intro hm; exact (hq1 _ hm).2 rfl
  split at h
  · rename_i hd
    obtain ⟨d', rfl⟩ := head_cons hd
    cases h
    subst ht
    refine ⟨rfl, Or.inl ⟨?_, hb1, hb2⟩⟩
    · have : ('"' :: (body ++ '"' :: d')).take (body.length + 2) = '"' :: (body ++ ['"']) := by
        simp [List.take_append, List.take_of_length_le, show body.length + 1 - body.length = 1 by omega]
      simp only [this]
      rw [enc_cons, enc_append]; rfl
  · rename_i hd
    split at h
    · exact absurd h (by simp)
    · rename_i hb
      cases h
      subst ht
      have hne : enc body ≠ [] := by
        cases body with
        | nil => exact absurd rfl hb
        | cons c w =>
          intro he
          have := congrArg List.length he
          have h2 := encChar_length_pos c
          simp only [enc_cons, List.length_append, List.length_nil] at this; omega
      have hdl := List.dropLast_concat_getLast hne
      refine ⟨rfl, Or.inr (Or.inl ⟨(enc body).getLast hne, ?_, ?_, ?_⟩)⟩
      · rw [hdl]; simp only [List.take_succ_cons, List.take_left]
        rw [enc_cons]; rfl
      · rw [hdl]; exact hb1
      · rw [hdl]; exact hb2

omit [Unicode] in
theorem single_plain (c : Char) : ∃ t, (single c).getD .ILLEGAL = t ∧ t ≠ .COMMENT ∧ t ≠ .TEXT_LITERAL := by
  refine ⟨_, rfl, ?_⟩
  unfold single; split <;> simp

omit [Unicode] in
theorem rawOf_eq {t : Tok} {lit : Bytes} (h1 : t ≠ .COMMENT) (h2 : t ≠ .TEXT_LITERAL) : RawOf t lit lit := by
  cases t <;> first | rfl | contradiction

theorem rawOf_number {c : Char} {t : List Char} :
    RawOf (number (c :: t)).tok (number (c :: t)).lit (enc ((c :: t).take (number (c :: t)).len)) := by
  unfold number
  split
  · rename_i heq; cases heq
    show RawOf .INT _ _
    show _ = _
    simp [Nat.add_comm 2, take_takeWhile_length]
  · rename_i heq; cases heq
    show _ = _
    simp [Nat.add_comm 2, take_takeWhile_length]
  · rename_i heq; cases heq
    show _ = _
    simp [Nat.add_comm 2, take_takeWhile_length]
  · simp only [take_numChars]
    split <;> rfl

/-- The text of a token is what `RawOf` says. -/
theorem rawOf_lexeme {c : Char} {t : List Char} {x : Lexeme} (h : lexeme (c :: t) = some x) :
    RawOf x.tok x.lit (enc ((c :: t).take x.len)) := by
  unfold lexeme at h
  change (if idStart c = true then _ else _) = _ at h
  by_cases hx : idStart c = true
  · rw [if_pos hx] at h
    cases h
    simp only [take_takeWhile_length]
    split
    · exact rawOf_word _
    · rfl
  rw [if_neg hx] at h; clear hx
  by_cases hx : digit c = true
  · rw [if_pos hx] at h
    cases h; exact rawOf_number
  rw [if_neg hx] at h; clear hx
  by_cases hx : c = ';'
  · rw [if_pos hx] at h
    cases h; subst hx
    show _ = _
    simp only [List.take_succ_cons, take_takeWhile_length]; rfl
  rw [if_neg hx] at h; clear hx
  by_cases hx : c = '"'
  · rw [if_pos hx] at h
    subst hx
    have := rawOf_string h
    rw [this.1]; exact this.2
  rw [if_neg hx] at h; clear hx
  by_cases hx : c = '=' ∧ t.head? = some '>'
  · rw [if_pos hx] at h
    obtain ⟨rfl, ht⟩ := hx
    obtain ⟨t', rfl⟩ := head_cons ht
    cases h; rfl
  rw [if_neg hx] at h; clear hx
  by_cases hx : c = '/' ∧ t.head? = some '='
  · rw [if_pos hx] at h
    obtain ⟨rfl, ht⟩ := hx
    obtain ⟨t', rfl⟩ := head_cons ht
    cases h; rfl
  rw [if_neg hx] at h; clear hx
  by_cases hx : c = '/' ∧ t.take 2 = ['/', '=']
  · rw [if_pos hx] at h
    obtain ⟨rfl, ht⟩ := hx
    cases h
    show enc ('/' :: t.take 2) = _
    rw [ht]; rfl
  rw [if_neg hx] at h; clear hx
  by_cases hx : c = '/' ∧ t.head? = some '/'
  · rw [if_pos hx] at h
    obtain ⟨rfl, ht⟩ := hx
    obtain ⟨t', rfl⟩ := head_cons ht
    cases h; rfl
  rw [if_neg hx] at h; clear hx
  by_cases hx : c = '.' ∧ t.take 2 = ['.', '.']
  · rw [if_pos hx] at h
    obtain ⟨rfl, ht⟩ := hx
    cases h
    show enc ('.' :: t.take 2) = _
    rw [ht]; rfl
  rw [if_neg hx] at h; clear hx
  by_cases hx : c = '.' ∧ t.head? = some '.'
  · rw [if_pos hx] at h
    obtain ⟨rfl, ht⟩ := hx
    obtain ⟨t', rfl⟩ := head_cons ht
    cases h; rfl
  rw [if_neg hx] at h; clear hx
  by_cases hx : c = '.' ∧ (∃ d ∈ t.head?, uniIsLetter (d.toNat : Int) = true)
  · rw [if_pos hx] at h
    cases h
    simp only [List.length_cons, List.take_succ_cons, take_takeWhile_length]
    exact rawOf_word _
  · rw [if_neg hx] at h
    cases h
    obtain ⟨t', h1, h2, h3⟩ := single_plain c
    show RawOf ((single c).getD .ILLEGAL) _ _
    rw [h1]; exact rawOf_eq h2 h3

end Spec

namespace Lexer
open Spec
variable [Unicode]

/-- The state of the lexer on the clean source `enc cs` after reading `done`. -/
structure Clean (cs : List Char) (l : Lexer) (done r : List Char) : Prop where
  split : cs = done ++ r
  ex : ∃ b, At l b done r ∧ LinesOK b done

omit [Unicode] in
theorem clean_new {cs : List Char} (h : '\uFFFD' ∉ cs) : Clean cs (new (enc cs)) [] cs := by
  obtain ⟨cs', bad, h1, h2, _⟩ := init_dec (enc cs)
  obtain ⟨rfl, rfl⟩ := h2 cs h rfl
  exact ⟨rfl, init (enc cs), ⟨by simpa using h1, Or.inl (new_at h1)⟩, linesOK_nil _⟩

/-- One `scan` on a clean source. -/
theorem clean_scan {cs done r : List Char} {l : Lexer} (h : Clean cs l done r) :
    match lexeme (r.dropWhile ws) with
    | none => scan l = .panic .sliceBounds
    | some x =>
      ∃ l', scan l = .ok (x.tok, posAfter (done ++ r.takeWhile ws), x.lit, l') ∧
        Clean cs l' (done ++ r.takeWhile ws ++ (r.dropWhile ws).take x.len)
          ((r.dropWhile ws).drop x.len) ∧
        l'.errors = l.errors ++ (if x.err then
          [⟨{ offset := blen (done ++ r.takeWhile ws ++ (r.dropWhile ws).take x.len) },
            unterminatedMsg⟩] else []) := by
  obtain ⟨hs, b, hat, hl⟩ := h
  have := scan_clean hat hl
  cases hx : lexeme (r.dropWhile ws) with
  | none => rw [hx] at this; exact this
  | some x =>
    rw [hx] at this
    obtain ⟨l', b', h1, h2, h3, h4, h5⟩ := this
    refine ⟨l', h1, ⟨?_, b', h2, h3⟩, ?_⟩
    · rw [hs, List.append_assoc (done ++ r.takeWhile ws), List.take_append_drop,
        List.append_assoc, List.takeWhile_append_dropWhile]
    · rw [h2.errors, h4, hat.errors]

/-- A successful `scan` on a clean source. -/
theorem clean_scan_ok {cs done r : List Char} {l l' : Lexer} {tok pos lit} (h : Clean cs l done r)
    (hs : scan l = .ok (tok, pos, lit, l')) :
    ∃ x, lexeme (r.dropWhile ws) = some x ∧ x.tok = tok ∧ x.lit = lit ∧
      pos = posAfter (done ++ r.takeWhile ws) ∧
      Clean cs l' (done ++ r.takeWhile ws ++ (r.dropWhile ws).take x.len)
        ((r.dropWhile ws).drop x.len) ∧
      l'.errors = l.errors ++ (if x.err then
        [⟨{ offset := blen (done ++ r.takeWhile ws ++ (r.dropWhile ws).take x.len) },
          unterminatedMsg⟩] else []) := by
  have := clean_scan h
  cases hx : lexeme (r.dropWhile ws) with
  | none => rw [hx] at this; rw [this] at hs; cases hs
  | some x =>
    rw [hx] at this
    obtain ⟨l1, h1, h2, h3⟩ := this
    rw [h1] at hs
    cases hs
    exact ⟨x, rfl, rfl, rfl, rfl, h2, h3⟩

theorem clean_not_hang {cs done r : List Char} {l : Lexer} (h : Clean cs l done r) : scan l ≠ .hang := by
  have := clean_scan h
  split at this
  · rw [this]; simp
  · obtain ⟨_, h1, _⟩ := this
    rw [h1]; simp

omit [Unicode] in
theorem dropWhile_head (r : List Char) {c t} (h : r.dropWhile ws = c :: t) : ws c = false := by
  have := List.head?_dropWhile_not ws r
  rw [h] at this; simpa using this

omit [Unicode] in
theorem dropWhile_head_nl (r : List Char) {c t} (h : r.dropWhile ws = c :: t) : c ≠ '\n' := by
  have := dropWhile_head r h
  rintro rfl; exact absurd this (by decide)

/-- Tokens read from a clean source tile it. -/
theorem clean_tiles {cs done r : List Char} {l l' : Lexer} {ts} (h : Clean cs l done r)
    (hs : Scans l ts l') : ∃ done' r', Clean cs l' done' r' ∧
      Tiles (blen done) ts (enc r) (enc r') := by
  induction hs generalizing done r with
  | nil => exact ⟨done, r, h, .nil _ _⟩
  | @cons l l1 l2 tok pos lit ts h1 _ ih =>
    obtain ⟨x, hx, rfl, rfl, rfl, hc, _⟩ := clean_scan_ok h h1
    obtain ⟨done', r', h2, h3⟩ := ih hc
    refine ⟨done', r', h2, ?_⟩
    have hr : enc r = enc (r.takeWhile ws) ++ enc ((r.dropWhile ws).take x.len) ++
        enc ((r.dropWhile ws).drop x.len) := by
      rw [List.append_assoc, ← enc_append, List.take_append_drop, ← enc_append,
        List.takeWhile_append_dropWhile]
    rw [hr]
    have hgap : ∀ b ∈ enc (r.takeWhile ws), wsByte b = true := by
      rw [← ws_class.takeWhile]
      exact fun b hb => List.all_eq_true.mp List.all_takeWhile b hb
    have hoff : (blen (done ++ r.takeWhile ws ++ (r.dropWhile ws).take x.len)) =
        blen done + (enc (r.takeWhile ws)).length +
          (enc ((r.dropWhile ws).take x.len)).length := by
      rw [blen_append, blen_append]; rfl
    rw [hoff] at h3
    refine .cons hgap ?_ ?_ ?_ ?_ h3
    · show ((blen (done ++ r.takeWhile ws) : Nat) : Int) = _
      rw [blen_append]; simp [blen]
    · cases hr' : r.dropWhile ws with
      | nil => rw [hr'] at hx; cases hx; rfl
      | cons c t => rw [hr'] at hx; exact rawOf_lexeme hx
    · cases hr' : r.dropWhile ws with
      | nil => rw [hr'] at hx; cases hx; simp [enc_nil]
      | cons c t =>
        rw [hr'] at hx
        have f := lexeme_facts (dropWhile_head_nl r hr') hx
        have hp := f.pos
        simp only [f.tok, false_iff]
        intro he
        obtain ⟨n, hn⟩ : ∃ n, x.len = n + 1 := ⟨x.len - 1, by omega⟩
        rw [hn, List.take_succ_cons, enc_cons] at he
        have := congrArg List.length he
        have h5 := encChar_length_pos c
        simp only [List.length_append, List.length_nil] at this; omega
    · intro he
      cases hr' : r.dropWhile ws with
      | nil => simp [enc_nil]
      | cons c t =>
        rw [hr'] at hx
        exact absurd he (lexeme_facts (dropWhile_head_nl r hr') hx).tok

/-- The state reached by any scans of a clean source. -/
theorem clean_reach {cs : List Char} (h : '\uFFFD' ∉ cs) {ts l} (hs : Scans (new (enc cs)) ts l) :
    ∃ done r, Clean cs l done r ∧ Tiles 0 ts (enc cs) (enc r) := by
  obtain ⟨done, r, h1, h2⟩ := clean_tiles (clean_new h) hs
  exact ⟨done, r, h1, h2⟩

end Lexer
end Cddlc
