import Verif.Lemmas.LexErr
import Verif.Spec.Pieces

/-! Scanning token texts. -/

namespace Cddlc
open Spec Lexer
variable [Unicode]

omit [Unicode] in
theorem takeWhile_append_stop {q : Char → Bool} {w rest : List Char} (h : ∀ c ∈ w, q c = true)
    (hr : ∀ c ∈ rest.head?, q c = false) : (w ++ rest).takeWhile q = w := by
  rw [List.takeWhile_append_of_pos h]
  cases rest with
  | nil => simp
  | cons c r => rw [List.takeWhile_cons, if_neg (by simp [hr c (by simp)])]; simp

theorem numChars_append {ds rest : List Char} (h : ∀ c ∈ ds, digit c = true)
    (hr : ∀ c ∈ rest.head?, ws c = true) : numChars (ds ++ rest) = ds := by
  induction ds with
  | nil =>
    cases rest with
    | nil => rfl
    | cons c r =>
      have hc := hr c (by simp)
      have hc' : c = ' ' ∨ c = '\t' ∨ c = '\r' ∨ c = '\n' := by
        simp only [ws, Bool.or_eq_true, decide_eq_true_eq] at hc; simpa [or_assoc] using hc
      have hd : uniIsDigit (c.toNat : Int) = false := by
        rcases hc' with rfl | rfl | rfl | rfl <;> rfl
      rw [List.nil_append, numChars, if_neg (by rw [hd]; decide), if_neg]
      rintro ⟨rfl, _⟩; exact absurd hc (by decide)
  | cons d ds ih =>
    rw [List.cons_append, numChars, if_pos (uniIsDigit_of_digit (h d (by simp))),
      ih (fun c hc => h c (by simp [hc]))]


omit [Unicode] in
theorem ws_cases {rest : List Char} (hr : ∀ c ∈ rest.head?, ws c = true) :
    rest = [] ∨ ∃ c t, rest = c :: t ∧ (c = ' ' ∨ c = '\t' ∨ c = '\r' ∨ c = '\n') := by
  cases rest with
  | nil => exact Or.inl rfl
  | cons c t =>
    have hc := hr c (by simp)
    refine Or.inr ⟨c, t, rfl, ?_⟩
    simp only [ws, Bool.or_eq_true, decide_eq_true_eq] at hc; simpa [or_assoc] using hc

omit [Unicode] in
/-- A class of characters that contains no white space ends before white space. -/
theorem stop_ws {q : Char → Bool} (hq : q ' ' = false ∧ q '\t' = false ∧ q '\r' = false ∧ q '\n' = false)
    {rest : List Char} (hr : ∀ c ∈ rest.head?, ws c = true) : ∀ c ∈ rest.head?, q c = false := by
  rcases ws_cases hr with rfl | ⟨c, t, rfl, h⟩
  · simp
  · intro c' hc'
    obtain rfl : c = c' := by simpa using hc'
    rcases h with rfl | rfl | rfl | rfl
    · exact hq.1
    · exact hq.2.1
    · exact hq.2.2.1
    · exact hq.2.2.2

theorem numChars_frac {a b rest : List Char} (ha : ∀ c ∈ a, digit c = true) (hb : b ≠ [])
    (hb' : ∀ c ∈ b, digit c = true) (hr : ∀ c ∈ rest.head?, ws c = true) :
    numChars (a ++ '.' :: (b ++ rest)) = a ++ '.' :: b := by
  induction a with
  | nil =>
    rw [List.nil_append, numChars, if_neg (by rw [show uniIsDigit (('.'.toNat : Nat) : Int) = false from rfl]; decide), if_pos,
      numChars_append hb' hr]
    · rfl
    · refine ⟨rfl, ?_⟩
      cases b with
      | nil => exact absurd rfl hb
      | cons d b => exact ⟨d, by simp, hb' d (by simp)⟩
  | cons d ds ih =>
    rw [List.cons_append, numChars, if_pos (uniIsDigit_of_digit (ha d (by simp))),
      ih (fun c hc => ha c (by simp [hc]))]; rfl

omit [Unicode] in
theorem digit_not_idStart {c : Char} (h : digit c = true) : idStart c = false := by
  cases hi : idStart c with
  | false => rfl
  | true =>
    simp only [digit, idStart, alpha, Bool.or_eq_true, Bool.and_eq_true, decide_eq_true_eq, char_le_iff, char_eq_iff,
      Char.reduceToNat] at h hi
    omega

theorem lexeme_digit {c : Char} {t : List Char} (h : digit c = true) :
    lexeme (c :: t) = some (number (c :: t)) := by
  show (if idStart c = true then _ else _) = _
  rw [if_neg (by rw [digit_not_idStart h]; decide), if_pos h]

/-- A number that is not written with a radix prefix. -/
theorem number_plain {r : List Char} (h : ∀ c ∈ r.tail.head?, digit c = true ∨ c = '.' ∨ ws c = true) :
    number r = ⟨if isFloat (numChars r) (r.drop (numChars r).length) then .FLOAT else .INT,
      enc (numChars r), (numChars r).length, false⟩ := by
  unfold number
  split
  · exfalso; have := h 'x' (by simp); revert this; decide
  · exfalso; have := h 'b' (by simp); revert this; decide
  · exfalso; have := h 'o' (by simp); revert this; decide
  · rfl

theorem lexeme_word {c : Char} {t : List Char} (hc : idStart c = true) :
    lexeme (c :: t) = some ⟨word ((c :: t).takeWhile idBody), enc ((c :: t).takeWhile idBody),
      ((c :: t).takeWhile idBody).length, false⟩ := by
  show (if idStart c = true then _ else _) = _
  rw [if_pos hc]
  show some _ = _
  congr 2
  split
  · rfl
  · rename_i hl
    rcases word_cases ((c :: t).takeWhile idBody) with h | ⟨e, he, _, h2⟩
    · exact h.symm
    · have : ∀ e ∈ reserved, 2 < e.1.toList.length := by decide
      exact absurd (h2 ▸ this e he) hl

theorem uniIsLetter_alpha {c : Char} (hca : alpha c = true) : uniIsLetter (c.toNat : Int) = true := by
  simp only [alpha, Bool.or_eq_true, Bool.and_eq_true, decide_eq_true_eq, char_le_iff,
    Char.reduceToNat] at hca
  show (if c.toNat ≤ 0xFF then _ else _) = _
  rw [if_pos (by omega)]
  simp only [Bool.or_eq_true, Bool.and_eq_true, decide_eq_true_eq]
  omega

theorem lexeme_ctl {c : Char} {t : List Char} (hca : alpha c = true) :
    lexeme ('.' :: c :: t) = some ⟨word ('.' :: (c :: t).takeWhile alpha),
      enc ('.' :: (c :: t).takeWhile alpha), ('.' :: (c :: t).takeWhile alpha).length, false⟩ := by
  have hcd : c ≠ '.' := by rintro rfl; exact absurd hca (by decide)
  generalize hd : '.' = d
  show (if idStart d = true then _ else _) = _
  rw [if_neg (by subst hd; decide), if_neg (by subst hd; decide), if_neg (by subst hd; decide),
    if_neg (by subst hd; decide),
    if_neg (by subst hd; simp), if_neg (by subst hd; simp), if_neg (by subst hd; simp),
    if_neg (by subst hd; simp),
    if_neg (by
      intro h
      simp only [List.take_succ_cons, List.cons.injEq] at h; exact hcd h.2.1),
    if_neg (by simp [hcd]), if_pos ⟨hd.symm, c, by simp, uniIsLetter_alpha hca⟩]

theorem lexeme_piece {p : Piece} (hp : p.WF) {rest : List Char}
    (hr : ∀ c ∈ rest.head?, ws c = true)
    (hc : (∃ body same, p = .comment body same) → ∀ c ∈ rest.head?, c = '\n') :
    lexeme (p.render ++ rest) = some ⟨p.tok, enc p.lit, p.render.length, false⟩ := by
  cases p with
  | word w =>
    obtain ⟨⟨c, hc1, hc2⟩, hw⟩ := hp
    obtain ⟨t, rfl⟩ := head_cons hc1
    have htw : ((c :: t) ++ rest).takeWhile idBody = c :: t :=
      takeWhile_append_stop hw (stop_ws (by decide) hr)
    show lexeme (c :: (t ++ rest)) = _
    rw [lexeme_word hc2, ← List.cons_append, htw]; rfl
  | dec ds =>
    obtain ⟨hne, hd⟩ := hp
    have hn := numChars_append hd hr
    obtain ⟨c, t, rfl⟩ : ∃ c t, ds = c :: t := by
      cases ds with
      | nil => exact absurd rfl hne
      | cons c t => exact ⟨c, t, rfl⟩
    show lexeme (c :: (t ++ rest)) = _
    rw [lexeme_digit (hd c (by simp)), number_plain, ← List.cons_append, hn, List.drop_left]
    · have : isFloat (c :: t) rest = false := by
        unfold isFloat
        rw [Bool.or_eq_false_iff]
        constructor
        · simp only [decide_eq_false_iff_not]
          intro hm; exact absurd (hd '.' hm) (by decide)
        · rcases ws_cases hr with rfl | ⟨d, u, rfl, h | h | h | h⟩
          · rfl
          all_goals (subst h; rfl)
      rw [this]; rfl
    · intro d hdm
      cases t with
      | nil => exact Or.inr (Or.inr (hr d hdm))
      | cons x t => simp at hdm; subst hdm; exact Or.inl (hd _ (by simp))
  | frac a b =>
    obtain ⟨hne, hne', ha, hb⟩ := hp
    have hn := numChars_frac ha hne' hb hr
    obtain ⟨c, t, rfl⟩ : ∃ c t, a = c :: t := by
      cases a with
      | nil => exact absurd rfl hne
      | cons c t => exact ⟨c, t, rfl⟩
    have hR : (Piece.frac (c :: t) b).render ++ rest = c :: (t ++ '.' :: (b ++ rest)) := by
      simp [Piece.render]
    rw [hR, lexeme_digit (ha c (by simp)), number_plain]
    · have hn' : numChars (c :: (t ++ '.' :: (b ++ rest))) = c :: (t ++ '.' :: b) := hn
      rw [hn']
      have : ∀ r, isFloat (c :: (t ++ '.' :: b)) r = true := by
        intro r; unfold isFloat; simp
      rw [this]; rfl
    · intro d hdm
      cases t with
      | nil => simp at hdm; exact Or.inr (Or.inl hdm.symm)
      | cons x t => simp at hdm; subst hdm; exact Or.inl (ha _ (by simp))
  | hex ds =>
    have hw : (ds ++ rest).takeWhile hexDigit = ds := takeWhile_append_stop hp (stop_ws (by decide) hr)
    show lexeme ('0' :: 'x' :: (ds ++ rest)) = _
    rw [lexeme_digit (by decide)]
    simp only [number, hw, Piece.tok, Piece.lit, Piece.render, List.length_cons]
    congr 2; omega
  | oct ds =>
    have hw : (ds ++ rest).takeWhile octDigit = ds := takeWhile_append_stop hp (stop_ws (by decide) hr)
    show lexeme ('0' :: 'o' :: (ds ++ rest)) = _
    rw [lexeme_digit (by decide)]
    simp only [number, hw, Piece.tok, Piece.lit, Piece.render, List.length_cons]
    congr 2; omega
  | bin ds =>
    have hw : (ds ++ rest).takeWhile binDigit = ds := takeWhile_append_stop hp (stop_ws (by decide) hr)
    show lexeme ('0' :: 'b' :: (ds ++ rest)) = _
    rw [lexeme_digit (by decide)]
    simp only [number, hw, Piece.tok, Piece.lit, Piece.render, List.length_cons]
    congr 2; omega
  | str body =>
    obtain ⟨h1, h2, h3⟩ := hp
    have hw : (body ++ '"' :: rest).takeWhile (fun c => c ≠ '"' && c ≠ '\n') = body := by
      apply takeWhile_append_stop
      · intro c hc
        have : c ≠ '"' := fun h => h1 (h ▸ hc)
        have : c ≠ '\n' := fun h => h2 (h ▸ hc)
        simp_all
      · simp
    have hR : (Piece.str body).render ++ rest = '"' :: (body ++ '"' :: rest) := by
      simp [Piece.render]
    rw [hR, lexeme_string]
    unfold string
    simp only [hw, List.drop_left, List.head?_cons, if_true]
    simp [Piece.tok, Piece.lit, Piece.render]
  | ctl w =>
    obtain ⟨hne, hw⟩ := hp
    obtain ⟨c, t, rfl⟩ : ∃ c t, w = c :: t := by
      cases w with
      | nil => exact absurd rfl hne
      | cons c t => exact ⟨c, t, rfl⟩
    have htw : ((c :: t) ++ rest).takeWhile alpha = c :: t :=
      takeWhile_append_stop hw (stop_ws (by decide) hr)
    have hca := hw c (by simp)
    have hcd : c ≠ '.' := by rintro rfl; exact absurd hca (by decide)
    show lexeme ('.' :: c :: (t ++ rest)) = _
    rw [lexeme_ctl hca, ← List.cons_append, htw]; rfl
  | op s t =>
    simp only [Piece.WF, operators, List.mem_cons, Prod.mk.injEq, List.not_mem_nil, or_false] at hp
    rcases ws_cases hr with rfl | ⟨d, u, rfl, rfl | rfl | rfl | rfl⟩ <;> clear hr hc <;>
    · rcases hp with ⟨rfl, rfl⟩ | ⟨rfl, rfl⟩ | ⟨rfl, rfl⟩ | ⟨rfl, rfl⟩ | ⟨rfl, rfl⟩ | ⟨rfl, rfl⟩ |
        ⟨rfl, rfl⟩ | ⟨rfl, rfl⟩ | ⟨rfl, rfl⟩ | ⟨rfl, rfl⟩ | ⟨rfl, rfl⟩ | ⟨rfl, rfl⟩ | ⟨rfl, rfl⟩ |
        ⟨rfl, rfl⟩ | ⟨rfl, rfl⟩ | ⟨rfl, rfl⟩ | ⟨rfl, rfl⟩ | ⟨rfl, rfl⟩ | ⟨rfl, rfl⟩ | ⟨rfl, rfl⟩ |
        ⟨rfl, rfl⟩ | ⟨rfl, rfl⟩ | ⟨rfl, rfl⟩ | ⟨rfl, rfl⟩ | ⟨rfl, rfl⟩ | ⟨rfl, rfl⟩ <;> rfl
  | comment body _ =>
    have hw : (body ++ rest).takeWhile (· ≠ '\n') = body := by
      apply takeWhile_append_stop
      · intro c hm
        have : c ≠ '\n' := fun h => hp.1 (h ▸ hm)
        simpa using this
      · intro c hm; simpa using hc ⟨_, _, rfl⟩ c hm
    show lexeme (';' :: (body ++ rest)) = _
    show some _ = _
    simp only [hw]; rfl

/-- What scanning must return for token texts. -/
def Spec.expected (ps : List (Piece × List Char)) : List (Tok × Bytes) :=
  ps.map fun e => (e.1.tok, enc e.1.lit)

omit [Unicode] in
theorem render_head {p : Piece} (hp : p.WF) : ∃ c t, p.render = c :: t ∧ ws c = false := by
  cases p with
  | word w =>
    obtain ⟨⟨c, hc1, hc2⟩, hw⟩ := hp
    obtain ⟨t, rfl⟩ := head_cons hc1
    refine ⟨c, t, rfl, ?_⟩
    cases hws : ws c with
    | false => rfl
    | true =>
      simp only [ws, idStart, alpha, Bool.or_eq_true, Bool.and_eq_true, decide_eq_true_eq, char_le_iff,
        char_eq_iff, Char.reduceToNat] at hws hc2
      omega
  | dec ds =>
    obtain ⟨hne, hd⟩ := hp
    cases ds with
    | nil => exact absurd rfl hne
    | cons c t =>
      refine ⟨c, t, rfl, ?_⟩
      have hc2 := hd c (by simp)
      cases hws : ws c with
      | false => rfl
      | true =>
        simp only [ws, digit, Bool.or_eq_true, Bool.and_eq_true, decide_eq_true_eq, char_le_iff,
          char_eq_iff, Char.reduceToNat] at hws hc2
        omega
  | frac a b =>
    obtain ⟨hne, _, hd, _⟩ := hp
    cases a with
    | nil => exact absurd rfl hne
    | cons c t =>
      refine ⟨c, _, rfl, ?_⟩
      have hc2 := hd c (by simp)
      cases hws : ws c with
      | false => rfl
      | true =>
        simp only [ws, digit, Bool.or_eq_true, Bool.and_eq_true, decide_eq_true_eq, char_le_iff,
          char_eq_iff, Char.reduceToNat] at hws hc2
        omega
  | hex ds => exact ⟨_, _, rfl, by decide⟩
  | oct ds => exact ⟨_, _, rfl, by decide⟩
  | bin ds => exact ⟨_, _, rfl, by decide⟩
  | str body => exact ⟨_, _, rfl, by decide⟩
  | ctl w => exact ⟨_, _, rfl, by decide⟩
  | op s t =>
    have : ∀ e ∈ operators, ∃ c, e.1.toList = c :: e.1.toList.tail ∧ ws c = false := by
      intro e he
      have h : ∀ e ∈ operators, e.1.toList = (e.1.toList.headD 'a') :: e.1.toList.tail ∧
        ws (e.1.toList.headD 'a') = false := by decide
      exact ⟨_, h e he⟩
    obtain ⟨c, h1, h2⟩ := this _ hp
    exact ⟨c, _, h1, h2⟩
  | comment body _ => exact ⟨_, _, rfl, by decide⟩

omit [Unicode] in
theorem renderAll_no_bad {ps : List (Piece × List Char)} (h : PiecesWF ps) :
    '\uFFFD' ∉ renderAll ps := by
  induction ps with
  | nil => simp [renderAll]
  | cons e ps ih =>
    obtain ⟨p, g⟩ := e
    obtain ⟨h1, h2, h3⟩ := h
    simp only [renderAll, List.mem_append, not_or]
    refine ⟨⟨?_, fun hm => absurd (h2.1 _ hm) (by decide)⟩, ih h3⟩
    cases p with
    | word w => exact fun hm => absurd (h1.2 _ hm) (by decide)
    | dec ds => exact fun hm => absurd (h1.2 _ hm) (by decide)
    | frac a b =>
      intro hm
      simp only [Piece.render, List.mem_append, List.mem_cons] at hm
      rcases hm with hm | hm | hm
      · exact absurd (h1.2.2.1 _ hm) (by decide)
      · exact absurd hm (by decide)
      · exact absurd (h1.2.2.2 _ hm) (by decide)
    | hex ds =>
      intro hm
      simp only [Piece.render, List.mem_cons] at hm
      rcases hm with hm | hm | hm
      · exact absurd hm (by decide)
      · exact absurd hm (by decide)
      · exact absurd (h1 _ hm) (by decide)
    | oct ds =>
      intro hm
      simp only [Piece.render, List.mem_cons] at hm
      rcases hm with hm | hm | hm
      · exact absurd hm (by decide)
      · exact absurd hm (by decide)
      · exact absurd (h1 _ hm) (by decide)
    | bin ds =>
      intro hm
      simp only [Piece.render, List.mem_cons] at hm
      rcases hm with hm | hm | hm
      · exact absurd hm (by decide)
      · exact absurd hm (by decide)
      · exact absurd (h1 _ hm) (by decide)
    | str body =>
      intro hm
      simp only [Piece.render, List.mem_cons, List.mem_append, List.not_mem_nil, or_false] at hm
      rcases hm with hm | hm | hm
      · exact absurd hm (by decide)
      · exact h1.2.2 hm
      · exact absurd hm (by decide)
    | ctl w =>
      intro hm
      simp only [Piece.render, List.mem_cons] at hm
      rcases hm with hm | hm
      · exact absurd hm (by decide)
      · exact absurd (h1.2 _ hm) (by decide)
    | op s t =>
      have : ∀ e ∈ operators, '\uFFFD' ∉ e.1.toList := by decide
      exact this _ h1
    | comment body _ =>
      intro hm
      simp only [Piece.render, List.mem_cons] at hm
      rcases hm with hm | hm
      · exact absurd hm (by decide)
      · exact h1.2 hm

omit [Unicode] in
/-- Token texts are on one line. -/
theorem piece_line {p : Piece} (h1 : p.WF) : '\n' ∉ p.render := by
  cases p with
  | word w => exact fun hm => absurd (h1.2 _ hm) (by decide)
  | dec ds => exact fun hm => absurd (h1.2 _ hm) (by decide)
  | frac a b =>
    intro hm
    simp only [Piece.render, List.mem_append, List.mem_cons] at hm
    rcases hm with hm | hm | hm
    · exact absurd (h1.2.2.1 _ hm) (by decide)
    · exact absurd hm (by decide)
    · exact absurd (h1.2.2.2 _ hm) (by decide)
  | hex ds =>
    intro hm
    simp only [Piece.render, List.mem_cons] at hm
    rcases hm with hm | hm | hm
    · exact absurd hm (by decide)
    · exact absurd hm (by decide)
    · exact absurd (h1 _ hm) (by decide)
  | oct ds =>
    intro hm
    simp only [Piece.render, List.mem_cons] at hm
    rcases hm with hm | hm | hm
    · exact absurd hm (by decide)
    · exact absurd hm (by decide)
    · exact absurd (h1 _ hm) (by decide)
  | bin ds =>
    intro hm
    simp only [Piece.render, List.mem_cons] at hm
    rcases hm with hm | hm | hm
    · exact absurd hm (by decide)
    · exact absurd hm (by decide)
    · exact absurd (h1 _ hm) (by decide)
  | str body =>
    intro hm
    simp only [Piece.render, List.mem_cons, List.mem_append, List.not_mem_nil, or_false] at hm
    rcases hm with hm | hm | hm
    · exact absurd hm (by decide)
    · exact h1.2.1 hm
    · exact absurd hm (by decide)
  | ctl w =>
    intro hm
    simp only [Piece.render, List.mem_cons] at hm
    rcases hm with hm | hm
    · exact absurd hm (by decide)
    · exact absurd (h1.2 _ hm) (by decide)
  | op s t =>
    have : ∀ e ∈ operators, '\n' ∉ e.1.toList := by decide
    exact this _ h1
  | comment body _ =>
    intro hm
    simp only [Piece.render, List.mem_cons] at hm
    rcases hm with hm | hm
    · exact absurd hm (by decide)
    · exact h1.1 hm

omit [Unicode] in
/-- White space before the next text is skipped. -/
theorem dropWhile_gap {g : List Char} (hg : ∀ c ∈ g, ws c = true) {ps} (h : PiecesWF ps) :
    (g ++ renderAll ps).takeWhile ws = g ∧ (g ++ renderAll ps).dropWhile ws = renderAll ps := by
  have hh : ∀ c ∈ (renderAll ps).head?, ws c = false := by
    cases ps with
    | nil => simp [renderAll]
    | cons e ps =>
      obtain ⟨c, t, h1, h2⟩ := render_head h.1
      intro d hd
      simp only [renderAll, h1, List.cons_append, List.head?_cons, Option.mem_def,
        Option.some.injEq] at hd
      exact hd ▸ h2
  have ht : (g ++ renderAll ps).takeWhile ws = g := takeWhile_append_stop hg hh
  refine ⟨ht, ?_⟩
  have := List.takeWhile_append_dropWhile (p := ws) (l := g ++ renderAll ps)
  rw [ht] at this
  exact List.append_cancel_left this

/-- Scanning token texts in the middle of a source. -/
theorem scans_pieces {cs done g : List Char} {l : Lexer} (hg : ∀ c ∈ g, ws c = true)
    (ps : List (Piece × List Char)) (hp : PiecesWF ps) (h : Lexer.Clean cs l done (g ++ renderAll ps)) :
    ∃ ts l' pos done', Scans l (ts ++ [⟨.EOF, pos, []⟩]) l' ∧
      ts.map (fun t => (t.tok, t.lit)) = expected ps ∧ l'.errors = l.errors ∧
      Lexer.Clean cs l' done' [] := by
  induction ps generalizing l done g with
  | nil =>
    have h1 := clean_scan h
    obtain ⟨e1, e2⟩ := dropWhile_gap hg hp
    rw [e1, e2] at h1
    obtain ⟨l', h2, h3, h4⟩ := h1
    exact ⟨[], l', _, _, .cons h2 (.nil _), rfl, by simpa using h4, h3⟩
  | cons e ps ih =>
    obtain ⟨p, g'⟩ := e
    have h1 := clean_scan h
    obtain ⟨e1, e2⟩ := dropWhile_gap hg hp
    rw [e1, e2] at h1
    obtain ⟨hp1, hp2, hp3⟩ := hp
    have hrest : ∀ c ∈ (g' ++ renderAll ps).head?, ws c = true := by
      intro c hc
      cases g' with
      | nil =>
        cases ps with
        | nil => simp [renderAll] at hc
        | cons _ _ => exact absurd rfl (hp2.2.1 rfl)
      | cons x g' => simp at hc; exact hp2.1 c (by simp [hc])
    have hcom : (∃ body same, p = .comment body same) → ∀ c ∈ (g' ++ renderAll ps).head?, c = '\n' := by
      rintro ⟨body, same, rfl⟩ c hc
      cases g' with
      | nil =>
        cases ps with
        | nil => simp [renderAll] at hc
        | cons _ _ => exact absurd rfl (hp2.2.1 rfl)
      | cons x g' => simp at hc; exact hp2.2.2 c (by simp [hc])
    have hl := lexeme_piece hp1 hrest hcom
    have hR : renderAll ((p, g') :: ps) = p.render ++ (g' ++ renderAll ps) := by
      simp [renderAll]
    rw [hR, hl] at h1
    obtain ⟨l1, h2, h3, h4⟩ := h1
    rw [List.drop_left] at h3
    obtain ⟨ts, l', pos, done', h5, h6, h7, h8⟩ := ih hp2.1 hp3 h3
    exact ⟨_ :: ts, l', pos, done', .cons h2 h5, by simpa [expected] using h6, by simpa [h4] using h7, h8⟩

/-- The tokens of texts behind `pre`. -/
def placed : List Char → List (Piece × List Char) → List Token
  | _, [] => []
  | pre, (p, g) :: ps => ⟨p.tok, posAfter pre, enc p.lit⟩ :: placed (pre ++ p.render ++ g) ps

/-- As `scans_pieces`, with positions. -/
theorem scans_placed {cs done g : List Char} {l : Lexer} (hg : ∀ c ∈ g, ws c = true)
    (ps : List (Piece × List Char)) (hp : PiecesWF ps) (h : Lexer.Clean cs l done (g ++ renderAll ps)) :
    ∃ l', Scans l (placed (done ++ g) ps ++ [⟨.EOF, posAfter (done ++ g ++ renderAll ps), []⟩]) l' ∧
      l'.errors = l.errors := by
  induction ps generalizing l done g with
  | nil =>
    have h1 := clean_scan h
    obtain ⟨e1, e2⟩ := dropWhile_gap hg hp
    rw [e1, e2] at h1
    obtain ⟨l', h2, h3, h4⟩ := h1
    refine ⟨l', ?_, by simpa using h4⟩
    simp only [renderAll, List.append_nil, placed, List.nil_append]
    exact .cons h2 (.nil _)
  | cons e ps ih =>
    obtain ⟨p, g'⟩ := e
    have h1 := clean_scan h
    obtain ⟨e1, e2⟩ := dropWhile_gap hg hp
    rw [e1, e2] at h1
    obtain ⟨hp1, hp2, hp3⟩ := hp
    have hrest : ∀ c ∈ (g' ++ renderAll ps).head?, ws c = true := by
      intro c hc
      cases g' with
      | nil =>
        cases ps with
        | nil => simp [renderAll] at hc
        | cons _ _ => exact absurd rfl (hp2.2.1 rfl)
      | cons x g' => simp at hc; exact hp2.1 c (by simp [hc])
    have hcom : (∃ body same, p = .comment body same) → ∀ c ∈ (g' ++ renderAll ps).head?, c = '\n' := by
      rintro ⟨body, same, rfl⟩ c hc
      cases g' with
      | nil =>
        cases ps with
        | nil => simp [renderAll] at hc
        | cons _ _ => exact absurd rfl (hp2.2.1 rfl)
      | cons x g' => simp at hc; exact hp2.2.2 c (by simp [hc])
    have hl := lexeme_piece hp1 hrest hcom
    have hR : renderAll ((p, g') :: ps) = p.render ++ (g' ++ renderAll ps) := by
      simp [renderAll]
    rw [hR, hl] at h1
    obtain ⟨l1, h2, h3, h4⟩ := h1
    rw [List.drop_left, List.take_left] at h3
    obtain ⟨l', h5, h6⟩ := ih hp2.1 hp3 h3
    refine ⟨l', ?_, by simpa [h4] using h6⟩
    have e : done ++ g ++ p.render ++ g' ++ renderAll ps = done ++ g ++ renderAll ((p, g') :: ps) := by
      rw [hR]; simp [List.append_assoc]
    rw [e] at h5
    exact .cons h2 h5

end Cddlc
