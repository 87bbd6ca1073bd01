import Verif.Lemmas.LexTok

/-! `scanNumber` on a clean source computes `Spec.number`. -/

namespace Cddlc.Lexer
open Spec
variable [Unicode] {b : Lexer} {cs pre r : List Char}

theorem uniIsDigit_byte (v : Nat) (h : v < 256) :
    uniIsDigit (v : Int) = (decide (48 ≤ v) && decide (v ≤ 57)) := by
  show (if v ≤ 0xFF then _ else _) = _
  rw [if_pos (by omega)]

theorem uniIsDigit_of_digit {c : Char} (h : digit c = true) : uniIsDigit (c.toNat : Int) = true := by
  simp only [digit, Bool.and_eq_true, decide_eq_true_eq, char_le_iff, Char.reduceToNat] at h
  rw [uniIsDigit_byte _ (by omega)]; simp; omega

/-- What the loop's condition sees of the following byte. -/
theorem digit_peek (c : Char) :
    uniIsDigit (((String.utf8EncodeChar c).headD 0).toNat : Int) = digit c := by
  have hb := UInt8.toNat_lt ((String.utf8EncodeChar c).headD 0)
  rw [uniIsDigit_byte _ hb, Bool.eq_iff_iff]
  simp only [digit, Bool.and_eq_true, decide_eq_true_eq, char_le_iff, Char.reduceToNat]
  have := headD_toNat c
  omega

omit [Unicode] in
/-- The second character of `r` with padding. -/
theorem pad_next (c : Char) (t : List Char) : ∃ c' u, (c :: t) ++ [' '] = c :: c' :: u ∧
    c' = t.headD ' ' := by
  cases t with
  | nil => exact ⟨' ', [], rfl, rfl⟩
  | cons d t => exact ⟨d, t ++ [' '], rfl, rfl⟩

/-- The dot test of the number loop. -/
def dotHere (r : List Char) : Bool := r.head? = some '.' && r.tail.head? ≠ some '.'

omit [Unicode] in
theorem dot_at (h : Dec b.src cs []) (e : cs = pre ++ (r ++ [' '])) :
    ((decide ((at_ b [] pre (r ++ [' '])).chr = 46) &&
      decide ((at_ b [] pre (r ++ [' '])).peek ≠ 46)) : Bool) = dotHere r := by
  cases r with
  | nil => simp [dotHere]
  | cons c t =>
    obtain ⟨c', u, h1, h2⟩ := pad_next c t
    rw [h1] at e ⊢
    rw [peek_at h e, Bool.eq_iff_iff]
    have := headD_enc c' 46 (by omega)
    rw [show (46 : UInt8) = UInt8.ofNat 46 from rfl]
    have hc : c = '.' ↔ c.toNat = 46 := char_eq_iff c '.'
    have hc' : c' = '.' ↔ c'.toNat = 46 := char_eq_iff c' '.'
    have ht : t.head? = some '.' ↔ c' = '.' := by
      rw [h2]; cases t <;> simp
    have hL : (decide ((at_ b [] pre (c :: c' :: u)).chr = 46) && decide ((String.utf8EncodeChar c').headD 0 ≠ UInt8.ofNat 46)) = true ↔ c.toNat = 46 ∧ c'.toNat ≠ 46 := by
      rw [Bool.and_eq_true, decide_eq_true_iff, decide_eq_true_iff, at_chr_cons, ne_eq, this]
      omega
    have hR : dotHere (c :: t) = true ↔ c = '.' ∧ ¬ t.head? = some '.' := by
      simp only [dotHere, Bool.and_eq_true, List.head?_cons, List.tail_cons, Option.some.injEq]
      exact and_congr decide_eq_true_iff decide_eq_true_iff
    rw [hL, hR, ht, hc, hc']

/-- The loop condition. -/
theorem numCond_at (h : Dec b.src cs []) (e : cs = pre ++ (r ++ [' '])) :
    ((uniIsDigit (at_ b [] pre (r ++ [' '])).chr ||
      (decide ((at_ b [] pre (r ++ [' '])).chr = 46) &&
        uniIsDigit ((at_ b [] pre (r ++ [' '])).peek.toNat : Int)) : Bool)) = true ↔
      numChars r ≠ [] := by
  cases r with
  | nil => simp [numChars, show uniIsDigit (32 : Int) = false from rfl]
  | cons c t =>
    obtain ⟨c', u, h1, h2⟩ := pad_next c t
    rw [h1] at e ⊢
    rw [peek_at h e, digit_peek]
    have hc : c = '.' ↔ c.toNat = 46 := char_eq_iff c '.'
    have hd : (∃ d ∈ t.head?, digit d = true) ↔ digit c' = true := by
      rw [h2]
      cases t with
      | nil => simp [digit]
      | cons d t => simp
    simp only [at_chr_cons, numChars, hd, hc]
    have e46 : ((c.toNat : Int) = 46) ↔ c.toNat = 46 := by omega
    by_cases h3 : uniIsDigit (c.toNat : Int)
    · simp [h3]
    · simp only [h3, Bool.false_or, Bool.and_eq_true, decide_eq_true_eq, e46]
      split <;> simp_all

theorem numChars_cons (r : List Char) : numChars r = [] ∨
    ∃ c t, r = c :: t ∧ numChars r = c :: numChars t ∧
      (c = '.' → t.head? ≠ some '.') := by
  cases r with
  | nil => simp [numChars]
  | cons c t =>
    by_cases h1 : uniIsDigit (c.toNat : Int)
    · right; refine ⟨c, t, rfl, by simp [numChars, h1], ?_⟩
      rintro rfl; exact absurd h1 (by rw [uniIsDigit_byte _ (by decide)]; decide)
    · by_cases h2 : c = '.' ∧ (∃ d ∈ t.head?, digit d)
      · right; refine ⟨c, t, rfl, by rw [numChars, if_neg h1, if_pos h2], ?_⟩
        intro _ h3
        obtain ⟨d, hd, hd'⟩ := h2.2
        rw [h3] at hd
        simp at hd; subst hd; exact absurd hd' (by decide)
      · left; rw [numChars, if_neg h1, if_neg h2]

/-- The token after reading the number from `r` when it was `tok` before. -/
def numTok (r : List Char) (tok : Tok) : Tok :=
  if numChars r ≠ [] ∧ isFloat (numChars r).tail (r.drop (numChars r).length) then .FLOAT else tok

theorem numTok_step {c : Char} {t : List Char} (tok : Tok) (h : numChars (c :: t) = c :: numChars t) :
    numTok t (if dotHere t then .FLOAT else tok) = numTok (c :: t) tok := by
  unfold numTok
  rw [h]
  simp only [List.tail_cons, List.length_cons, List.drop_succ_cons, ne_eq, reduceCtorEq,
    not_false_eq_true, true_and]
  rcases numChars_cons t with h0 | ⟨d, u, rfl, h0, h1⟩
  · simp [h0, isFloat, dotHere]
  · rw [h0]
    have hd : dotHere (d :: u) = decide (d = '.') := by
      rw [Bool.eq_iff_iff]
      simp only [dotHere, List.head?_cons, Option.some.injEq, List.tail_cons, Bool.and_eq_true,
        decide_eq_true_eq]
      constructor
      · exact fun h => h.1
      · intro h; exact ⟨h, decide_eq_true (h1 h)⟩
    rw [hd]
    simp only [ne_eq, reduceCtorEq, not_false_eq_true, true_and, List.tail_cons, isFloat,
      List.length_cons, List.drop_succ_cons, List.mem_cons]
    by_cases h3 : d = '.'
    · subst h3; simp
    · have h4 : ¬ '.' = d := fun h => h3 h.symm
      simp only [h3, h4, decide_false, Bool.false_eq_true, if_false, false_or]
      congr

theorem number_while (h : Dec b.src cs []) (e : cs = pre ++ (r ++ [' '])) (tok : Tok) (n : Nat)
    (hn : r.length + 1 ≤ n) :
    whileOut
      (fun s : Lexer × Tok =>
        uniIsDigit s.1.chr || (s.1.chr = 46 && uniIsDigit (s.1.peek.toNat : Int)))
      (fun s : Lexer × Tok =>
        let l := s.1.next
        (l, if l.chr = 46 && l.peek ≠ 46 then Tok.FLOAT else s.2))
      n (at_ b [] pre (r ++ [' ']), tok) =
    .ok (at_ b [] (pre ++ numChars r) (r.drop (numChars r).length ++ [' ']), numTok r tok) := by
  induction r generalizing pre tok n with
  | nil =>
    obtain ⟨m, rfl⟩ : ∃ m, n = m + 1 := ⟨n - 1, by simp at hn; omega⟩
    have hc := (numCond_at (r := []) h e)
    rw [whileOut, if_neg]
    · simp [numChars, numTok]
    · intro hh; exact (hc.mp hh) (by simp [numChars])
  | cons c t ih =>
    obtain ⟨m, rfl⟩ : ∃ m, n = m + 1 := ⟨n - 1, by simp at hn; omega⟩
    have hc := (numCond_at (r := c :: t) h e)
    rcases numChars_cons (c :: t) with h0 | ⟨d, u, h1, h2, h3⟩
    · rw [whileOut, if_neg]
      · simp [h0, numTok]
      · intro hh; exact (hc.mp hh) h0
    · obtain ⟨rfl, rfl⟩ : c = d ∧ t = u := by simpa using h1
      rw [whileOut, if_pos]
      · have e' : cs = (pre ++ [c]) ++ (t ++ [' ']) := by simp [e]
        have hnext : (at_ b [] pre (c :: t ++ [' '])).next = at_ b [] (pre ++ [c]) (t ++ [' ']) :=
          next_clean h e
        simp only [hnext]
        have hdot := dot_at h e'
        rw [hdot, ih e' _ m (by simp at hn; omega), numTok_step tok h2]
        simp [h2]
      · exact hc.mpr (by simp [h2])

theorem scanDecimal_clean (h : Dec b.src cs []) {pre0 : List Char} {mid : List Char}
    (e : cs = pre0 ++ mid ++ (r ++ [' '])) :
    scanDecimal (blen pre0) (at_ b [] (pre0 ++ mid) (r ++ [' '])) =
      .ok (numTok r .INT, enc (mid ++ numChars r),
        at_ b [] (pre0 ++ mid ++ numChars r) (r.drop (numChars r).length ++ [' '])) := by
  have hn : r.length + 1 ≤ (at_ b [] (pre0 ++ mid) (r ++ [' '])).fuel := by
    have := fuel_clean h e; simp at this; omega
  have hpre : numChars r ++ r.drop (numChars r).length = r := by
    clear e hn
    induction r with
    | nil => simp [numChars]
    | cons c t ih =>
      rcases numChars_cons (c :: t) with h0 | ⟨d, u, h1, h2, _⟩
      · simp [h0]
      · obtain ⟨rfl, rfl⟩ : c = d ∧ t = u := by simpa using h1
        rw [h2]; simp [ih]
  unfold scanDecimal
  rw [number_while h e .INT _ hn]
  simp only [Out.bind_ok]
  rw [slice_enc (a := pre0) (w := mid ++ numChars r) (z := r.drop (numChars r).length ++ [' '])]
  · rfl
  · rw [at_src, src_of_dec h, e]
    conv => lhs; rw [← hpre]
    simp only [List.append_assoc]
  · rfl
  · rw [← List.append_assoc]
    cases r.drop (numChars r).length <;> rfl

omit [Unicode] in
theorem ident_isXbo (c : Char) :
    isXbo (((String.utf8EncodeChar c).headD 0).toNat : Int) = true ↔ c = 'x' ∨ c = 'b' ∨ c = 'o' := by
  have := headD_toNat c
  simp only [isXbo, Bool.or_eq_true, decide_eq_true_eq, char_eq_iff, Char.reduceToNat]
  omega

/-- `o` is the result of reading the lexeme `x` from the unread text `r` at position `pre`. -/
def Reads (o : Out (Tok × Bytes × Lexer)) (b : Lexer) (cs pre r : List Char) :
    Option Lexeme → Prop
  | none => o = .panic .sliceBounds
  | some x => ∃ pre' rest',
      o = .ok (x.tok, x.lit, at_ (if x.err then b.error (blen (pre ++ r.take x.len)) unterminatedMsg
        else b) [] pre' rest') ∧
      cs = pre' ++ rest' ∧ Tail (r.drop x.len) rest'

theorem numChars_length (r : List Char) : numChars r ++ r.drop (numChars r).length = r := by
  induction r with
  | nil => simp [numChars]
  | cons c t ih =>
    rcases numChars_cons (c :: t) with h0 | ⟨d, u, h1, h2, _⟩
    · simp [h0]
    · obtain ⟨rfl, rfl⟩ : c = d ∧ t = u := by simpa using h1
      rw [h2]; simp [ih]

omit [Unicode] in
theorem scanRadix_clean (h : Dec b.src cs []) (p : Int → Bool) (q : Char → Bool)
    (hq : ∀ c : Char, p c.toNat = q c) (hp : p (-1) = false) (hs : q ' ' = false)
    (d : Char) (lit : Bytes) (body : List Char) (hl : lit = enc ['0', d])
    (e : cs = pre ++ ('0' :: d :: body ++ [' '])) :
    Reads (scanRadix lit p (at_ b [] pre ('0' :: d :: body ++ [' '])).next.next) b cs pre
      ('0' :: d :: body) (some ⟨.INT, enc ('0' :: d :: body.takeWhile q),
        2 + (body.takeWhile q).length, false⟩) := by
  have e1 : cs = (pre ++ ['0']) ++ (d :: (body ++ [' '])) := by simp [e]
  have e2 : cs = (pre ++ ['0'] ++ [d]) ++ (body ++ [' ']) := by simp [e]
  refine ⟨pre ++ ['0'] ++ [d] ++ body.takeWhile q, body.dropWhile q ++ [' '], ?_, ?_, ?_⟩
  · have hn1 : (at_ b [] pre ('0' :: d :: body ++ [' '])).next = _ := next_clean h e
    have hn2 : (at_ b [] (pre ++ ['0']) (d :: body ++ [' '])).next = _ := next_clean h e1
    rw [hn1]
    show scanRadix lit p (at_ b [] (pre ++ ['0']) (d :: body ++ [' '])).next = _
    rw [hn2]
    show scanRadix lit p (at_ b [] (pre ++ ['0'] ++ [d]) (body ++ [' '])) = _
    unfold scanRadix
    rw [scanWhile_in h p q hq hp hs e2]
    simp only [Out.bind_ok, hl]
    rw [← enc_append]; rfl
  · rw [← split_pad]; exact e2
  · left
    simp only [Nat.add_comm 2, List.drop_succ_cons, drop_takeWhile_length]

omit [Unicode] in
theorem isFloat_tail {c : Char} (hc : digit c = true) (l rest : List Char) :
    isFloat (c :: l) rest = isFloat l rest := by
  have : ¬ '.' = c := by rintro rfl; exact absurd hc (by decide)
  simp [isFloat, this]

theorem scanDecimal_reads (h : Dec b.src cs []) {c : Char} {t : List Char} (hc : digit c = true)
    (e : cs = pre ++ (c :: t ++ [' '])) :
    Reads (scanDecimal (blen pre) (at_ b [] pre (c :: t ++ [' ']))) b cs pre (c :: t)
      (some ⟨if isFloat (numChars (c :: t)) ((c :: t).drop (numChars (c :: t)).length) then .FLOAT
        else .INT, enc (numChars (c :: t)), (numChars (c :: t)).length, false⟩) := by
  refine ⟨pre ++ numChars (c :: t), (c :: t).drop (numChars (c :: t)).length ++ [' '], ?_, ?_,
    Or.inl rfl⟩
  · have := scanDecimal_clean (pre0 := pre) (mid := []) (r := c :: t) h (by simpa using e)
    simp only [List.append_nil, List.nil_append] at this
    rw [this]
    have h1 : numChars (c :: t) = c :: numChars t := by
      rw [numChars, if_pos (uniIsDigit_of_digit hc)]
    have h2 : numTok (c :: t) .INT = if isFloat (numChars (c :: t))
        ((c :: t).drop (numChars (c :: t)).length) then .FLOAT else .INT := by
      unfold numTok
      rw [h1, isFloat_tail hc]; simp
    rw [h2]; rfl
  · conv => lhs; rw [e, ← numChars_length (c :: t)]
    simp only [List.append_assoc]

theorem scanNumber_reads (h : Dec b.src cs []) {c : Char} {t : List Char} (hc : digit c = true)
    (e : cs = pre ++ (c :: t ++ [' '])) :
    Reads (scanNumber (at_ b [] pre (c :: t ++ [' ']))) b cs pre (c :: t)
      (some (number (c :: t))) := by
  have hdec := scanDecimal_reads h hc e
  by_cases hx : c = '0' ∧ ∃ d ∈ t.head?, d = 'x' ∨ d = 'b' ∨ d = 'o'
  · obtain ⟨rfl, d, hd, hd'⟩ := hx
    obtain ⟨body, rfl⟩ : ∃ body, t = d :: body := by
      cases t with
      | nil => simp at hd
      | cons a t => simp at hd; exact ⟨t, by rw [hd]⟩
    have hpk : (at_ b [] pre ('0' :: d :: body ++ [' '])).peek =
        (String.utf8EncodeChar d).headD 0 := peek_at h e
    have hcond : (decide ((at_ b [] pre ('0' :: d :: body ++ [' '])).chr = 48) &&
        isXbo ((at_ b [] pre ('0' :: d :: body ++ [' '])).peek.toNat : Int)) = true := by
      rw [hpk, Bool.and_eq_true]
      exact ⟨rfl, (ident_isXbo d).mpr hd'⟩
    have hn1 : (at_ b [] pre ('0' :: d :: body ++ [' '])).next = _ := next_clean h e
    unfold scanNumber
    rw [if_pos hcond]
    have hchr : (at_ b [] pre ('0' :: d :: body ++ [' '])).next.chr = (d.toNat : Int) := by
      rw [hn1]; rfl
    simp only [hchr]
    rcases hd' with rfl | rfl | rfl
    · exact scanRadix_clean h isHex hexDigit isHex_char rfl rfl 'x' b!"0x" body rfl e
    · exact scanRadix_clean h isBinary binDigit isBinary_char rfl rfl 'b' b!"0b" body rfl e
    · exact scanRadix_clean h isOctal octDigit isOctal_char rfl rfl 'o' b!"0o" body rfl e
  · have hcond : ¬ (decide ((at_ b [] pre (c :: t ++ [' '])).chr = 48) &&
        isXbo ((at_ b [] pre (c :: t ++ [' '])).peek.toNat : Int)) = true := by
      obtain ⟨c', u, h1, h2⟩ := pad_next c t
      rw [h1] at e ⊢
      rw [peek_at h e, Bool.and_eq_true, ident_isXbo]
      rintro ⟨h3, h4⟩
      apply hx
      refine ⟨(char_eq_iff c '0').mpr ?_, ?_⟩
      · have := of_decide_eq_true h3
        simp only [at_chr_cons] at this
        show c.toNat = 48; omega
      · cases t with
        | nil =>
          rw [List.headD_nil] at h2; subst h2
          exact absurd h4 (by decide)
        | cons a t => rw [List.headD_cons] at h2; subst h2; exact ⟨c', rfl, h4⟩
    unfold scanNumber
    rw [if_neg hcond]
    have hnum : number (c :: t) = ⟨if isFloat (numChars (c :: t))
        ((c :: t).drop (numChars (c :: t)).length) then .FLOAT
        else .INT, enc (numChars (c :: t)), (numChars (c :: t)).length, false⟩ := by
      unfold number
      split
      · rename_i heq; cases heq; exact absurd ⟨rfl, 'x', rfl, by decide⟩ hx
      · rename_i heq; cases heq; exact absurd ⟨rfl, 'b', rfl, by decide⟩ hx
      · rename_i heq; cases heq; exact absurd ⟨rfl, 'o', rfl, by decide⟩ hx
      · rfl
    rw [hnum]
    exact hdec

end Cddlc.Lexer
