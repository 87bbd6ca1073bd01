import Verif.Lemmas.LexNumber

/-! `scanTok` on a clean source computes `Spec.lexeme`. -/

namespace Cddlc

theorem enc_inj {a b : List Char} (h : enc a = enc b) : a = b := by
  induction a generalizing b with
  | nil =>
    cases b with
    | nil => rfl
    | cons c b =>
      have := encChar_length_pos c
      have h2 := congrArg List.length h
      simp only [enc_nil, enc_cons, List.length_nil, List.length_append] at h2; omega
  | cons c a ih =>
    cases b with
    | nil =>
      have := encChar_length_pos c
      have h2 := congrArg List.length h
      simp only [enc_nil, enc_cons, List.length_nil, List.length_append] at h2; omega
    | cons c' b =>
      rw [enc_cons, enc_cons] at h
      have h1 := congrArg (fun x => (decodeRune x).1) h
      simp only [decodeRune_encChar] at h1
      have hc := char_toNat_inj h1
      subst hc
      rw [ih (List.append_cancel_left h)]

theorem keywords_eq : keywords = Spec.reserved.map (fun e => (enc e.1.toList, e.2)) := by decide

theorem lookup_enc (w : List Char) : lookup (enc w) = Spec.word w := by
  unfold lookup Spec.word
  rw [keywords_eq]
  generalize Spec.reserved = l
  induction l with
  | nil => rfl
  | cons e l ih =>
    simp only [List.map_cons, assocFind, List.find?_cons]
    by_cases h : e.1.toList = w
    · subst h; simp
    · have : ¬ enc e.1.toList = enc w := fun hh => h (enc_inj hh)
      simp only [this, if_false, h, decide_false]
      exact ih

namespace Lexer
open Spec
variable [Unicode] {b : Lexer} {cs pre r : List Char}

omit [Unicode] in
theorem at_error (o : Nat) (m : Bytes) (pre rest : List Char) :
    (at_ b [] pre rest).error o m = at_ (b.error o m) [] pre rest := by
  unfold at_ error
  cases rest <;> simp

omit [Unicode] in
theorem encodeRune_char (c : Char) : encodeRune (c.toNat : Int) = String.utf8EncodeChar c := by
  have hv : c.val.toNat = c.toNat := rfl
  have hr := char_range c
  show (if c.toNat ≤ 0x7F then _ else _) = _
  have key : ∀ {m n : Nat}, m % 256 = n % 256 → UInt8.ofNat m = UInt8.ofNat n := by
    intro m n hmn
    rw [← UInt8.toNat_inj]; simpa using hmn
  simp only [String.utf8EncodeChar, hv]
  split
  · rfl
  split
  · simp only [List.cons.injEq, and_true]
    exact ⟨key (by omega), key (by omega)⟩
  rw [if_neg (by omega)]
  split
  · simp only [List.cons.injEq, and_true]
    exact ⟨key (by omega), key (by omega), key (by omega)⟩
  · simp only [List.cons.injEq, and_true]
    exact ⟨key (by omega), key (by omega), key (by omega), key (by omega)⟩

omit [Unicode] in
/-- The slice that loses its last byte. -/
theorem slice_short {s : Bytes} {a w z : List Char} (e : s = enc (a ++ w ++ z)) (lo hi : Int)
    (hlo : lo = blen a) (hhi : hi = (blen (a ++ w) : Int) - 1) :
    slice s lo hi = if w = [] then .panic .sliceBounds else .ok (enc w).dropLast := by
  by_cases hw : w = []
  · subst hw
    rw [if_pos rfl]
    unfold slice
    rw [if_neg]
    rw [hlo, hhi, List.append_nil]; omega
  · rw [if_neg hw]
    have hp : 0 < blen w := by
      cases w with
      | nil => exact absurd rfl hw
      | cons c w => rw [blen_cons]; have := blen_single_pos c; omega
    subst e
    unfold slice
    rw [if_pos]
    · have : (enc (a ++ w ++ z)).drop lo.toNat = enc (w ++ z) := by
        rw [hlo, List.append_assoc]
        simpa using drop_enc a (w ++ z) []
      rw [this, hlo, hhi, blen_append, enc_append, List.dropLast_eq_take]
      rw [List.take_append_of_le_length]
      · congr 2; simp only [blen] at *; omega
      · simp only [blen] at *; omega
    · rw [hlo, hhi]
      refine ⟨by omega, by rw [blen_append]; omega, ?_⟩
      rw [show (enc (a ++ w ++ z)).length = blen (a ++ w ++ z) from rfl, blen_append (a ++ w)]
      omega

/-- The loop condition of `scanString`. -/
def strP (x : Int) : Bool := !(x < 0 || x = 10) && x ≠ 34
/-- The same on characters. -/
def strQ (c : Char) : Bool := c ≠ '"' && c ≠ '\n'

omit [Unicode] in
theorem strP_char (c : Char) : strP c.toNat = strQ c := by
  rw [Bool.eq_iff_iff]
  simp only [strP, strQ, Bool.and_eq_true, Bool.not_eq_true', Bool.or_eq_false_iff,
    decide_eq_false_iff_not, decide_eq_true_eq, ne_eq, char_eq_iff, Char.reduceToNat]
  omega

omit [Unicode] in
/-- The state after the opening quote. -/
theorem scanString_reads (h : Dec b.src cs []) {t : List Char}
    (e : cs = pre ++ ('"' :: t ++ [' '])) :
    Reads (do let (s, l') ← scanString (at_ b [] (pre ++ ['"']) (t ++ [' ']))
              .ok (.TEXT_LITERAL, s, l')) b cs pre ('"' :: t) (string t) := by
  have e1 : cs = (pre ++ ['"']) ++ (t ++ [' ']) := by simp [e]
  have hpq : (fun c : Char => strP c.toNat) = strQ := funext strP_char
  have hoff : (at_ b [] (pre ++ ['"']) (t ++ [' '])).offset = blen (pre ++ ['"']) := by
    cases t <;> rfl
  have hw := while_clean h strP rfl e1 _ (fuel_clean h e1)
  rw [hpq] at hw
  unfold scanString
  rw [show (fun l : Lexer => !(decide (l.chr < 0) || decide (l.chr = 10)) && decide (l.chr ≠ 34)) =
    (fun l => strP l.chr) from rfl, hw]
  simp only [Out.bind_ok]
  have hs : string t = if (t.dropWhile strQ).head? = some '"' then
      some ⟨.TEXT_LITERAL, enc (t.takeWhile strQ), (t.takeWhile strQ).length + 2, false⟩
      else if t.takeWhile strQ = [] then none
      else some ⟨.TEXT_LITERAL, (enc (t.takeWhile strQ)).dropLast, (t.takeWhile strQ).length + 1, true⟩ := by
    show (if (t.drop (t.takeWhile strQ).length).head? = some '"' then _ else _) = _
    rw [drop_takeWhile_length]
    rfl
  rcases pad_cases (p := strQ) rfl t with ⟨h1, h2, h3, h4⟩ | ⟨h1, h2, h3⟩
  · rw [h3, h4]
    rw [hs, h1, h2]
    rw [if_neg (show ¬ ([] : List Char).head? = some '"' by simp),
      show (at_ b [] (pre ++ ['"'] ++ (t ++ [' '])) []).chr = -1 from rfl, if_pos (by decide),
      at_error, at_offset_nil]
    have hbl : blen (pre ++ ['"'] ++ (t ++ [' '])) - 1 = blen (pre ++ ['"'] ++ t) := by
      rw [← List.append_assoc, blen_append (pre ++ ['"'] ++ t)]
      have : blen [' '] = 1 := rfl
      omega
    rw [slice_short (a := pre ++ ['"']) (w := t) (z := [' '])]
    · by_cases ht : t = []
      · rw [if_pos ht, if_pos ht]; rfl
      · rw [if_neg ht, if_neg ht]
        refine ⟨pre ++ ['"'] ++ (t ++ [' ']), [], ?_, by simpa using e1, Or.inr ⟨by simp, rfl⟩⟩
        simp only [Out.bind_ok, hbl, if_true, List.take_succ_cons, List.take_length]
        rw [List.append_assoc]; rfl
    · rw [at_src]; show b.src = _
      rw [src_of_dec h, e1, ← List.append_assoc]
    · rw [hoff]
    · rw [at_offset_nil, hbl]
  · rw [h2, h3]
    obtain ⟨d, u, hdu⟩ : ∃ d u, t.dropWhile strQ = d :: u := by
      cases hx : t.dropWhile strQ with
      | nil => exact absurd hx h1
      | cons d u => exact ⟨d, u, rfl⟩
    have hd : ¬ strQ d = true := by
      have := List.head?_dropWhile_not strQ t
      rw [hdu] at this; simpa using this
    have ht : t = t.takeWhile strQ ++ d :: u := by
      conv => lhs; rw [← List.takeWhile_append_dropWhile (p := strQ) (l := t), hdu]
    generalize hB : t.takeWhile strQ = body at *
    rw [hs, hdu]
    have e2 : cs = (pre ++ ['"'] ++ body) ++ (d :: (u ++ [' '])) := by
      rw [e1, ht]; simp
    have hdd : d = '"' ∨ d = '\n' := by
      simp only [strQ, Bool.and_eq_true, decide_eq_true_eq, not_and] at hd
      by_cases h0 : d = '"'
      · exact Or.inl h0
      · right; simpa using hd h0
    rcases hdd with rfl | rfl
    · rw [if_pos (show ('"' :: u).head? = some '"' from rfl)]
      have hn : (at_ b [] (pre ++ ['"'] ++ body) ('"' :: u ++ [' '])).next = _ := next_clean h e2
      have hch : (at_ b [] (pre ++ ['"'] ++ body) ('"' :: u ++ [' '])).chr = 34 := rfl
      have e3 : cs = (pre ++ ['"'] ++ body ++ ['"']) ++ (u ++ [' ']) := by rw [e2]; simp
      rw [hch, if_neg (by decide), hn]
      show Reads (do
        let __x ← (do
          let lit ← slice (at_ b [] (pre ++ ['"'] ++ body ++ ['"']) (u ++ [' '])).src _
              (((at_ b [] (pre ++ ['"'] ++ body ++ ['"']) (u ++ [' '])).offset : Int) - 1)
          Out.ok (lit, at_ b [] (pre ++ ['"'] ++ body ++ ['"']) (u ++ [' '])))
        match __x with | (s, l') => Out.ok (Tok.TEXT_LITERAL, s, l')) _ _ _ _ _
      have hof : (at_ b [] (pre ++ ['"'] ++ body ++ ['"']) (u ++ [' '])).offset =
        blen (pre ++ ['"'] ++ body ++ ['"']) := by cases u <;> rfl
      rw [slice_enc (a := pre ++ ['"']) (w := body) (z := '"' :: (u ++ [' ']))]
      · refine ⟨_, _, rfl, e3, Or.inl ?_⟩
        show u ++ [' '] = ('"' :: t).drop (body.length + 2) ++ [' ']
        rw [ht]; simp
      · rw [at_src, src_of_dec h, e2]
      · rw [hoff]
      · rw [hof, blen_append _ ['"']]
        have : blen ['"'] = 1 := rfl
        omega
    · rw [if_neg (show ¬ ('\n' :: u).head? = some '"' by simp)]
      have hch : (at_ b [] (pre ++ ['"'] ++ body) ('\n' :: u ++ [' '])).chr = 10 := rfl
      have hof : (at_ b [] (pre ++ ['"'] ++ body) ('\n' :: u ++ [' '])).offset =
        blen (pre ++ ['"'] ++ body) := rfl
      rw [hch, if_pos (by decide), at_error, hof]
      rw [slice_short (a := pre ++ ['"']) (w := body) (z := '\n' :: (u ++ [' ']))]
      · by_cases hb : body = []
        · rw [if_pos hb, if_pos hb]; rfl
        · rw [if_neg hb, if_neg hb]
          refine ⟨_, _, ?_, e2, Or.inl ?_⟩
          · have : ('"' :: t).take (body.length + 1) = '"' :: body := by rw [ht]; simp
            simp only [Out.bind_ok, if_true, this]
            rw [List.append_assoc]; rfl
          · rw [ht]; simp
      · rw [at_src]; show b.src = _
        rw [src_of_dec h, e2]
      · rw [hoff]
      · rfl

/-- The characters with their own code in the operator switch. -/
def special (c : Char) : Bool := c = ';' || c = '=' || c = '/' || c = '.' || c = '"'

omit [Unicode] in
theorem chr_ne {c d : Char} (h : c ≠ d) (k : Nat) (hk : d.toNat = k) : ¬ (c.toNat : Int) = (k : Int) := by
  intro hh
  exact h (char_toNat_inj (by omega))

theorem scanOther_single {c : Char} (h : special c = false) (l : Lexer) :
    scanOther (c.toNat : Int) l = .ok ((single c).getD .ILLEGAL, enc [c], l) := by
  have hlit : encodeRune (c.toNat : Int) = enc [c] := by rw [encodeRune_char]; simp [enc]
  simp only [special, Bool.or_eq_false_iff, decide_eq_false_iff_not] at h
  obtain ⟨⟨⟨⟨h1, h2⟩, h3⟩, h4⟩, h5⟩ := h
  rw [← hlit]
  unfold single
  split <;> (try rfl) <;> (try contradiction)
  unfold scanOther
  repeat rw [if_neg (by first
    | exact chr_ne (d := '-') ‹_› 45 rfl
    | exact chr_ne (d := '?') ‹_› 63 rfl
    | exact chr_ne (d := ';') ‹_› 59 rfl
    | exact chr_ne (d := ':') ‹_› 58 rfl
    | exact chr_ne (d := '(') ‹_› 40 rfl
    | exact chr_ne (d := ')') ‹_› 41 rfl
    | exact chr_ne (d := '{') ‹_› 123 rfl
    | exact chr_ne (d := '}') ‹_› 125 rfl
    | exact chr_ne (d := '[') ‹_› 91 rfl
    | exact chr_ne (d := ']') ‹_› 93 rfl
    | exact chr_ne (d := '+') ‹_› 43 rfl
    | exact chr_ne (d := '*') ‹_› 42 rfl
    | exact chr_ne (d := '<') ‹_› 60 rfl
    | exact chr_ne (d := '>') ‹_› 62 rfl
    | exact chr_ne (d := '#') ‹_› 35 rfl
    | exact chr_ne (d := '~') ‹_› 126 rfl
    | exact chr_ne (d := '=') ‹_› 61 rfl
    | exact chr_ne (d := ',') ‹_› 44 rfl
    | exact chr_ne (d := '&') ‹_› 38 rfl
    | exact chr_ne (d := '/') ‹_› 47 rfl
    | exact chr_ne (d := '.') ‹_› 46 rfl
    | exact chr_ne (d := '"') ‹_› 34 rfl
    | omega)]
  rfl

/-- The lexeme of a text starting with an ordinary character. -/
theorem lexeme_plain {c : Char} {t : List Char} (h1 : idStart c = false) (h2 : digit c = false)
    (h : special c = false) :
    lexeme (c :: t) = some ⟨(single c).getD .ILLEGAL, enc [c], 1, false⟩ := by
  simp only [special, Bool.or_eq_false_iff, decide_eq_false_iff_not] at h
  simp [lexeme, h1, h2, h]

omit [Unicode] in
/-- The current rune after the first character. -/
theorem chr_pad (k : Char) (v : Int) (hv : (k.toNat : Int) = v) (hk : k ≠ ' ') (p t : List Char) :
    (at_ b [] p (t ++ [' '])).chr = v ↔ t.head? = some k := by
  subst hv
  cases t with
  | nil =>
    show ((' '.toNat : Int) = _) ↔ _
    simp only [List.head?_nil, reduceCtorEq, iff_false]
    intro h
    exact hk (char_toNat_inj (by omega))
  | cons c t =>
    show ((c.toNat : Int) = _) ↔ _
    simp only [List.head?_cons, Option.some.injEq]
    constructor
    · intro h; exact char_toNat_inj (by omega)
    · rintro rfl; rfl

omit [Unicode] in
/-- The byte after the current rune after the first character. -/
theorem peek_pad (h : Dec b.src cs []) (k : Char) (v : UInt8) (hv : UInt8.ofNat k.toNat = v)
    (hk : k ≠ ' ') (hk2 : k.toNat < 128)
    {p t : List Char} {a : Char} (e : cs = p ++ (a :: t ++ [' '])) :
    (at_ b [] p (a :: t ++ [' '])).peek = v ↔ t.head? = some k := by
  subst hv
  obtain ⟨c', u, h1, h2⟩ := pad_next a t
  rw [h1] at e ⊢
  rw [peek_at h e, headD_enc _ _ hk2]
  cases t with
  | nil =>
    rw [List.headD_nil] at h2; subst h2
    simp only [List.head?_nil, reduceCtorEq, iff_false]
    intro h; exact hk (char_toNat_inj h.symm)
  | cons d t =>
    rw [List.headD_cons] at h2; subst h2
    simp only [List.head?_cons, Option.some.injEq]
    exact (char_eq_iff c' k).symm

omit [Unicode] in
theorem take_two {t : List Char} {x y : Char} :
    t.take 2 = [x, y] ↔ t.head? = some x ∧ t.tail.head? = some y := by
  cases t with
  | nil => simp
  | cons a t => cases t <;> simp

omit [Unicode] in
theorem head_cons {t : List Char} {k : Char} (h : t.head? = some k) : ∃ t', t = k :: t' := by
  cases t with
  | nil => simp at h
  | cons a t => simp at h; exact ⟨t, by rw [h]⟩

omit [Unicode] in
theorem reads_two (h : Dec b.src cs []) {c d : Char} {t : List Char}
    (e : cs = pre ++ (c :: d :: t ++ [' '])) (tok : Tok) (lit : Bytes) :
    Reads (.ok (tok, lit, (at_ b [] (pre ++ [c]) (d :: t ++ [' '])).next)) b cs pre (c :: d :: t)
      (some ⟨tok, lit, 2, false⟩) := by
  have e1 : cs = (pre ++ [c]) ++ (d :: (t ++ [' '])) := by simp [e]
  have hn : (at_ b [] (pre ++ [c]) (d :: t ++ [' '])).next = _ := next_clean h e1
  rw [hn]
  exact ⟨_, _, rfl, by simp [e], Or.inl rfl⟩

omit [Unicode] in
theorem reads_three (h : Dec b.src cs []) {c d d' : Char} {t : List Char}
    (e : cs = pre ++ (c :: d :: d' :: t ++ [' '])) (tok : Tok) (lit : Bytes) :
    Reads (.ok (tok, lit, (at_ b [] (pre ++ [c]) (d :: d' :: t ++ [' '])).next.next)) b cs pre
      (c :: d :: d' :: t) (some ⟨tok, lit, 3, false⟩) := by
  have e1 : cs = (pre ++ [c]) ++ (d :: (d' :: t ++ [' '])) := by simp [e]
  have e2 : cs = (pre ++ [c] ++ [d]) ++ (d' :: (t ++ [' '])) := by simp [e]
  have hn : (at_ b [] (pre ++ [c]) (d :: d' :: t ++ [' '])).next =
    at_ b [] (pre ++ [c] ++ [d]) (d' :: (t ++ [' '])) := next_clean h e1
  rw [hn, next_clean h e2]
  exact ⟨_, _, rfl, by simp [e], Or.inl rfl⟩

theorem scanOther_reads (h : Dec b.src cs []) {c : Char} {t : List Char}
    (h1 : idStart c = false) (h2 : digit c = false) (e : cs = pre ++ (c :: t ++ [' '])) :
    Reads (scanOther (c.toNat : Int) (at_ b [] (pre ++ [c]) (t ++ [' ']))) b cs pre (c :: t)
      (lexeme (c :: t)) := by
  have e1 : cs = (pre ++ [c]) ++ (t ++ [' ']) := by simp [e]
  by_cases hsp : special c = true
  · simp only [special, Bool.or_eq_true, decide_eq_true_eq] at hsp
    rcases hsp with (((rfl | rfl) | rfl) | rfl) | rfl
    · -- comment
      have hL : lexeme (';' :: t) = some ⟨.COMMENT, enc (t.takeWhile (· ≠ '\n')),
        (t.takeWhile (· ≠ '\n')).length + 1, false⟩ := rfl
      have hS : scanOther ((';'.toNat : Nat) : Int) (at_ b [] (pre ++ [';']) (t ++ [' '])) =
        (do let (c, l') ← (at_ b [] (pre ++ [';']) (t ++ [' '])).scanComment
            .ok (.COMMENT, c, l')) := rfl
      rw [hL, hS]
      obtain ⟨pre', rest', hs, hc, ht⟩ := scanWhile_out h (fun c => 0 ≤ c && c ≠ 10)
        (fun c => c ≠ '\n') (by
          intro c; rw [Bool.eq_iff_iff]
          simp only [Bool.and_eq_true, decide_eq_true_eq, ne_eq, char_eq_iff, Char.reduceToNat]
          omega) rfl rfl e1
      refine ⟨pre', rest', ?_, hc, ?_⟩
      · unfold scanComment
        rw [hs]; rfl
      · simpa only [List.drop_succ_cons, drop_takeWhile_length] using ht
    · -- '=' and '=>'
      have hS : scanOther (('='.toNat : Nat) : Int) (at_ b [] (pre ++ ['=']) (t ++ [' '])) =
        if (at_ b [] (pre ++ ['=']) (t ++ [' '])).chr = 62 then
          .ok (.ARROW_MAP, b!"=>", (at_ b [] (pre ++ ['=']) (t ++ [' '])).next)
        else .ok (.ASSIGN, b!"=", at_ b [] (pre ++ ['=']) (t ++ [' '])) := rfl
      have hL : lexeme ('=' :: t) = if t.head? = some '>' then some ⟨.ARROW_MAP, b!"=>", 2, false⟩
          else some ⟨.ASSIGN, b!"=", 1, false⟩ := by
        simp [lexeme, show idStart '=' = false from rfl, show digit '=' = false from rfl, single,
          enc, show String.utf8EncodeChar '=' = [61] from rfl]
      rw [hS, hL]
      by_cases hh : t.head? = some '>'
      · rw [if_pos hh, if_pos ((chr_pad '>' 62 rfl (by decide) _ _).mpr hh)]
        obtain ⟨t', rfl⟩ := head_cons hh
        exact reads_two h e _ _
      · rw [if_neg hh, if_neg (fun h' => hh ((chr_pad '>' 62 rfl (by decide) _ _).mp h'))]
        exact ⟨pre ++ ['='], t ++ [' '], rfl, e1, Or.inl rfl⟩
    · -- '/', '//', '/=' and '//='
      have hS : scanOther (('/'.toNat : Nat) : Int) (at_ b [] (pre ++ ['/']) (t ++ [' '])) =
        let l := at_ b [] (pre ++ ['/']) (t ++ [' '])
        if l.chr = 61 then .ok (.TYPE_CHOICE_ASSIGN, b!"/=", l.next)
        else if l.chr = 47 ∧ l.peek = 61 then .ok (.GROUP_CHOICE_ASSIGN, b!"//=", l.next.next)
        else if l.chr = 47 then .ok (.GROUP_CHOICE, b!"//", l.next)
        else .ok (.TYPE_CHOICE, b!"/", l) := rfl
      have hL : lexeme ('/' :: t) =
          if t.head? = some '=' then some ⟨.TYPE_CHOICE_ASSIGN, b!"/=", 2, false⟩
          else if t.take 2 = ['/', '='] then some ⟨.GROUP_CHOICE_ASSIGN, b!"//=", 3, false⟩
          else if t.head? = some '/' then some ⟨.GROUP_CHOICE, b!"//", 2, false⟩
          else some ⟨.TYPE_CHOICE, b!"/", 1, false⟩ := by
        simp [lexeme, show idStart '/' = false from rfl, show digit '/' = false from rfl, single,
          enc, show String.utf8EncodeChar '/' = [47] from rfl]
      rw [hS, hL]
      simp only []
      by_cases hh : t.head? = some '='
      · rw [if_pos hh, if_pos ((chr_pad '=' 61 rfl (by decide) _ _).mpr hh)]
        obtain ⟨t', rfl⟩ := head_cons hh
        exact reads_two h e _ _
      rw [if_neg hh, if_neg (fun h' => hh ((chr_pad '=' 61 rfl (by decide) _ _).mp h'))]
      by_cases hh2 : t.head? = some '/'
      · obtain ⟨t', rfl⟩ := head_cons hh2
        have e2 : cs = (pre ++ ['/']) ++ ('/' :: t' ++ [' ']) := by simp [e]
        by_cases hh3 : t'.head? = some '='
        · obtain ⟨t'', rfl⟩ := head_cons hh3
          rw [if_pos (show ('/' :: '=' :: t'').take 2 = ['/', '='] from rfl),
            if_pos ⟨rfl, (peek_pad h '=' 61 rfl (by decide) (by decide) e2).mpr rfl⟩]
          exact reads_three h e _ _
        · rw [if_neg (show ¬ ('/' :: t').take 2 = ['/', '='] by
              rw [take_two]; exact fun h' => hh3 h'.2),
            if_neg (fun h' => hh3 ((peek_pad h '=' 61 rfl (by decide) (by decide) e2).mp h'.2)),
            if_pos hh2, if_pos ((chr_pad '/' 47 rfl (by decide) _ _).mpr hh2)]
          exact reads_two h e _ _
      · have hc47 : ¬ (at_ b [] (pre ++ ['/']) (t ++ [' '])).chr = 47 :=
          fun h' => hh2 ((chr_pad '/' 47 rfl (by decide) _ _).mp h')
        rw [if_neg (fun h' => hh2 (take_two.mp h').1), if_neg hh2,
          if_neg (fun h' => hc47 h'.1), if_neg hc47]
        exact ⟨pre ++ ['/'], t ++ [' '], rfl, e1, Or.inl rfl⟩
    · -- '.', '..', '...' and control operators
      have hS : scanOther (('.'.toNat : Nat) : Int) (at_ b [] (pre ++ ['.']) (t ++ [' '])) =
        let l := at_ b [] (pre ++ ['.']) (t ++ [' '])
        if l.chr = 46 ∧ l.peek = 46 then .ok (.EXCLUSIVE_BOUND, b!"...", l.next.next)
        else if l.chr = 46 then .ok (.INCLUSIVE_BOUND, b!"..", l.next)
        else if uniIsLetter l.chr then do
          let (cop, l') ← l.scanControlOp
          .ok (lookup (b!"." ++ cop), b!"." ++ cop, l')
        else .ok (.PERIOD, b!".", l) := rfl
      have hL : lexeme ('.' :: t) =
          if t.take 2 = ['.', '.'] then some ⟨.EXCLUSIVE_BOUND, b!"...", 3, false⟩
          else if t.head? = some '.' then some ⟨.INCLUSIVE_BOUND, b!"..", 2, false⟩
          else if (∃ d ∈ t.head?, uniIsLetter (d.toNat : Int)) then
            some ⟨word ('.' :: t.takeWhile alpha), enc ('.' :: t.takeWhile alpha),
              ('.' :: t.takeWhile alpha).length, false⟩
          else some ⟨.PERIOD, b!".", 1, false⟩ := by
        simp [lexeme, show idStart '.' = false from rfl, show digit '.' = false from rfl, single,
          enc, show String.utf8EncodeChar '.' = [46] from rfl]
      rw [hS, hL]
      simp only []
      by_cases hh2 : t.head? = some '.'
      · obtain ⟨t', rfl⟩ := head_cons hh2
        have e2 : cs = (pre ++ ['.']) ++ ('.' :: t' ++ [' ']) := by simp [e]
        by_cases hh3 : t'.head? = some '.'
        · obtain ⟨t'', rfl⟩ := head_cons hh3
          rw [if_pos (show ('.' :: '.' :: t'').take 2 = ['.', '.'] from rfl),
            if_pos ⟨rfl, (peek_pad h '.' 46 rfl (by decide) (by decide) e2).mpr rfl⟩]
          exact reads_three h e _ _
        · rw [if_neg (show ¬ ('.' :: t').take 2 = ['.', '.'] by
              rw [take_two]; exact fun h' => hh3 h'.2),
            if_neg (fun h' => hh3 ((peek_pad h '.' 46 rfl (by decide) (by decide) e2).mp h'.2)),
            if_pos hh2, if_pos ((chr_pad '.' 46 rfl (by decide) _ _).mpr hh2)]
          exact reads_two h e _ _
      · have hc46 : ¬ (at_ b [] (pre ++ ['.']) (t ++ [' '])).chr = 46 :=
          fun h' => hh2 ((chr_pad '.' 46 rfl (by decide) _ _).mp h')
        rw [if_neg (fun h' => hh2 (take_two.mp h').1), if_neg hh2,
          if_neg (fun h' => hc46 h'.1), if_neg hc46]
        have hlet : uniIsLetter (at_ b [] (pre ++ ['.']) (t ++ [' '])).chr = true ↔
            ∃ d ∈ t.head?, uniIsLetter (d.toNat : Int) = true := by
          cases t with
          | nil =>
            show uniIsLetter ((' '.toNat : Nat) : Int) = true ↔ _
            simp only [List.head?_nil, Option.mem_def, reduceCtorEq, false_and, exists_false,
              iff_false]
            show ¬ uniIsLetter (32 : Int) = true
            rw [show uniIsLetter (32 : Int) = false from rfl]; simp
          | cons d t =>
            show uniIsLetter (d.toNat : Int) = true ↔ _
            simp
        by_cases hh4 : ∃ d ∈ t.head?, uniIsLetter (d.toNat : Int) = true
        · rw [if_pos hh4, if_pos (hlet.mpr hh4)]
          unfold scanControlOp
          rw [scanWhile_in h isLetter alpha isLetter_char rfl rfl e1]
          refine ⟨pre ++ ['.'] ++ t.takeWhile alpha, t.dropWhile alpha ++ [' '], ?_, ?_, Or.inl ?_⟩
          · simp only [Out.bind_ok]
            rw [show b!"." ++ enc (t.takeWhile alpha) = enc ('.' :: t.takeWhile alpha) from rfl,
              lookup_enc]; rfl
          · rw [← split_pad]; exact e1
          · simp only [List.length_cons, List.drop_succ_cons, drop_takeWhile_length]
        · rw [if_neg hh4, if_neg (fun h' => hh4 (hlet.mp h'))]
          exact ⟨pre ++ ['.'], t ++ [' '], rfl, e1, Or.inl rfl⟩
    · have hS : scanOther (('"'.toNat : Nat) : Int) (at_ b [] (pre ++ ['"']) (t ++ [' '])) =
        (do let (s, l') ← (at_ b [] (pre ++ ['"']) (t ++ [' '])).scanString
            .ok (.TEXT_LITERAL, s, l')) := rfl
      have hL : lexeme ('"' :: t) = string t := rfl
      rw [hS, hL]
      exact scanString_reads h e
  · have hsp : special c = false := by simpa using hsp
    rw [scanOther_single hsp, lexeme_plain h1 h2 hsp]
    exact ⟨pre ++ [c], t ++ [' '], rfl, e1, Or.inl rfl⟩

omit [Unicode] in
theorem enc_length_word {w : List Char} (h : ∀ c ∈ w, idBody c = true) : (enc w).length = w.length := by
  apply blen_ascii_all
  intro c hc
  have := h c hc
  simp only [idBody, idStart, alpha, digit, Bool.or_eq_true, Bool.and_eq_true, decide_eq_true_eq,
    char_le_iff, char_eq_iff, Char.reduceToNat] at this
  omega

/-- The token switch on a clean source. -/
theorem scanTok_reads (h : Dec b.src cs []) {c : Char} {t : List Char}
    (e : cs = pre ++ (c :: t ++ [' '])) :
    Reads (scanTok (at_ b [] pre (c :: t ++ [' ']))) b cs pre (c :: t) (lexeme (c :: t)) := by
  have hn : (at_ b [] pre (c :: t ++ [' '])).next = _ := next_clean h e
  have hchr : (at_ b [] pre (c :: t ++ [' '])).chr = (c.toNat : Int) := rfl
  unfold scanTok
  rw [hchr, isIdentStart_char, isDigit_char, hn]
  by_cases h1 : idStart c = true
  · rw [if_pos h1]
    have hL : lexeme (c :: t) = some ⟨if 2 < ((c :: t).takeWhile idBody).length then
        word ((c :: t).takeWhile idBody) else .IDENT, enc ((c :: t).takeWhile idBody),
        ((c :: t).takeWhile idBody).length, false⟩ := by
      simp only [lexeme, if_pos h1]
    rw [hL]
    unfold scanIdentifier
    rw [scanWhile_in h isIdentBody idBody isIdentBody_char rfl rfl e]
    refine ⟨pre ++ (c :: t).takeWhile idBody, (c :: t).dropWhile idBody ++ [' '], ?_, ?_, Or.inl ?_⟩
    · simp only [Out.bind_ok]
      rw [enc_length_word (fun c hc => List.all_eq_true.mp (List.all_takeWhile) c hc), lookup_enc]; rfl
    · rw [← split_pad]; exact e
    · simp only [drop_takeWhile_length]
  rw [if_neg h1]
  have h1 : idStart c = false := by simpa using h1
  by_cases h2 : digit c = true
  · rw [if_pos h2]
    have hL : lexeme (c :: t) = some (number (c :: t)) := by
      simp only [lexeme, h1, h2, if_true]; rfl
    rw [hL]
    exact scanNumber_reads h h2 e
  · rw [if_neg h2]
    exact scanOther_reads h h1 (by simpa using h2) e

/-- The token switch at the end of a clean source. -/
theorem scanTok_eof (h : Dec b.src cs []) :
    scanTok (at_ b [] cs []) = .ok (.EOF, [], at_ b [] cs []) := by
  unfold scanTok
  rw [next_eof h]
  rfl

end Lexer
end Cddlc
