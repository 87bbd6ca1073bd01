import Verif.Lemmas.LexErr

/-! Properties of the lexer: C01–C10, C13. -/

namespace Cddlc
open Spec

variable [Unicode]

/-- Execute `n` scans (for the examples). -/
def scanList : Nat → Lexer → Option (List Token × Lexer)
  | 0, l => some ([], l)
  | n + 1, l =>
    match l.scan with
    | .ok (tok, pos, lit, l') =>
      match scanList n l' with
      | some (ts, l'') => some (⟨tok, pos, lit⟩ :: ts, l'')
      | none => none
    | _ => none

theorem scanList_scans {n : Nat} {l l' : Lexer} {ts} (h : scanList n l = some (ts, l')) :
    Scans l ts l' := by
  induction n generalizing l ts with
  | zero => cases h; exact .nil _
  | succ n ih =>
    rw [scanList] at h
    cases hs : l.scan with
    | ok r =>
      obtain ⟨tok, pos, lit, l1⟩ := r
      rw [hs] at h
      simp only [] at h
      cases hr : scanList n l1 with
      | none => rw [hr] at h; cases h
      | some p =>
        obtain ⟨ts', l2⟩ := p
        rw [hr] at h
        cases h
        exact .cons hs (ih hr)
    | panic w => rw [hs] at h; cases h
    | hang => rw [hs] at h; cases h

/-- A Unicode table for the examples. -/
@[reducible] def asciiOnly : Unicode := ⟨fun _ => false, fun _ => false⟩

/-- The source of the examples: an identifier, a comment, a string and an operator over two
lines. -/
def demo : Bytes := b!"ab = \"x\" ;c\n 10..2"

omit [Unicode] in
theorem demo_clean : Clean demo := ⟨"ab = \"x\" ;c\n 10..2".toList, by decide, by decide⟩

omit [Unicode] in
/-- The hypotheses of the theorems below hold of the demo source: scanning it eight times. -/
theorem demo_scans : letI := asciiOnly; ∃ ts l, Scans (Lexer.new demo) ts l ∧
    ts = [⟨.IDENT, ⟨0, 1, 1, []⟩, b!"ab"⟩, ⟨.ASSIGN, ⟨3, 1, 4, []⟩, b!"="⟩,
      ⟨.TEXT_LITERAL, ⟨5, 1, 6, []⟩, b!"x"⟩, ⟨.COMMENT, ⟨9, 1, 10, []⟩, b!"c"⟩,
      ⟨.INT, ⟨13, 2, 2, []⟩, b!"10"⟩, ⟨.INCLUSIVE_BOUND, ⟨15, 2, 4, []⟩, b!".."⟩,
      ⟨.INT, ⟨17, 2, 6, []⟩, b!"2"⟩, ⟨.EOF, ⟨18, 2, 7, []⟩, []⟩] ∧ l.errors = [] :=
  letI := asciiOnly; ⟨_, _, scanList_scans (n := 8) rfl, rfl, rfl⟩

/-! ### C01 -/

/-- **C01** (first half): on a clean source every `Scan` returns (or panics); none loops for ever. -/
theorem C01_scan_returns {src : Bytes} (hc : Clean src) {ts l} (hs : Scans (Lexer.new src) ts l) :
    l.scan ≠ .hang := by
  obtain ⟨cs, hg, rfl⟩ := hc
  obtain ⟨done, r, h, _⟩ := Lexer.clean_reach hg hs
  exact Lexer.clean_not_hang h

omit [Unicode] in
theorem tiles_length {off ts s rest} (h : Tiles off ts s rest) (hne : ∀ t ∈ ts, t.tok ≠ .EOF) :
    ts.length + rest.length ≤ s.length := by
  induction h with
  | nil => simp
  | @cons off t ts s rest gap raw _ _ _ he _ _ ih =>
    have := ih (fun t ht => hne t (by simp [ht]))
    have hr : raw ≠ [] := fun h => hne t (by simp) (he.mpr h)
    have := List.length_pos_iff.mpr hr
    simp only [List.length_cons, List.length_append]
    omega

/-- **C01** (bound): at most `len(source)` calls return something else than EOF. -/
theorem C01_bound {src : Bytes} (hc : Clean src) {ts l} (hs : Scans (Lexer.new src) ts l)
    (hne : ∀ t ∈ ts, t.tok ≠ .EOF) : ts.length ≤ src.length := by
  obtain ⟨cs, hg, rfl⟩ := hc
  obtain ⟨done, r, h, ht⟩ := Lexer.clean_reach hg hs
  have := tiles_length ht hne
  omega

theorem scans_snoc {l l' l'' : Lexer} {ts tok pos lit} (h : Scans l ts l')
    (h' : l'.scan = .ok (tok, pos, lit, l'')) : Scans l (ts ++ [⟨tok, pos, lit⟩]) l'' := by
  induction h with
  | nil => exact .cons h' (.nil _)
  | cons h1 _ ih => exact .cons h1 (ih h')

/-- **C01**: if no scan panics, EOF is reached after at most `len(source)` other tokens. -/
theorem C01_reaches_eof {src : Bytes} (hc : Clean src)
    (hp : ∀ ts l, Scans (Lexer.new src) ts l → ∀ w, l.scan ≠ .panic w) :
    ∃ ts l pos, ts.length ≤ src.length ∧ (∀ t ∈ ts, t.tok ≠ .EOF) ∧
      Scans (Lexer.new src) (ts ++ [⟨.EOF, pos, []⟩]) l := by
  obtain ⟨cs, hg, rfl⟩ := hc
  -- progress by induction on what is left to read
  have key : ∀ (n : Nat) (ts : List Token) (l : Lexer) (done r : List Char),
      Scans (Lexer.new (enc cs)) ts l → Lexer.Clean cs l done r → r.length ≤ n →
      (∀ t ∈ ts, t.tok ≠ .EOF) →
      ∃ ts l pos, (∀ t ∈ ts, t.tok ≠ .EOF) ∧
        Scans (Lexer.new (enc cs)) (ts ++ [⟨.EOF, pos, []⟩]) l := by
    intro n
    induction n with
    | zero =>
      intro ts l done r hs hcl hn hne
      have hr : r = [] := List.eq_nil_of_length_eq_zero (by omega)
      subst hr
      have := Lexer.clean_scan hcl
      obtain ⟨l', h1, _, _⟩ := this
      exact ⟨ts, l', _, hne, scans_snoc hs h1⟩
    | succ n ih =>
      intro ts l done r hs hcl hn hne
      have := Lexer.clean_scan hcl
      cases hd : r.dropWhile ws with
      | nil =>
        rw [hd] at this
        obtain ⟨l', h1, _, _⟩ := this
        exact ⟨ts, l', _, hne, scans_snoc hs h1⟩
      | cons c t =>
        rw [hd] at this
        cases hx : lexeme (c :: t) with
        | none => rw [hx] at this; exact absurd this (hp ts l hs _)
        | some x =>
          rw [hx] at this
          obtain ⟨l', h1, h2, _⟩ := this
          have f := lexeme_facts (Lexer.dropWhile_head_nl r hd) hx
          refine ih _ l' _ _ (scans_snoc hs h1) h2 ?_ ?_
          · have h3 : (c :: t).length ≤ r.length := by
              rw [← hd]
              have := congrArg List.length (List.takeWhile_append_dropWhile (p := ws) (l := r))
              simp only [List.length_append] at this; omega
            have := f.pos
            have := f.le
            simp only [List.length_drop]; omega
          · intro t ht
            rcases List.mem_append.mp ht with ht | ht
            · exact hne t ht
            · rw [List.mem_singleton] at ht; rw [ht]; exact f.tok
  obtain ⟨ts, l, pos, h1, h2⟩ := key cs.length [] _ [] cs (.nil _) (Lexer.clean_new hg)
    (Nat.le_refl _) (by simp)
  refine ⟨ts, l, pos, ?_, h1, h2⟩
  have h3 : ∃ l', Scans (Lexer.new (enc cs)) ts l' := by
    generalize Lexer.new (enc cs) = l0 at h2
    clear h1
    induction ts generalizing l0 with
    | nil => exact ⟨_, .nil _⟩
    | cons t ts ih =>
      cases h2 with
      | cons ha hb => obtain ⟨l', h⟩ := ih _ hb; exact ⟨l', .cons ha h⟩
  obtain ⟨l', h3⟩ := h3
  exact C01_bound ⟨cs, hg, rfl⟩ h3 h1

-- the demo source: seven tokens, then EOF
example : letI := asciiOnly; ∃ ts l, Scans (Lexer.new demo) ts l ∧ Clean demo ∧ ts.length = 8 ∧
    l.scan ≠ .hang :=
  letI := asciiOnly
  have ⟨ts, l, h, e, _⟩ := demo_scans
  ⟨ts, l, h, demo_clean, by rw [e]; rfl, C01_scan_returns demo_clean h⟩

/-! ### C02 -/

/-- **C02**: on a source that is not valid UTF-8 or contains U+FFFD, `Scan` never returns EOF. -/
theorem C02_malformed_no_eof {src : Bytes} (hc : ¬ Clean src) {ts l}
    (hs : Scans (Lexer.new src) ts l) : ∀ t ∈ ts, t.tok ≠ .EOF := by
  obtain ⟨cs, bad, hd, _, hb⟩ := init_dec src
  have hbad := hb hc
  have hinv := Lexer.inv_new hd
  generalize Lexer.new src = l0 at hs hinv
  induction hs with
  | nil => simp
  | cons h1 _ ih =>
    obtain ⟨l1, i1, _, _, i2, h3, _⟩ := Lexer.inv_scan hinv h1
    intro t ht
    rcases List.mem_cons.mp ht with rfl | ht
    · intro he
      exact i1.chr_ne hbad (h3 he)
    · exact ih i2 t ht

-- a source ending in the byte 0xFF: one token is returned, then scanning hangs
example : letI := asciiOnly; ∃ ts l, Scans (Lexer.new [97, 32, 255]) ts l ∧ ts.length = 1 ∧
    ¬ Clean [97, 32, 255] ∧ l.scan = .hang := by
  letI := asciiOnly
  refine ⟨_, _, scanList_scans (n := 1) rfl, rfl, ?_, rfl⟩
  intro hc
  have : ∃ ts l, Scans (Lexer.new [97, 32, 255]) ts l ∧ l.scan = .hang :=
    ⟨_, _, scanList_scans (n := 1) rfl, rfl⟩
  obtain ⟨ts, l, h1, h2⟩ := this
  exact C01_scan_returns hc h1 h2

-- U+FFFD itself is read as malformed
example : ¬ Clean [0xEF, 0xBF, 0xBD] := by
  rintro ⟨cs, h1, h2⟩
  have : enc ['\uFFFD'] = enc cs := h2 ▸ (by decide)
  exact h1 (enc_inj this ▸ (by simp))

/-! ### C03 -/

/-- **C03**: after EOF every `Scan` returns the same EOF token again and records no error. -/
theorem C03_eof_absorbing {src : Bytes} {ts t l} (hs : Scans (Lexer.new src) (ts ++ [t]) l)
    (he : t.tok = .EOF) :
    t.lit = [] ∧ ∃ l', l.scan = .ok (.EOF, t.pos, [], l') ∧ l'.errors = l.errors ∧
      ∀ ts' l'', Scans l ts' l'' → (∀ t' ∈ ts', t' = t) ∧ l''.errors = l.errors := by
  by_cases hc : Clean src
  · obtain ⟨cs, hg, rfl⟩ := hc
    have key : ∀ (l0 : Lexer) (done r : List Char), Lexer.Clean cs l0 done r →
        ∀ ts, Scans l0 (ts ++ [t]) l → ∃ done', Lexer.Clean cs l done' [] ∧
          t.pos = Lexer.posAfter done' ∧ t.lit = [] := by
      intro l0 done r h0 ts
      induction ts generalizing l0 done r with
      | nil =>
        intro hs
        cases hs with
        | cons h1 h2 =>
          cases h2
          obtain ⟨x, hx, h3, h4, h5, h6, _⟩ := Lexer.clean_scan_ok h0 h1
          cases hd : r.dropWhile ws with
          | nil =>
            rw [hd] at hx h6
            cases hx
            exact ⟨done ++ r.takeWhile ws, by simpa using h6, h5, h4.symm⟩
          | cons c u =>
            rw [hd] at hx
            exact absurd (h3.trans he) (lexeme_facts (Lexer.dropWhile_head_nl r hd) hx).tok
      | cons a ts ih =>
        intro hs
        cases hs with
        | cons h1 h2 =>
          obtain ⟨x, hx, h3, h4, h5, h6, _⟩ := Lexer.clean_scan_ok h0 h1
          exact ih _ _ _ h6 h2
    obtain ⟨done, hcl, hpos, hlit⟩ := key _ _ _ (Lexer.clean_new hg) ts hs
    have step : ∀ l : Lexer, Lexer.Clean cs l done [] → ∃ l', l.scan = .ok (.EOF, t.pos, [], l') ∧
        Lexer.Clean cs l' done [] ∧ l'.errors = l.errors := by
      intro l hl
      obtain ⟨l', h1, h2, h3⟩ := Lexer.clean_scan hl
      refine ⟨l', ?_, ?_, ?_⟩
      · rw [h1, hpos]; simp
      · simpa using h2
      · simpa using h3
    obtain ⟨l', h1, h2, h3⟩ := step l hcl
    refine ⟨hlit, l', h1, h3, ?_⟩
    intro ts' l'' hs'
    have ht : t = ⟨.EOF, t.pos, []⟩ := by
      cases t; simp only [] at he hlit; subst he; subst hlit; rfl
    clear hs h1 h2 h3 key
    induction hs' with
    | nil => exact ⟨by simp, rfl⟩
    | cons ha _ ih =>
      obtain ⟨l3, h4, h5, h6⟩ := step _ hcl
      rw [h4] at ha
      cases ha
      have := ih h5
      refine ⟨?_, this.2.trans h6⟩
      intro t' ht'
      rcases List.mem_cons.mp ht' with rfl | ht'
      · exact ht.symm
      · exact this.1 t' ht'
  · exact absurd he (C02_malformed_no_eof hc hs t (by simp))

example : letI := asciiOnly; ∃ ts t l, Scans (Lexer.new demo) (ts ++ [t]) l ∧ t.tok = .EOF ∧
    ts.length = 7 :=
  letI := asciiOnly
  have ⟨ts, l, h, e, _⟩ := demo_scans
  ⟨ts.take 7, ⟨.EOF, ⟨18, 2, 7, []⟩, []⟩, l, by rw [e] at h ⊢; exact h, rfl, by rw [e]; rfl⟩

/-! ### C04 -/

/-- **C04** (line and column): on every source, each token's position is the line and column
of its offset, counted in bytes. -/
theorem C04_positions {src : Bytes} {ts l} (hs : Scans (Lexer.new src) ts l) :
    ∀ t ∈ ts, ∃ o : Nat, o ≤ src.length ∧
      t.pos = { offset := o, line := lineAt src o, column := colAt src o } := by
  obtain ⟨cs, bad, hd, _, _⟩ := init_dec src
  have hinv := Lexer.inv_new hd
  generalize Lexer.new src = l0 at hs hinv
  induction hs with
  | nil => simp
  | cons h1 _ ih =>
    obtain ⟨l1, i1, _, _, i2, h3, h4⟩ := Lexer.inv_scan hinv h1
    intro t ht
    rcases List.mem_cons.mp ht with rfl | ht
    · have hp := i1.pos
      refine ⟨l1.offset, hp.1, ?_⟩
      rw [h4, hp.2.1, hp.2.2]
    · exact ih i2 t ht

-- the fifth token of the demo source is on line 2, column 2
example : letI := asciiOnly; ∃ ts l, Scans (Lexer.new demo) ts l ∧
    ts[4]? = some ⟨.INT, ⟨13, lineAt demo 13, colAt demo 13, []⟩, b!"10"⟩ :=
  letI := asciiOnly
  have ⟨ts, l, h, e, _⟩ := demo_scans
  ⟨ts, l, h, by rw [e]; rfl⟩

omit [Unicode] in
/-- On a source that is not clean the literal need not be the text at the offset: the byte 0xFF
at the start is returned as ILLEGAL with the literal `"\x00"`. -/
theorem C04_offset_refuted_malformed : letI := asciiOnly; ∃ l,
    Scans (Lexer.new [255]) [⟨.ILLEGAL, ⟨0, 1, 1, []⟩, [0]⟩] l :=
  letI := asciiOnly; ⟨_, scanList_scans (n := 1) rfl⟩

/-! ### C05, C06 -/

/-- **C05**: the tokens returned and the white space between them make up the source: nothing is
skipped, tokens do not overlap, and once EOF is returned nothing is left. (`Tiles`) -/
theorem C05_lossless {src : Bytes} (hc : Clean src) {ts l} (hs : Scans (Lexer.new src) ts l) :
    ∃ rest, Tiles 0 ts src rest ∧ ((∃ t ∈ ts, t.tok = .EOF) → rest = []) := by
  obtain ⟨cs, hg, rfl⟩ := hc
  obtain ⟨done, r, h, ht⟩ := Lexer.clean_reach hg hs
  refine ⟨_, ht, ?_⟩
  rintro ⟨t, hm, he⟩
  have nilrest : ∀ {off ts s rest}, Tiles off ts s rest → s = [] → rest = [] := by
    intro off ts s rest h
    induction h with
    | nil => exact id
    | @cons off t ts s rest gap raw _ _ _ _ _ _ ih => intro h; apply ih; simp at h; exact h.2.2
  generalize enc cs = s at ht
  generalize enc r = rest at ht
  generalize 0 = off at ht
  clear h hs hg
  induction ht with
  | nil => simp at hm
  | cons _ _ _ _ h1 h2 ih =>
    rcases List.mem_cons.mp hm with rfl | hm
    · exact nilrest h2 (h1 he)
    · exact ih hm

omit [Unicode] in
theorem tiles_raw {off ts s rest} (h : Tiles off ts s rest) : ∀ t ∈ ts, ∃ (o : Nat) (raw suf : Bytes),
    t.pos.offset = (off + o : Nat) ∧ s.drop o = raw ++ suf ∧ o ≤ s.length ∧ RawOf t.tok t.lit raw ∧
    (t.tok = .EOF ↔ raw = []) := by
  induction h with
  | nil => simp
  | @cons off t ts s rest gap raw _ ho hr he _ _ ih =>
    intro t' ht'
    rcases List.mem_cons.mp ht' with rfl | ht'
    · refine ⟨gap.length, raw, s, by rw [ho]; omega, ?_, by simp, hr, he⟩
      rw [List.append_assoc, List.drop_left]
    · obtain ⟨o, raw', suf, h1, h2, h3, h4, h5⟩ := ih t' ht'
      refine ⟨gap.length + raw.length + o, raw', suf, by rw [h1]; omega, ?_, ?_, h4, h5⟩
      · rw [← h2, ← List.drop_drop, show gap.length + raw.length = (gap ++ raw).length by simp,
          List.drop_left]
      · simp; omega

/-- **C06**: the literal of a token is the text at its offset: the same bytes, except for
comments (without the semicolon) and strings (without the quotes). (`RawOf`) -/
theorem C06_literal {src : Bytes} (hc : Clean src) {ts l} (hs : Scans (Lexer.new src) ts l) :
    ∀ t ∈ ts, ∃ (o : Nat) (raw suf : Bytes), t.pos.offset = o ∧ src.drop o = raw ++ suf ∧
      o ≤ src.length ∧ RawOf t.tok t.lit raw := by
  obtain ⟨rest, ht, _⟩ := C05_lossless hc hs
  intro t hm
  obtain ⟨o, raw, suf, h1, h2, h3, h4, _⟩ := tiles_raw ht t hm
  exact ⟨o, raw, suf, by simpa using h1, h2, h3, h4⟩

example : letI := asciiOnly; ∃ ts l, Scans (Lexer.new demo) ts l ∧ Clean demo ∧
    (∃ t ∈ ts, t.tok = .EOF) ∧ Tiles 0 ts demo [] :=
  letI := asciiOnly
  have ⟨ts, l, h, e, _⟩ := demo_scans
  have ⟨rest, h1, h2⟩ := C05_lossless demo_clean h
  have he : ∃ t ∈ ts, t.tok = .EOF := by rw [e]; decide
  ⟨ts, l, h, demo_clean, he, h2 he ▸ h1⟩

-- the string token of the demo source covers three bytes and has the one between the quotes as
-- its literal
example : RawOf .TEXT_LITERAL b!"x" ((demo.drop 5).take 3) := Or.inl ⟨rfl, by decide, by decide⟩

omit [Unicode] in
/-- The literal of an unterminated string is *not* all the text after the quote: its last byte is
missing. -/
theorem C06_unterminated_loses_byte : letI := asciiOnly; ∃ l,
    Scans (Lexer.new b!"\"abc") [⟨.TEXT_LITERAL, ⟨0, 1, 1, []⟩, b!"ab"⟩] l :=
  letI := asciiOnly; ⟨_, scanList_scans (n := 1) rfl⟩

/-! ### C07, C08 -/

/-- Each token of a clean source is the lexeme of the text at its offset. -/
theorem clean_token {cs done r : List Char} {l l' : Lexer} {ts} (h : Lexer.Clean cs l done r)
    (hs : Scans l ts l') : ∀ t ∈ ts, ∃ pre suf x, cs = pre ++ suf ∧ lexeme suf = some x ∧
      t = ⟨x.tok, Lexer.posAfter pre, x.lit⟩ ∧ ∀ c ∈ suf.head?, ws c = false := by
  induction hs generalizing done r with
  | nil => simp
  | cons h1 _ ih =>
    obtain ⟨x, hx, rfl, rfl, rfl, hc, _⟩ := Lexer.clean_scan_ok h h1
    intro t ht
    rcases List.mem_cons.mp ht with rfl | ht
    · refine ⟨done ++ r.takeWhile ws, r.dropWhile ws, x, ?_, hx, rfl, ?_⟩
      · rw [h.split, List.append_assoc, List.takeWhile_append_dropWhile]
      · intro c hm
        obtain ⟨t, he⟩ := Lexer.head_cons hm
        exact Lexer.dropWhile_head r he
    · exact ih hc t ht

omit [Unicode] in
/-- The text at a position. -/
theorem drop_posAfter (pre suf : List Char) :
    (enc (pre ++ suf)).drop (Lexer.posAfter pre).offset.toNat = enc suf := by
  rw [enc_append]
  show List.drop ((blen pre : Nat) : Int).toNat _ = _
  rw [Int.toNat_natCast]
  exact List.drop_left ..

/-- Bytes of ASCII letters. -/
def Spec.alphaByte (b : UInt8) : Bool := (97 ≤ b && b ≤ 122) || (65 ≤ b && b ≤ 90)

omit [Unicode] in
theorem alpha_class : ClassEq alphaByte alpha := by
  apply classEq_of
  all_goals
    intros
    simp only [alphaByte, alpha, Bool.or_eq_true, Bool.and_eq_true, decide_eq_true_eq,
      char_le_iff, UInt8.le_iff_toNat_le, Char.reduceToNat, UInt8.reduceToNat]
    omega

omit [Unicode] in
theorem class_head {p q} (h : ClassEq p q) (cs : List Char) :
    (∃ b ∈ (enc cs).head?, p b = true) ↔ ∃ c ∈ cs.head?, q c = true := by
  cases cs with
  | nil => simp [enc_nil]
  | cons c cs =>
    rw [enc_cons]
    have hp := encChar_length_pos c
    have ha := h.all c
    cases hx : String.utf8EncodeChar c with
    | nil => rw [hx] at hp; simp at hp
    | cons v vs =>
      rw [hx] at ha
      simp [ha v (by simp)]

theorem lexeme_idStart {c : Char} {t : List Char} {x : Lexeme} (hc : idStart c = true)
    (h : lexeme (c :: t) = some x) :
    x.lit = enc ((c :: t).takeWhile idBody) ∧ x.tok = word ((c :: t).takeWhile idBody) := by
  change (if idStart c = true then _ else _) = _ at h
  rw [if_pos hc] at h
  cases h
  refine ⟨rfl, ?_⟩
  simp only []
  split
  · rfl
  · rename_i hl
    rcases word_cases ((c :: t).takeWhile idBody) with h | ⟨e, he, _, h2⟩
    · exact h.symm
    · have : ∀ e ∈ reserved, 2 < e.1.toList.length := by decide
      exact absurd (h2 ▸ this e he) hl

omit [Unicode] in
theorem word_ne_comment (w : List Char) : word w ≠ .COMMENT := by
  have : ∀ e ∈ reserved, e.2 ≠ .COMMENT := by decide
  rcases word_cases w with h | ⟨e, he, h, _⟩
  · rw [h]; decide
  · rw [h]; exact this e he

theorem lexeme_comment (t : List Char) :
    lexeme (';' :: t) = some ⟨.COMMENT, enc (t.takeWhile (· ≠ '\n')),
      (t.takeWhile (· ≠ '\n')).length + 1, false⟩ := rfl

/-- The tokens whose kind depends on a table only. -/
theorem lexeme_other {c : Char} {t : List Char} {x : Lexeme} (h1 : idStart c ≠ true) (h3 : c ≠ ';')
    (h : lexeme (c :: t) = some x) : x.tok ≠ .COMMENT ∧
      (x.tok = .IDENT → c = '.' ∧ x.lit = 46 :: enc (t.takeWhile alpha)) := by
  change (if idStart c = true then _ else _) = _ at h
  rw [if_neg h1] at h
  by_cases hx : digit c = true
  · rw [if_pos hx] at h
    cases h
    unfold number
    split
    · simp
    · simp
    · simp
    · simp only []
      split <;> simp
  rw [if_neg hx] at h; clear hx
  rw [if_neg h3] at h
  by_cases hx : c = '"'
  · rw [if_pos hx] at h
    have := (rawOf_string h).1
    rw [this]; simp
  rw [if_neg hx] at h; clear hx
  by_cases hx : c = '=' ∧ t.head? = some '>'
  · rw [if_pos hx] at h; cases h; simp
  rw [if_neg hx] at h; clear hx
  by_cases hx : c = '/' ∧ t.head? = some '='
  · rw [if_pos hx] at h; cases h; simp
  rw [if_neg hx] at h; clear hx
  by_cases hx : c = '/' ∧ t.take 2 = ['/', '=']
  · rw [if_pos hx] at h; cases h; simp
  rw [if_neg hx] at h; clear hx
  by_cases hx : c = '/' ∧ t.head? = some '/'
  · rw [if_pos hx] at h; cases h; simp
  rw [if_neg hx] at h; clear hx
  by_cases hx : c = '.' ∧ t.take 2 = ['.', '.']
  · rw [if_pos hx] at h; cases h; simp
  rw [if_neg hx] at h; clear hx
  by_cases hx : c = '.' ∧ t.head? = some '.'
  · rw [if_pos hx] at h; cases h; simp
  rw [if_neg hx] at h; clear hx
  by_cases hx : c = '.' ∧ (∃ d ∈ t.head?, uniIsLetter (d.toNat : Int) = true)
  · rw [if_pos hx] at h
    cases h
    refine ⟨?_, fun _ => ⟨hx.1, ?_⟩⟩
    · exact word_ne_comment _
    · rw [hx.1]; rfl
  · rw [if_neg hx] at h
    cases h
    constructor
    · exact (fun ⟨_, h1, h2, _⟩ => h1 ▸ h2) (single_plain c)
    · simp only []
      unfold single; split <;> simp

/-- **C07**: maximal munch. A token at an identifier character covers exactly the longest run of
identifier characters; a comment covers exactly the rest of its line; a token at a semicolon is a
comment; and an IDENT that does not start with an identifier character is a dot followed by the
longest run of ASCII letters. -/
theorem C07_maximal {src : Bytes} (hc : Clean src) {ts l} (hs : Scans (Lexer.new src) ts l) :
    ∀ t ∈ ts,
      let s := src.drop t.pos.offset.toNat
      ((∃ b ∈ s.head?, idStartByte b = true) → t.lit = s.takeWhile idByte) ∧
      (t.tok = .COMMENT ↔ s.head? = some 59) ∧
      (t.tok = .COMMENT → t.lit = s.tail.takeWhile (· ≠ 10)) ∧
      (t.tok = .IDENT → (∃ b ∈ s.head?, idStartByte b = true) ∨
        (s.head? = some 46 ∧ t.lit = 46 :: s.tail.takeWhile alphaByte)) := by
  obtain ⟨cs, hg, rfl⟩ := hc
  intro t ht
  obtain ⟨pre, suf, x, rfl, hx, rfl, hws⟩ := clean_token (Lexer.clean_new hg) hs t ht
  simp only [drop_posAfter]
  cases suf with
  | nil =>
    cases hx
    simp [enc_nil]
  | cons c u =>
    rw [class_head idStart_class]
    simp only [List.head?_cons, Option.mem_def, Option.some.injEq, exists_eq_left']
    by_cases h1 : idStart c = true
    · have := lexeme_idStart h1 hx
      have hne : (enc (c :: u)).head? ≠ some 59 := by
        rw [show (59 : UInt8) = UInt8.ofNat ';'.toNat from rfl, ne_eq, enc_head_ascii _ (by decide)]
        simp only [List.head?_cons, Option.some.injEq]
        rintro rfl; exact absurd h1 (by decide)
      have hnc : x.tok ≠ .COMMENT := by
        rw [this.2]; exact word_ne_comment _
      refine ⟨fun _ => ?_, ⟨fun h => absurd h hnc, fun h => absurd h hne⟩, fun h => absurd h hnc,
        fun _ => Or.inl h1⟩
      rw [idBody_class.takeWhile]; exact this.1
    · refine ⟨fun h => absurd h h1, ?_⟩
      by_cases h2 : c = ';'
      · subst h2
        rw [lexeme_comment] at hx
        cases hx
        have he : enc (';' :: u) = 59 :: enc u := by rw [enc_cons]; rfl
        rw [he]
        refine ⟨by simp, fun _ => ?_, by simp⟩
        exact (nl_class.takeWhile u).symm
      · have := lexeme_other h1 h2 hx
        have hne : (enc (c :: u)).head? ≠ some 59 := by
          rw [show (59 : UInt8) = UInt8.ofNat ';'.toNat from rfl, ne_eq, enc_head_ascii _ (by decide)]
          simpa using h2
        refine ⟨⟨fun h => absurd h this.1, fun h => absurd h hne⟩, fun h => absurd h this.1,
          fun h => Or.inr ?_⟩
        obtain ⟨rfl, h3⟩ := this.2 h
        have he : enc ('.' :: u) = 46 :: enc u := by rw [enc_cons]; rfl
        rw [he]
        refine ⟨rfl, ?_⟩
        rw [h3, List.tail_cons, alpha_class.takeWhile]

/-- The keyword tokens: the reserved words and control operators. -/
def keywordToks : List Tok :=
  [.INT, .UINT, .NINT, .FLOAT, .FLOAT16, .FLOAT32, .FLOAT64, .numeric_end, .TSTR, .TEXT,
   .TEXT_LITERAL, .BYTES, .BSTR, .BOOL, .TRUE, .FALSE, .NIL, .NULL, .ANY, .SIZE, .BITS, .REGEXP,
   .CBOR, .CBORSEQ, .WITHIN, .AND, .LT, .LE, .GT, .GE, .EQ, .NE, .DEFAULT, .PLUS, .CAT, .DET,
   .ABNF, .ABNFB, .FEATURE]

omit [Unicode] in
theorem assocFind_none {α : Type} (k : Bytes) (l : List (Bytes × α)) :
    assocFind k l = none ↔ ∀ e ∈ l, e.1 ≠ k := by
  induction l with
  | nil => simp [assocFind]
  | cons e l ih =>
    obtain ⟨k', v⟩ := e
    rw [assocFind]
    by_cases h : k' = k
    · simp [h]
    · simp [h, ih]

omit [Unicode] in
theorem assocFind_mem {α : Type} {k : Bytes} {l : List (Bytes × α)} {v} (h : assocFind k l = some v) :
    (k, v) ∈ l := by
  induction l with
  | nil => cases h
  | cons e l ih =>
    obtain ⟨k', v'⟩ := e
    rw [assocFind] at h
    by_cases hk : k' = k
    · rw [if_pos hk] at h; cases h; simp [hk]
    · rw [if_neg hk] at h; simp [ih h]

/-- What `Lookup` does to a word: a keyword token exactly if it is spelled like one. -/
def Spec.KeywordOf (s : Bytes) (t : Tok) : Prop :=
  (t ∈ keywordToks ∧ t.string = s) ∨ (t = .IDENT ∧ ∀ k ∈ keywordToks, k.string ≠ s)

omit [Unicode] in
/-- **C08** (table): no two keywords have one spelling. -/
theorem C08_spellings_distinct : ∀ a ∈ keywordToks, ∀ b ∈ keywordToks, a.string = b.string → a = b := by
  decide +kernel

omit [Unicode] in
/-- **C08** (lookup): `Lookup s` is `t` exactly if `t` is the keyword spelled `s`, or `t` is IDENT
and no keyword is spelled `s`. -/
theorem C08_lookup (s : Bytes) (t : Tok) : lookup s = t ↔ KeywordOf s t := by
  have hmem : ∀ e ∈ keywords, e.2 ∈ keywordToks ∧ e.2.string = e.1 := by decide +kernel
  have hall : ∀ k ∈ keywordToks, (k.string, k) ∈ keywords := by decide +kernel
  have hid : Tok.IDENT ∉ keywordToks := by decide
  have hlk : KeywordOf s (lookup s) := by
    unfold lookup
    cases h : assocFind s keywords with
    | some v => exact Or.inl (hmem _ (assocFind_mem h))
    | none =>
      refine Or.inr ⟨rfl, fun k hk he => ?_⟩
      exact (assocFind_none _ _).mp h _ (hall k hk) he
  constructor
  · rintro rfl; exact hlk
  · intro h
    rcases hlk with ⟨h1, h2⟩ | ⟨h1, h2⟩ <;> rcases h with ⟨h3, h4⟩ | ⟨h3, h4⟩
    · exact C08_spellings_distinct _ h1 _ h3 (h2.trans h4.symm)
    · exact absurd h2 (h4 _ h1)
    · exact absurd h4 (h2 _ h3)
    · rw [h1, h3]

/-- **C08** (words): a word token is a keyword exactly if it is spelled like one. -/
theorem C08_words {src : Bytes} (hc : Clean src) {ts l} (hs : Scans (Lexer.new src) ts l) :
    ∀ t ∈ ts, (∃ b ∈ (src.drop t.pos.offset.toNat).head?, idStartByte b = true) →
      KeywordOf t.lit t.tok := by
  obtain ⟨cs, hg, rfl⟩ := hc
  intro t ht
  obtain ⟨pre, suf, x, rfl, hx, rfl, hws⟩ := clean_token (Lexer.clean_new hg) hs t ht
  simp only [drop_posAfter]
  cases suf with
  | nil => simp [enc_nil]
  | cons c u =>
    rw [class_head idStart_class]
    simp only [List.head?_cons, Option.mem_def, Option.some.injEq, exists_eq_left']
    intro h1
    have := lexeme_idStart h1 hx
    rw [this.1, ← C08_lookup, lookup_enc, this.2]

-- a keyword, a word that only starts like one, a control operator, a dotted word and a comment
example : letI := asciiOnly; ∃ ts l, Scans (Lexer.new b!"int ints .size .foo ;x y\nz") ts l ∧
    ts.map (fun t => (t.tok, t.lit)) = [(.INT, b!"int"), (.IDENT, b!"ints"), (.SIZE, b!".size"),
      (.IDENT, b!".foo"), (.COMMENT, b!"x y"), (.IDENT, b!"z")] :=
  letI := asciiOnly; ⟨_, _, scanList_scans (n := 6) rfl, rfl⟩

/-! ### C09, C10 -/

/-- **C09**: `Scan` panics exactly when what is left starts (after white space) with a quote
directly followed by a newline or the end of the input. -/
theorem C09_panics_iff {src : Bytes} (hc : Clean src) {ts l} (hs : Scans (Lexer.new src) ts l) :
    ∃ rest, Tiles 0 ts src rest ∧ ((∃ w, l.scan = .panic w) ↔
      ∃ s, rest.dropWhile wsByte = 34 :: s ∧ (s = [] ∨ s.head? = some 10)) := by
  obtain ⟨cs, hg, rfl⟩ := hc
  obtain ⟨done, r, h, ht⟩ := Lexer.clean_reach hg hs
  refine ⟨_, ht, ?_⟩
  rw [ws_class.dropWhile]
  have := Lexer.clean_scan h
  have hp : (∃ w, l.scan = .panic w) ↔ lexeme (r.dropWhile ws) = none := by
    cases hx : lexeme (r.dropWhile ws) with
    | none => rw [hx] at this; exact ⟨fun _ => rfl, fun _ => ⟨_, this⟩⟩
    | some x =>
      rw [hx] at this
      obtain ⟨l', h1, _⟩ := this
      rw [h1]; simp
  rw [hp]
  constructor
  · intro hn
    cases hd : r.dropWhile ws with
    | nil => rw [hd] at hn; cases hn
    | cons c t =>
      rw [hd] at hn
      by_cases hq : c = '"'
      · subst hq
        rw [lexeme_string] at hn
        refine ⟨enc t, (enc_cons_ascii '"' (by decide)).mpr ⟨t, rfl, rfl⟩, ?_⟩
        rcases string_none.mp hn with rfl | h
        · exact Or.inl rfl
        · exact Or.inr ((enc_head_ascii '\n' (by decide)).mpr h)
      · obtain ⟨x, hx, _⟩ := lexeme_not_string (t := t) hq
        rw [hx] at hn; cases hn
  · rintro ⟨s, h1, h2⟩
    obtain ⟨t, h3, rfl⟩ := (enc_cons_ascii '"' (by decide)).mp h1
    rw [h3, lexeme_string, string_none]
    rcases h2 with h2 | h2
    · exact Or.inl (enc_eq_nil.mp h2)
    · exact Or.inr ((enc_head_ascii '\n' (by decide)).mp h2)

/-- **C10** (counter): on every source `ErrCount` is the number of errors. -/
theorem C10_count {src : Bytes} {ts l} (hs : Scans (Lexer.new src) ts l) :
    l.errCount = l.errors.length := by
  obtain ⟨cs, bad, hd, _, _⟩ := init_dec src
  exact (Lexer.inv_scans (Lexer.inv_new hd) hs).count

/-- The error a scan of `rest` must record, in a source of length `n`: one at the offset of the
newline or end of input that cuts off a string. -/
def Spec.stringError (n : Nat) (rest : Bytes) : List LexError :=
  match rest.dropWhile wsByte with
  | 34 :: s =>
    if (s.dropWhile strByte).head? = some 34 then []
    else [⟨{ offset := (n : Int) - (s.dropWhile strByte).length },
      b!"unexpected newline character before string termination"⟩]
  | _ => []

/-- **C10**: a returning `Scan` adds exactly the error of an unterminated string, and nothing
otherwise. -/
theorem C10_errors {src : Bytes} (hc : Clean src) {ts l} (hs : Scans (Lexer.new src) ts l) :
    ∃ rest, Tiles 0 ts src rest ∧ ∀ tok pos lit l', l.scan = .ok (tok, pos, lit, l') →
      l'.errors = l.errors ++ stringError src.length rest := by
  obtain ⟨cs, hg, rfl⟩ := hc
  obtain ⟨done, r, h, ht⟩ := Lexer.clean_reach hg hs
  refine ⟨_, ht, ?_⟩
  intro tok pos lit l' h1
  obtain ⟨x, hx, _, _, _, hcl, he⟩ := Lexer.clean_scan_ok h h1
  rw [he]
  congr 1
  unfold stringError
  rw [ws_class.dropWhile]
  cases hd : r.dropWhile ws with
  | nil => rw [hd] at hx; cases hx; rfl
  | cons c t =>
    rw [hd] at hx
    by_cases hq : c = '"'
    · subst hq
      have hs' := hx
      rw [lexeme_string] at hs'
      have he1 : enc ('"' :: t) = 34 :: enc t := by rw [enc_cons]; rfl
      rw [he1]
      simp only [str_class.dropWhile]
      have hq34 : (enc (t.dropWhile (fun c => c ≠ '"' && c ≠ '\n'))).head? = some 34 ↔
          (t.dropWhile (fun c => c ≠ '"' && c ≠ '\n')).head? = some '"' :=
        enc_head_ascii '"' (by decide)
      have herr := string_err hs'
      by_cases hb : x.err = true
      · rw [if_pos hb, if_neg (fun hh => herr.mp hb (hq34.mp hh))]
        have hsp := hcl.split
        have hdr := string_err_drop hs' hb
        rw [hd, hdr] at hsp
        rw [hsp, enc_append, List.length_append, Int.natCast_add, Int.add_sub_cancel]
        rfl
      · have hh : (enc (t.dropWhile (fun c => c ≠ '"' && c ≠ '\n'))).head? = some 34 :=
          hq34.mpr (Decidable.not_not.mp (fun hh => hb (herr.mpr hh)))
        rw [if_pos hh, if_neg hb]
    · obtain ⟨y, hy, hye⟩ := lexeme_not_string (t := t) hq
      rw [hy] at hx; cases hx
      rw [hye]
      simp only [Bool.false_eq_true, if_false]
      split
      · rename_i s hcs
        obtain ⟨t', h3, _⟩ := (enc_cons_ascii '"' (by decide)).mp hcs
        exact absurd (by injection h3) hq
      · rfl

-- a quote at the end of a line panics, one followed by text does not
example : letI := asciiOnly; ∃ w, (Lexer.new b!"\"\nx").scan = .panic w :=
  letI := asciiOnly; ⟨_, rfl⟩
example : letI := asciiOnly; ∃ r, (Lexer.new b!"\"ab\nx").scan = .ok r ∧
    r.2.2.2.errors = stringError 5 b!"\"ab\nx" ∧ (stringError 5 b!"\"ab\nx").length = 1 :=
  letI := asciiOnly; ⟨_, rfl, rfl, rfl⟩
example : stringError 5 b!"\"ab\" " = [] := rfl

/-! ### C13 -/

/-- **C13**: offsets of tokens strictly increase; those of non-EOF tokens lie in the source. -/
theorem C13_offsets {src : Bytes} (hc : Clean src) {ts l} (hs : Scans (Lexer.new src) ts l) :
    (ts.filter (·.tok ≠ .EOF)).Pairwise (fun a b => a.pos.offset < b.pos.offset) ∧
    ∀ t ∈ ts, 0 ≤ t.pos.offset ∧ t.pos.offset ≤ src.length ∧
      (t.tok ≠ .EOF → t.pos.offset < src.length) := by
  obtain ⟨rest, ht, _⟩ := C05_lossless hc hs
  clear hs hc
  have key : ∀ {off ts s rest}, Tiles off ts s rest →
      (ts.filter (·.tok ≠ .EOF)).Pairwise (fun a b => a.pos.offset < b.pos.offset) ∧
      ∀ t ∈ ts, (off : Int) ≤ t.pos.offset ∧ t.pos.offset ≤ off + s.length ∧
        (t.tok ≠ .EOF → t.pos.offset < off + s.length) := by
    intro off ts s rest h
    induction h with
    | nil => simp
    | @cons off t ts s rest gap raw _ ho _ he _ _ ih =>
      obtain ⟨ih1, ih2⟩ := ih
      constructor
      · by_cases hE : t.tok = .EOF
        · simpa [hE] using ih1
        · have hr := List.length_pos_iff.mpr (fun h => hE (he.mpr h))
          rw [List.filter_cons_of_pos (by simpa using hE)]
          refine List.pairwise_cons.mpr ⟨?_, ih1⟩
          intro b hb
          have := (ih2 b (List.mem_filter.mp hb).1).1
          rw [ho]; omega
      · intro t' ht'
        rcases List.mem_cons.mp ht' with rfl | ht'
        · rw [ho]
          refine ⟨by omega, by simp only [List.length_append]; omega, fun hE => ?_⟩
          have hr := List.length_pos_iff.mpr (fun h => hE (he.mpr h))
          simp only [List.length_append]; omega
        · have := ih2 t' ht'
          simp only [List.length_append]
          refine ⟨by omega, by omega, fun hE => ?_⟩
          have := this.2.2 hE
          omega
  have := key ht
  simpa using this

example : letI := asciiOnly; ∃ ts l, Scans (Lexer.new demo) ts l ∧
    ts.map (·.pos.offset) = [0, 3, 5, 9, 13, 15, 17, 18] :=
  letI := asciiOnly
  have ⟨ts, l, h, e, _⟩ := demo_scans
  ⟨ts, l, h, by rw [e]; rfl⟩

end Cddlc
