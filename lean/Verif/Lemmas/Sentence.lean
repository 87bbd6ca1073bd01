import Verif.Lemmas.Height
import Verif.Spec.Sentence

/-! Accepted sources are sentences. -/

namespace Cddlc
open Spec
variable [Unicode]

/-- The parser comes from `p` to `q` by reading the tokens `us`. -/
def Took (p : PState) (us : List Token) (q : PState) : Prop :=
  ∀ l0 ts, Synced l0 ts p → Synced l0 (ts ++ us) q

namespace Took
variable {p q r : PState} {us vs : List Token}

theorem refl (p : PState) : Took p [] p := fun _ _ h => by simpa using h

theorem one (h : p.next = .ok q) : Took p [p.curTok] q := fun _ _ hs => synced_next hs h

theorem trans (h : Took p us q) (h' : Took q vs r) : Took p (us ++ vs) r := by
  intro l0 ts hs
  rw [← List.append_assoc]
  exact h' _ _ (h _ _ hs)

end Took

variable {p q r : PState}

/-- The kinds of tokens. -/
abbrev kinds (us : List Token) : List Tok := us.map (·.tok)

theorem comments_took {cs} (h : Comments p cs q) (hc : p.cur = .COMMENT) :
    ∃ us, Took p us q ∧ q.cur = .COMMENT ∧ ∀ t ∈ kinds us, t = .COMMENT := by
  induction h with
  | stop => exact ⟨[], .refl _, hc, by simp⟩
  | @more p q r cs hp hn hcs ih =>
    obtain ⟨us, h1, h2, h3⟩ := ih ((next_cur hn).trans hp)
    refine ⟨_, (Took.one hn).trans h1, h2, ?_⟩
    simpa [kinds, PState.curTok, hc] using h3

omit [Unicode] in
theorem phrase_comments {a : List Tok} (h : Phrase false a) : ∀ cs : List Tok, (∀ t ∈ cs, t = .COMMENT) → Phrase false (cs ++ a)
  | [], _ => h
  | c :: cs, hc => by
    rw [hc c (by simp)]
    exact .comment (phrase_comments h cs fun t ht => hc t (by simp [ht]))

/-- What is said of a derivation: the tokens read form a phrase. -/
def Says (b : Bool) (p q : PState) : Prop :=
  ∃ us, Took p us q ∧ Phrase b (kinds us ++ if b then [] else [q.cur])

theorem tagHead_took {a b} (h : TagHead p a b q) (hc : p.cur = .HASH) :
    ∃ us n, Took p us q ∧ n ∈ [[], [Tok.INT], [Tok.FLOAT]] ∧ kinds us ++ [q.cur] = .HASH :: n := by
  cases h with
  | none => exact ⟨[], [], .refl _, by simp, by simp [hc]⟩
  | major hp h => exact ⟨_, [.INT], .one h, by simp, by simp [PState.curTok, hc, next_cur h, hp]⟩
  | both hp h => exact ⟨_, [.FLOAT], .one h, by simp, by simp [PState.curTok, hc, next_cur h, hp]⟩

theorem occHead_took {m} (h : OccHead p m q) : Took p [p.curTok] q := by
  cases h with
  | none _ h => exact .one h
  | some _ _ h => exact .one h

theorem leaf_atom {x} (h : Leaf p x) : p.cur ∈ atoms := by
  have two : ∀ {a b : Tok}, p.cur = a ∨ p.cur = b → a ∈ atoms → b ∈ atoms → p.cur ∈ atoms := by
    rintro a b (h | h) ha hb <;> rw [h] <;> assumption
  have fl : (p.cur = .FLOAT ∨ p.cur = .FLOAT16 ∨ p.cur = .FLOAT32 ∨ p.cur = .FLOAT64) → p.cur ∈ atoms := by
    rintro (h | h | h | h) <;> rw [h] <;> decide
  cases h with
  | boolType h => rw [h]; decide
  | true h => exact two h (by decide) (by decide)
  | false h => exact two h (by decide) (by decide)
  | tstr h => exact two h (by decide) (by decide)
  | text h => rw [h]; decide
  | floatLit h => exact fl h
  | floatType h => exact fl h
  | uintLit h => rw [h]; decide
  | uintType h => rw [h]; decide
  | intLit h => rw [h]; decide
  | intType h => rw [h]; decide
  | nint h => rw [h]; decide
  | bstr h => rw [h]; decide
  | bytes h => rw [h]; decide
  | null h => exact two h (by decide) (by decide)

theorem says_infix {p q q1 q2 r : PState} (h1 : Says false p q) (hn : q.next = .ok q1) (hn' : Took q1 [q1.curTok] q2)
    (h2 : Says false q2 r) (ht : q.peek ∈ betweens) : Says false p r := by
  obtain ⟨us, a1, a2⟩ := h1
  obtain ⟨vs, b1, b2⟩ := h2
  refine ⟨_, ((a1.trans (.one hn)).trans hn').trans b1, ?_⟩
  have := Phrase.between ht a2 b2
  simpa [kinds, PState.curTok, next_cur hn] using this

theorem der_says {b p xs q} (h : Der b p xs q) : Says b p q := by
  induction h with
  | nil => exact ⟨[], .refl _, .empty⟩
  | cons _ hn _ ih1 ih2 =>
    obtain ⟨us, a1, a2⟩ := ih1
    obtain ⟨vs, b1, b2⟩ := ih2
    refine ⟨_, (a1.trans (.one hn)).trans b1, ?_⟩
    have := Phrase.more a2 b2
    simpa [kinds, PState.curTok] using this
  | skip hc hcs hn _ ih =>
    obtain ⟨cs, h1, h2, h3⟩ := comments_took hcs hc
    obtain ⟨us, a1, a2⟩ := ih
    refine ⟨_, (h1.trans (.one hn)).trans a1, ?_⟩
    have := phrase_comments (.comment a2) _ h3
    simpa [kinds, PState.curTok, h2] using this
  | leaf h => exact ⟨[], .refl _, .atom (leaf_atom h)⟩
  | @ref p _ _ h => exact ⟨[], .refl _, by rw [show kinds [] ++ (if false = true then [] else [(p.addTask _).cur]) = [p.cur] from rfl, h]; exact .atom (by decide)⟩
  | socket h => exact ⟨[], .refl _, by simp only [kinds, List.map_nil, List.nil_append, h]; exact .atom (by decide)⟩
  | @field p q q1 r r' v t hc hp hn hn' _ ht ih =>
    obtain ⟨us, a1, a2⟩ := ih
    have hi : Phrase false [Tok.IDENT] := .atom (by decide)
    have hq := next_cur hn
    cases ht with
    | none =>
      refine ⟨_, ((Took.one hn).trans (.one hn')).trans a1, ?_⟩
      have := Phrase.between (t := .COLON) (by decide) hi a2
      simpa [kinds, PState.curTok, hc, hq, hp] using this
    | some h1 _ h2 =>
      refine ⟨_, (((Took.one hn).trans (.one hn')).trans a1).trans (.one h2), ?_⟩
      have := Phrase.noted (t := .COLON) (Or.inl rfl) hi a2
      simpa [kinds, PState.curTok, hc, hq, hp, next_cur h2, h1] using this
  | group hc hn _ he ih =>
    obtain ⟨us, a1, a2⟩ := ih
    refine ⟨_, (Took.one hn).trans a1, ?_⟩
    have := Phrase.bracketed (o := .LPAREN) (c := .RPAREN) (by decide) a2
    simpa [kinds, PState.curTok, hc, he] using this
  | array hc hn _ he ih =>
    obtain ⟨us, a1, a2⟩ := ih
    refine ⟨_, (Took.one hn).trans a1, ?_⟩
    have := Phrase.bracketed (o := .LBRACK) (c := .RBRACK) (by decide) a2
    simpa [kinds, PState.curTok, hc, he] using this
  | map hc hn _ he ih =>
    obtain ⟨us, a1, a2⟩ := ih
    refine ⟨_, (Took.one hn).trans a1, ?_⟩
    have := Phrase.bracketed (o := .LBRACE) (c := .RBRACE) (by decide) a2
    simpa [kinds, PState.curTok, hc, he] using this
  | @optional p q r x hc hn _ ih | @unwrap p q r x hc hn _ ih | @enumeration p q r x hc hn _ ih =>
    obtain ⟨us, a1, a2⟩ := ih
    refine ⟨_, (Took.one hn).trans a1, ?_⟩
    have := Phrase.marked (t := p.cur) (by rw [hc]; decide) a2
    simpa [kinds, PState.curTok] using this
  | @occ0 p q r m x hc hn _ ih | @occ1 p q r m x hc hn _ ih =>
    obtain ⟨us, a1, a2⟩ := ih
    refine ⟨_, (occHead_took hn).trans a1, ?_⟩
    have := Phrase.marked (t := p.cur) (by rw [hc]; decide) a2
    simpa [kinds, PState.curTok] using this
  | tag hc ht _ =>
    obtain ⟨us, n, h1, h2, h3⟩ := tagHead_took ht hc
    exact ⟨us, h1, by rw [if_neg nofun, h3]; exact .tag h2⟩
  | tagItem hc ht hp hn hn' _ he ih =>
    obtain ⟨us, n, h1, h2, h3⟩ := tagHead_took ht hc
    obtain ⟨vs, a1, a2⟩ := ih
    have hl := (next_cur hn).trans hp
    have h6 := ((h1.trans (.one hn)).trans (.one hn')).trans a1
    rcases he with ⟨_, rfl⟩ | ⟨he, hr⟩
    · refine ⟨_, h6, ?_⟩
      have := Phrase.unclosed h2 a2
      rw [List.cons_append, ← List.cons_append, ← h3] at this
      simpa [kinds, PState.curTok, hl] using this
    · refine ⟨_, h6.trans (.one hr), ?_⟩
      have := Phrase.tagged h2 a2
      rw [← h3] at this
      simpa [kinds, PState.curTok, hl, next_cur hr, he] using this
  | @colon p q q1 q2 r r' left name v t _ hp hn _ hn' _ ht ih1 ih2 =>
    cases ht with
    | none => exact says_infix ih1 hn (.one hn') ih2 (by rcases hp with h | h <;> rw [h] <;> decide)
    | some h1 _ h2 =>
      obtain ⟨us, a1, a2⟩ := ih1
      obtain ⟨vs, b1, b2⟩ := ih2
      refine ⟨_, (((a1.trans (.one hn)).trans (.one hn')).trans b1).trans (.one h2), ?_⟩
      have := Phrase.noted hp a2 b2
      simpa [kinds, PState.curTok, next_cur hn, next_cur h2, h1] using this
  | comma _ hp hn ih =>
    obtain ⟨us, a1, a2⟩ := ih
    refine ⟨_, a1.trans (.one hn), ?_⟩
    have := Phrase.comma a2
    simpa [kinds, PState.curTok, next_cur hn, hp] using this
  | choice _ hp hn hn' _ ih1 ih2 | rangeInt _ hp hn hn' _ ih1 ih2 | rangeIntOther _ hp hn hn' _ _ _ _ ih1 ih2
  | rangeFloat _ hp hn hn' _ ih1 ih2 | rangeFloatOther _ hp hn hn' _ _ _ _ ih1 ih2
  | rangeIdent _ hp hn hn' _ ih1 ih2 | rangeIntIdent _ hp hn hn' _ ih1 ih2
  | rangeFloatIdent _ hp hn hn' _ ih1 ih2 =>
    exact says_infix ih1 hn (.one hn') ih2 (by rcases hp with h | h <;> rw [h] <;> decide)
  | size _ hp hn _ hn' _ ih1 ih2 | regexp _ hp hn _ hn' _ ih1 ih2 | bits _ hp hn hn' _ ih1 ih2 =>
    exact says_infix ih1 hn (.one hn') ih2 (by rw [hp]; decide)
  | compare _ hp hn _ hn' _ ih1 ih2 =>
    refine says_infix ih1 hn (.one hn') ih2 ?_
    revert hp
    generalize PState.peek _ = t
    cases t <;> decide
  | occ _ hp hn _ ho _ ih1 ih2 =>
    exact says_infix ih1 hn (occHead_took ho) ih2 (by rcases hp with h | h <;> rw [h] <;> decide)
  | rangeEmpty _ hp hn _ _ _ ih =>
    obtain ⟨us, a1, a2⟩ := ih
    refine ⟨_, a1.trans (.one hn), ?_⟩
    have := Phrase.noEnd hp a2
    simpa [kinds, PState.curTok, next_cur hn] using this

/-! ### Files -/

/-- A rule with a comment behind it. -/
def Trailed (e : Node) : Prop := ∃ pos name x c, e = .rule pos name x (some c)

/-- The tokens of a run without errors form a sentence and the end of the file. -/
theorem run_says {src : Bytes} {lax : Prop} {p s : PState} {rules} (h : FileRun p rules s)
    (hp : On (Lexer.new src) p) (he : s.errors = []) (hl : ∀ e ∈ rules, Trailed e → lax) :
    ∃ vs e, Sentence lax (kinds vs) ∧ e.tok = .EOF ∧ (∃ us q, Took p us q ∧ vs ++ [e] = us ++ [q.curTok]) := by
  induction h with
  | @stop p hc => exact ⟨[], p.curTok, .empty, hc, [], p, .refl _, rfl⟩
  | @step p q r s e err rules hc hs hn hrun ih =>
    have hr := round_on hp hs hn
    obtain ⟨vs, f, h1, h2, us, w, h3, h4⟩ := ih hr he fun e hm => hl e (List.mem_append_right _ hm)
    have herr : r.errors = [] := List.prefix_nil.mp (he ▸ run_errors hrun)
    have hrec : (q.record err).errors = [] := (next_fields hn).2.2.2.2.2.1.symm.trans herr
    rw [(PState.record_fields q err).2.2.2.2.2, List.append_eq_nil_iff] at hrec
    have herr' : err = none := by cases err <;> first | rfl | cases hrec.2
    subst herr'
    have hq : q.next = .ok r := hn
    -- a rule of the form `name assign entry`, with what may follow it
    have rule : ∀ {p1 p2 p3 p4 : PState} {x tc}, p.cur = .IDENT → p.next = .ok p1 → p1.cur ∈ assigns → p1.next = .ok p2 →
        Der false p2 [x] p3 → RuleTrail p3 tc p4 → p4.lx = q.lx → p4.curTok = q.curTok → p4.peekTok = q.peekTok →
        (tc.isSome = true → lax) →
        ∃ vs e, Sentence lax (kinds vs) ∧ e.tok = .EOF ∧ (∃ us q, Took p us q ∧ vs ++ [e] = us ++ [q.curTok]) := by
      intro p1 p2 p3 p4 x tc hid hn1 has hn2 hd ht e1 e2 e3 hlx
      obtain ⟨as, a1, a2⟩ := der_says hd
      have t3 := ((Took.one hn1).trans (.one hn2)).trans a1
      have tq : Took p4 [p4.curTok] r := by
        intro l0 ts hs
        rw [e2]
        exact synced_next (show Synced l0 ts q by unfold Synced at hs ⊢; rwa [← e1, ← e2, ← e3]) hq
      have e2' : p4.cur = q.cur := congrArg Token.tok e2
      cases ht with
      | none =>
        refine ⟨[p.curTok] ++ [p1.curTok] ++ as ++ [p3.curTok] ++ vs, f, ?_, h2,
          [p.curTok] ++ [p1.curTok] ++ as ++ [p3.curTok] ++ us, w, (t3.trans tq).trans h3, by rw [List.append_assoc, h4]; simp⟩
        have := Sentence.rule (lax := lax) has a2 h1
        simpa [kinds, PState.curTok, hid] using this
      | @some p5 _ hcm _ hn5 hn6 =>
        have t5 := (t3.trans (.one hn5)).trans (.one hn6)
        have hc5 : p5.cur = .COMMENT := (next_cur hn5).trans hcm
        by_cases hx : p4.cur = .EOF
        · refine ⟨[p.curTok] ++ [p1.curTok] ++ as ++ [p3.curTok] ++ [p5.curTok], p4.curTok, ?_, hx, _, p4, t5, rfl⟩
          have := Sentence.last (hlx rfl) has a2
          simpa [kinds, PState.curTok, hid, hc5] using this
        · refine ⟨[p.curTok] ++ [p1.curTok] ++ as ++ [p3.curTok] ++ [p5.curTok] ++ [p4.curTok] ++ vs, f, ?_, h2,
            [p.curTok] ++ [p1.curTok] ++ as ++ [p3.curTok] ++ [p5.curTok] ++ [p4.curTok] ++ us, w, (t5.trans tq).trans h3,
            by rw [List.append_assoc, h4]; simp⟩
          have := Sentence.noted (hlx rfl) has a2 hx h1
          simpa [kinds, PState.curTok, hid, hc5] using this
    cases hs with
    | @comment _ cs hcc hcs =>
      obtain ⟨us', c1, c2, c3⟩ := comments_took hcs hcc
      refine ⟨us' ++ [q.curTok] ++ vs, f, ?_, h2, us' ++ [q.curTok] ++ us, w, (c1.trans (.one hq)).trans h3,
        by rw [List.append_assoc, h4]; simp⟩
      have : ∀ ks : List Tok, (∀ t ∈ ks, t = .COMMENT) → Sentence lax (ks ++ .COMMENT :: kinds vs) := by
        intro ks
        induction ks with
        | nil => exact fun _ => .comment h1
        | cons k ks ih =>
          intro hk
          rw [hk k (by simp)]
          exact .comment (ih fun t ht => hk t (by simp [ht]))
      simpa [kinds, PState.curTok, c2] using this _ c3
    | @bound p1 p2 p3 p4 x tc env hid hn1 has hn2 hd ht _ =>
      refine rule hid hn1 (by rw [has]; decide) hn2 hd ht rfl rfl rfl fun ht => ?_
      obtain ⟨c, rfl⟩ := Option.isSome_iff_exists.mp ht
      exact hl (.rule {} ⟨p.pos, p.lit⟩ x (some c)) (by simp [Node.isNil]) ⟨_, _, _, _, rfl⟩
    | dup => simp [PState.addError] at hrec
    | @choice p1 p2 p3 p4 x tc hid hn1 has hn2 hd ht =>
      refine rule hid hn1 (by rcases has with h | h <;> rw [h] <;> decide) hn2 hd ht rfl rfl rfl fun ht => ?_
      obtain ⟨c, rfl⟩ := Option.isSome_iff_exists.mp ht
      exact hl (.rule {} ⟨p.pos, p.lit⟩ x (some c)) (by simp [Node.isNil]) ⟨_, _, _, _, rfl⟩

/-! ### Brackets -/

omit [Unicode] in
theorem phrase_no_eof {b a} (h : Phrase b a) : Tok.EOF ∉ a := by
  induction h with
  | empty => simp
  | more _ _ ih1 ih2 => simp [ih1, ih2]
  | comment _ ih => simp [ih]
  | atom ht => rintro h; simp only [List.mem_singleton] at h; exact absurd (h ▸ ht) (by decide)
  | @bracketed o c a ho _ ih =>
    have : o ≠ .EOF ∧ c ≠ .EOF := by
      constructor <;> rintro rfl <;> exact absurd ho (by simp [closers])
    simp [ih, this.1.symm, this.2.symm]
  | marked ht _ ih => simp [ih]; rintro rfl; exact absurd ht (by decide)
  | tag hn => simp at hn; rcases hn with rfl | rfl | rfl <;> decide
  | tagged hn _ ih | unclosed hn _ ih => simp at hn; rcases hn with rfl | rfl | rfl <;> simp [ih]
  | between ht _ _ ih1 ih2 => simp [ih1, ih2]; rintro rfl; exact absurd ht (by decide)
  | noted ht _ _ ih1 ih2 => rcases ht with rfl | rfl <;> simp [ih1, ih2]
  | comma _ ih => simp [ih]
  | noEnd ht _ ih => rcases ht with rfl | rfl <;> simp [ih]

omit [Unicode] in
theorem sentence_no_eof {lax a} (h : Sentence lax a) : Tok.EOF ∉ a := by
  induction h with
  | empty => simp
  | comment _ ih => simp [ih]
  | rule ht ha _ ih =>
    simp [ih, phrase_no_eof ha]
    rintro rfl; exact absurd ht (by decide)
  | noted _ ht ha hx _ ih =>
    simp [ih, phrase_no_eof ha, hx.symm]
    rintro rfl; exact absurd ht (by decide)
  | last _ ht ha =>
    simp [phrase_no_eof ha]
    rintro rfl; exact absurd ht (by decide)

omit [Unicode] in
theorem openAfter_plain {s : List Tok} {t : Tok} {ts : List Tok}
    (h : t ∉ [Tok.LPAREN, .RPAREN, .LBRACK, .RBRACK, .LBRACE, .RBRACE]) : openAfter s (t :: ts) = openAfter s ts := by
  simp only [List.mem_cons, not_or] at h
  cases t <;> simp_all [openAfter]

/-- Tokens that leave the open brackets as they are. -/
def Neutral (a : List Tok) : Prop := ∀ s rest, openAfter s (a ++ rest) = openAfter s rest

omit [Unicode] in
theorem neutral_append {a b} (h1 : Neutral a) (h2 : Neutral b) : Neutral (a ++ b) := by
  intro s rest
  rw [List.append_assoc, h1, h2]

omit [Unicode] in
theorem neutral_nil : Neutral [] := fun _ _ => rfl

omit [Unicode] in
theorem neutral_cons {t a} (h : t ∉ [Tok.LPAREN, .RPAREN, .LBRACK, .RBRACK, .LBRACE, .RBRACE]) (ha : Neutral a) :
    Neutral (t :: a) := by
  intro s rest
  rw [List.cons_append, openAfter_plain h, ha]

omit [Unicode] in
theorem neutral_bracketed {o c a} (h : (o, c) ∈ closers) (ha : Neutral a) : Neutral (o :: a ++ [c]) := by
  intro s rest
  simp only [closers, List.mem_cons, Prod.mk.injEq, List.not_mem_nil, or_false] at h
  rcases h with ⟨rfl, rfl⟩ | ⟨rfl, rfl⟩ | ⟨rfl, rfl⟩ <;>
    simp only [List.cons_append, List.append_assoc, openAfter, ha _] <;> simp

omit [Unicode] in
theorem phrase_neutral {b a} (h : Phrase b a) (hn : ∀ x y, a ≠ x ++ .HASH :: .LPAREN :: y ∧
    a ≠ x ++ .HASH :: .INT :: .LPAREN :: y ∧ a ≠ x ++ .HASH :: .FLOAT :: .LPAREN :: y) : Neutral a := by
  have left : ∀ {a b : List Tok}, (∀ x y, (a ++ b) ≠ x ++ .HASH :: .LPAREN :: y ∧
      (a ++ b) ≠ x ++ .HASH :: .INT :: .LPAREN :: y ∧ (a ++ b) ≠ x ++ .HASH :: .FLOAT :: .LPAREN :: y) →
      ∀ x y, a ≠ x ++ .HASH :: .LPAREN :: y ∧ a ≠ x ++ .HASH :: .INT :: .LPAREN :: y ∧
      a ≠ x ++ .HASH :: .FLOAT :: .LPAREN :: y := by
    intro a b h x y
    refine ⟨?_, ?_, ?_⟩ <;> rintro rfl
    · exact (h x (y ++ b)).1 (by simp)
    · exact (h x (y ++ b)).2.1 (by simp)
    · exact (h x (y ++ b)).2.2 (by simp)
  have right : ∀ {a b : List Tok}, (∀ x y, (a ++ b) ≠ x ++ .HASH :: .LPAREN :: y ∧
      (a ++ b) ≠ x ++ .HASH :: .INT :: .LPAREN :: y ∧ (a ++ b) ≠ x ++ .HASH :: .FLOAT :: .LPAREN :: y) →
      ∀ x y, b ≠ x ++ .HASH :: .LPAREN :: y ∧ b ≠ x ++ .HASH :: .INT :: .LPAREN :: y ∧
      b ≠ x ++ .HASH :: .FLOAT :: .LPAREN :: y := by
    intro a b h x y
    refine ⟨?_, ?_, ?_⟩ <;> rintro rfl
    · exact (h (a ++ x) y).1 (by simp)
    · exact (h (a ++ x) y).2.1 (by simp)
    · exact (h (a ++ x) y).2.2 (by simp)
  induction h with
  | empty => exact neutral_nil
  | more _ _ ih1 ih2 => exact neutral_append (ih1 (left hn)) (ih2 (right hn))
  | comment _ ih => exact neutral_cons (by decide) (ih (right (a := [_]) hn))
  | @atom t ht =>
    refine neutral_cons ?_ neutral_nil
    exact (by decide : ∀ t ∈ atoms, t ∉ [Tok.LPAREN, .RPAREN, .LBRACK, .RBRACK, .LBRACE, .RBRACE]) t ht
  | bracketed ho _ ih => exact neutral_bracketed ho (ih (right (a := [_]) (left hn)))
  | @marked t a ht _ ih =>
    refine neutral_cons ?_ (ih (right (a := [_]) hn))
    exact (by decide : ∀ t ∈ marks, t ∉ [Tok.LPAREN, .RPAREN, .LBRACK, .RBRACK, .LBRACE, .RBRACE]) t ht
  | tag h =>
    simp at h
    rcases h with rfl | rfl | rfl <;>
      first
      | exact neutral_cons (by decide) neutral_nil
      | exact neutral_cons (by decide) (neutral_cons (by decide) neutral_nil)
  | @tagged n a h _ _ =>
    simp at h
    rcases h with rfl | rfl | rfl
    · exact absurd rfl (hn [] (a ++ [.RPAREN])).1
    · exact absurd rfl (hn [] (a ++ [.RPAREN])).2.1
    · exact absurd rfl (hn [] (a ++ [.RPAREN])).2.2
  | @unclosed n a h _ _ =>
    simp at h
    rcases h with rfl | rfl | rfl
    · exact absurd rfl (hn [] a).1
    · exact absurd rfl (hn [] a).2.1
    · exact absurd rfl (hn [] a).2.2
  | @between t a b ht _ _ ih1 ih2 =>
    refine neutral_append (ih1 (left hn)) (neutral_cons ?_ (ih2 (right (a := [_]) (right hn))))
    exact (by decide : ∀ t ∈ betweens, t ∉ [Tok.LPAREN, .RPAREN, .LBRACK, .RBRACK, .LBRACE, .RBRACE]) t ht
  | noted ht _ _ ih1 ih2 =>
    refine neutral_append (neutral_append (ih1 (left (left hn)))
      (neutral_cons (by rcases ht with rfl | rfl <;> decide) (ih2 (right (a := [_]) (right (left hn))))))
      (neutral_cons (by decide) neutral_nil)
  | comma _ ih => exact neutral_append (ih (left hn)) (neutral_cons (by decide) neutral_nil)
  | noEnd ht _ ih =>
    exact neutral_append (ih (left hn)) (neutral_cons (by rcases ht with rfl | rfl <;> decide) neutral_nil)

omit [Unicode] in
theorem sentence_neutral {a} (h : Sentence False a) (hn : ∀ x y, a ≠ x ++ .HASH :: .LPAREN :: y ∧
    a ≠ x ++ .HASH :: .INT :: .LPAREN :: y ∧ a ≠ x ++ .HASH :: .FLOAT :: .LPAREN :: y) : Neutral a := by
  induction h with
  | empty => exact neutral_nil
  | comment _ ih =>
    refine neutral_cons (by decide) (ih fun x y => ?_)
    refine ⟨?_, ?_, ?_⟩ <;> rintro rfl
    · exact (hn (.COMMENT :: x) y).1 rfl
    · exact (hn (.COMMENT :: x) y).2.1 rfl
    · exact (hn (.COMMENT :: x) y).2.2 rfl
  | @rule t a ts ht ha _ ih =>
    refine neutral_cons (by decide) (neutral_cons ?_ (neutral_append (phrase_neutral ha fun x y => ?_) (ih fun x y => ?_)))
    · exact (by decide : ∀ t ∈ assigns, t ∉ [Tok.LPAREN, .RPAREN, .LBRACK, .RBRACK, .LBRACE, .RBRACE]) t ht
    · refine ⟨?_, ?_, ?_⟩ <;> rintro rfl
      · exact (hn (.IDENT :: t :: x) (y ++ ts)).1 (by simp)
      · exact (hn (.IDENT :: t :: x) (y ++ ts)).2.1 (by simp)
      · exact (hn (.IDENT :: t :: x) (y ++ ts)).2.2 (by simp)
    · refine ⟨?_, ?_, ?_⟩ <;> rintro rfl
      · exact (hn (.IDENT :: t :: (a ++ x)) y).1 (by simp)
      · exact (hn (.IDENT :: t :: (a ++ x)) y).2.1 (by simp)
      · exact (hn (.IDENT :: t :: (a ++ x)) y).2.2 (by simp)
  | noted h => exact h.elim
  | last h => exact h.elim

namespace Spec.Without
variable {lax : Prop} {a b c d : List Tok}

omit [Unicode] in
theorem refl (a : List Tok) : Without lax a a := by
  induction a with
  | nil => exact .nil
  | cons t a ih => exact .keep ih

omit [Unicode] in
theorem append (h : Without lax a b) (h' : Without lax c d) : Without lax (a ++ c) (b ++ d) := by
  induction h with
  | nil => exact h'
  | keep _ ih => exact .keep ih
  | tag hn _ ih => simpa using Without.tag hn ih
  | passed hl _ ih => exact .passed hl ih

end Spec.Without

omit [Unicode] in
theorem phrase_without {lax b a} (h : Phrase b a) : ∃ u, Without lax a u ∧ Neutral u := by
  have tagN : ∀ {n}, n ∈ [[], [Tok.INT], [Tok.FLOAT]] → Neutral (.HASH :: n) := by
    intro n hn
    simp at hn
    rcases hn with rfl | rfl | rfl <;>
      first
      | exact neutral_cons (by decide) neutral_nil
      | exact neutral_cons (by decide) (neutral_cons (by decide) neutral_nil)
  induction h with
  | empty => exact ⟨[], .nil, neutral_nil⟩
  | more _ _ ih1 ih2 =>
    obtain ⟨u, h1, h2⟩ := ih1
    obtain ⟨v, h3, h4⟩ := ih2
    exact ⟨_, h1.append h3, neutral_append h2 h4⟩
  | comment _ ih =>
    obtain ⟨u, h1, h2⟩ := ih
    exact ⟨_, h1.keep, neutral_cons (by decide) h2⟩
  | @atom t ht =>
    refine ⟨_, .refl _, neutral_cons ?_ neutral_nil⟩
    exact (by decide : ∀ t ∈ atoms, t ∉ [Tok.LPAREN, .RPAREN, .LBRACK, .RBRACK, .LBRACE, .RBRACE]) t ht
  | bracketed ho _ ih =>
    obtain ⟨u, h1, h2⟩ := ih
    exact ⟨_, (h1.keep).append (.refl _), neutral_bracketed ho h2⟩
  | @marked t a ht _ ih =>
    obtain ⟨u, h1, h2⟩ := ih
    refine ⟨_, h1.keep, neutral_cons ?_ h2⟩
    exact (by decide : ∀ t ∈ marks, t ∉ [Tok.LPAREN, .RPAREN, .LBRACK, .RBRACK, .LBRACE, .RBRACE]) t ht
  | tag hn => exact ⟨_, .refl _, tagN hn⟩
  | @tagged n a hn _ ih =>
    obtain ⟨u, h1, h2⟩ := ih
    refine ⟨.HASH :: n ++ .LPAREN :: u ++ [.RPAREN],
      (Without.append (.refl (.HASH :: n)) h1.keep).append (.refl _), ?_⟩
    rw [List.append_assoc]
    exact neutral_append (tagN hn) (neutral_bracketed (o := .LPAREN) (c := .RPAREN) (by decide) h2)
  | @unclosed n a hn _ ih =>
    obtain ⟨u, h1, h2⟩ := ih
    exact ⟨_, .tag hn h1, neutral_append (tagN hn) h2⟩
  | @between t a b ht _ _ ih1 ih2 =>
    obtain ⟨u, h1, h2⟩ := ih1
    obtain ⟨v, h3, h4⟩ := ih2
    refine ⟨_, h1.append h3.keep, neutral_append h2 (neutral_cons ?_ h4)⟩
    exact (by decide : ∀ t ∈ betweens, t ∉ [Tok.LPAREN, .RPAREN, .LBRACK, .RBRACK, .LBRACE, .RBRACE]) t ht
  | noted ht _ _ ih1 ih2 =>
    obtain ⟨u, h1, h2⟩ := ih1
    obtain ⟨v, h3, h4⟩ := ih2
    refine ⟨_, (h1.append h3.keep).append (.refl _), neutral_append (neutral_append h2 (neutral_cons ?_ h4))
      (neutral_cons (by decide) neutral_nil)⟩
    rcases ht with rfl | rfl <;> decide
  | comma _ ih =>
    obtain ⟨u, h1, h2⟩ := ih
    exact ⟨_, h1.append (.refl _), neutral_append h2 (neutral_cons (by decide) neutral_nil)⟩
  | noEnd ht _ ih =>
    obtain ⟨u, h1, h2⟩ := ih
    exact ⟨_, h1.append (.refl _), neutral_append h2 (neutral_cons (by rcases ht with rfl | rfl <;> decide) neutral_nil)⟩

omit [Unicode] in
theorem sentence_without {lax a} (h : Sentence lax a) : ∃ u, Without lax a u ∧ Neutral u := by
  have asg : ∀ {t}, t ∈ assigns → t ∉ [Tok.LPAREN, .RPAREN, .LBRACK, .RBRACK, .LBRACE, .RBRACE] := fun {t} ht =>
    (by decide : ∀ t ∈ assigns, t ∉ [Tok.LPAREN, .RPAREN, .LBRACK, .RBRACK, .LBRACE, .RBRACE]) t ht
  induction h with
  | empty => exact ⟨[], .nil, neutral_nil⟩
  | comment _ ih =>
    obtain ⟨u, h1, h2⟩ := ih
    exact ⟨_, h1.keep, neutral_cons (by decide) h2⟩
  | rule ht ha _ ih =>
    obtain ⟨u, h1, h2⟩ := ih
    obtain ⟨v, h3, h4⟩ := phrase_without (lax := lax) ha
    exact ⟨_, (h3.append h1).keep.keep, neutral_cons (by decide) (neutral_cons (asg ht) (neutral_append h4 h2))⟩
  | noted hl ht ha _ _ ih =>
    obtain ⟨u, h1, h2⟩ := ih
    obtain ⟨v, h3, h4⟩ := phrase_without (lax := lax) ha
    exact ⟨_, (h3.append (.passed hl h1)).keep.keep,
      neutral_cons (by decide) (neutral_cons (asg ht) (neutral_append h4 (neutral_cons (by decide) h2)))⟩
  | last hl ht ha =>
    obtain ⟨v, h3, h4⟩ := phrase_without (lax := lax) ha
    exact ⟨_, (h3.append (.refl _)).keep.keep,
      neutral_cons (by decide) (neutral_cons (asg ht) (neutral_append h4 (neutral_cons (by decide) neutral_nil)))⟩

/-! ### Words that occur nowhere -/

omit [Unicode] in
theorem phrase_supported {b a} (h : Phrase b a) : ∀ t ∈ a, t ∉ unsupported := by
  induction h with
  | empty => simp
  | more _ _ ih1 ih2 => exact List.forall_mem_append.mpr ⟨ih1, ih2⟩
  | comment _ ih => exact List.forall_mem_cons.mpr ⟨by decide, ih⟩
  | @atom t ht =>
    refine List.forall_mem_singleton.mpr ?_
    exact (by decide : ∀ t ∈ atoms, t ∉ unsupported) t ht
  | @bracketed o c a ho _ ih =>
    have : o ∉ unsupported ∧ c ∉ unsupported :=
      (by decide : ∀ x ∈ closers, x.1 ∉ unsupported ∧ x.2 ∉ unsupported) _ ho
    exact List.forall_mem_append.mpr ⟨List.forall_mem_cons.mpr ⟨this.1, ih⟩, List.forall_mem_singleton.mpr this.2⟩
  | @marked t a ht _ ih =>
    exact List.forall_mem_cons.mpr ⟨(by decide : ∀ t ∈ marks, t ∉ unsupported) t ht, ih⟩
  | tag hn => simp at hn; rcases hn with rfl | rfl | rfl <;> decide
  | tagged hn _ ih =>
    refine List.forall_mem_append.mpr ⟨List.forall_mem_append.mpr ⟨?_, List.forall_mem_cons.mpr ⟨by decide, ih⟩⟩, by decide⟩
    simp at hn; rcases hn with rfl | rfl | rfl <;> decide
  | unclosed hn _ ih =>
    refine List.forall_mem_append.mpr ⟨?_, List.forall_mem_cons.mpr ⟨by decide, ih⟩⟩
    simp at hn; rcases hn with rfl | rfl | rfl <;> decide
  | @between t a b ht _ _ ih1 ih2 =>
    exact List.forall_mem_append.mpr ⟨ih1,
      List.forall_mem_cons.mpr ⟨(by decide : ∀ t ∈ betweens, t ∉ unsupported) t ht, ih2⟩⟩
  | noted ht _ _ ih1 ih2 =>
    refine List.forall_mem_append.mpr ⟨List.forall_mem_append.mpr ⟨ih1, List.forall_mem_cons.mpr ⟨?_, ih2⟩⟩, by decide⟩
    rcases ht with rfl | rfl <;> decide
  | comma _ ih => exact List.forall_mem_append.mpr ⟨ih, by decide⟩
  | noEnd ht _ ih =>
    refine List.forall_mem_append.mpr ⟨ih, List.forall_mem_singleton.mpr ?_⟩
    rcases ht with rfl | rfl <;> decide

omit [Unicode] in
theorem sentence_supported {a} (h : Sentence False a) : ∀ t ∈ a, t ∉ unsupported := by
  induction h with
  | empty => simp
  | comment _ ih => exact List.forall_mem_cons.mpr ⟨by decide, ih⟩
  | @rule t a ts ht ha _ ih =>
    exact List.forall_mem_cons.mpr ⟨by decide, List.forall_mem_cons.mpr
      ⟨(by decide : ∀ t ∈ assigns, t ∉ unsupported) t ht, List.forall_mem_append.mpr ⟨phrase_supported ha, ih⟩⟩⟩
  | noted h => exact h.elim
  | last h => exact h.elim

end Cddlc
