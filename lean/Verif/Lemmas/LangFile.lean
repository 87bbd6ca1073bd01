import Verif.Lemmas.Language
import Verif.Lemmas.Join

/-! Rules of accepted sources. -/

namespace Cddlc

namespace Lexer
variable {src : Bytes} {cs : List Char} {bad : Bytes} {l l' : Lexer}

theorem while_stops {p : Int → Bool} {n : Nat} (h : whileOut (fun l => p l.chr) next n l = .ok l') : p l'.chr = false := by
  induction n generalizing l with
  | zero => cases h
  | succ n ih =>
    rw [whileOut] at h
    split at h
    · exact ih h
    · rename_i hc
      cases h
      simpa using hc

/-- What is read while a class lasts is not empty when the lexer stands on a character of the class. -/
theorem scanWhile_ne (h : Inv src cs bad l) {p : Int → Bool} (h1 : p (-1) = false) (h0 : p 0 = false) (h32 : p 32 = false)
    (hc : p l.chr = true) {lit} (hs : scanWhile p l = .ok (lit, l')) : lit ≠ [] := by
  obtain ⟨hd, b, pre, rest, hb, he, rfl, _⟩ := h
  have hdb : Dec b.src cs bad := by rw [hb]; exact hd
  unfold scanWhile at hs
  obtain ⟨l1, hw, hs⟩ := Out.bind_eq_ok.mp hs
  obtain ⟨lit', hsl, hs⟩ := Out.bind_eq_ok.mp hs
  have hs' := Out.ok_inj hs
  cases hs'
  clear hs
  have hst := while_stops hw
  obtain ⟨ds, rest', h2, h3, rfl, h5⟩ := while_reads hdb h1 h0 h32 he hw
  unfold slice at hsl
  split at hsl
  · cases hsl
    cases ds with
    | nil =>
      rw [List.nil_append] at h2
      subst h2
      simp only [List.append_nil] at hst
      rw [hst] at hc
      cases hc
    | cons d ds =>
      rcases h5 with h5 | h5
      · cases h5
      · obtain ⟨r, rest', rfl⟩ := List.exists_cons_of_ne_nil h5
        subst h2
        rw [at_offset_cons, List.cons_append, at_offset_cons, at_src, hdb.eq, he]
        simp only [Int.toNat_natCast]
        rw [drop_enc, List.cons_append, blen_append, Nat.add_sub_cancel_left, ← List.cons_append, enc_append, blen,
          List.append_assoc, List.take_left]
        exact enc_ne_nil
  · cases hsl

variable [Unicode]

theorem scanTok_ident_ne (h : Inv src cs bad l) {lit} (hs : scanTok l = .ok (.IDENT, lit, l')) : lit ≠ [] := by
  unfold scanTok at hs
  split at hs
  · rename_i hst
    obtain ⟨⟨c, l1⟩, h1, hs⟩ := Out.bind_eq_ok.mp hs
    simp only [Out.ok.injEq, Prod.mk.injEq] at hs
    obtain ⟨_, rfl, rfl⟩ := hs
    exact scanWhile_ne h rfl rfl rfl (by unfold isIdentBody; rw [hst]; rfl) h1
  split at hs
  · exact absurd rfl (scanNumber_tok hs)
  · unfold scanOther at hs
    simp only [] at hs
    repeat
      rcases ite_or hs with ⟨hh, hs⟩ | ⟨hh, hs⟩
      · first
        | (cases hs; done)
        | (obtain ⟨⟨c, l1⟩, h1, hs⟩ := Out.bind_eq_ok.mp hs; cases hs; done)
        | (repeat
            rcases ite_or hs with ⟨hk, hs⟩ | ⟨hk, hs⟩
            · first
              | (cases hs; done)
              | (obtain ⟨⟨c, l1⟩, h1, hs⟩ := Out.bind_eq_ok.mp hs
                 simp only [Out.ok.injEq, Prod.mk.injEq] at hs
                 obtain ⟨_, rfl, rfl⟩ := hs
                 rw [hh]
                 rw [show encodeRune 46 = [46] from rfl]
                 simp)
           cases hs; done)
    cases hs

/-- **Identifiers** are never empty, on every source. -/
theorem ident_ne {src : Bytes} {ts l} (hs : Scans (new src) ts l) : ∀ t ∈ ts, t.tok = .IDENT → t.lit ≠ [] := by
  obtain ⟨cs, bad, hd, _, _⟩ := init_dec src
  have hi := inv_new hd
  generalize new src = l0 at hs hi
  induction hs with
  | nil => nofun
  | cons h1 _ ih =>
    obtain ⟨l1, h2, h3, h4, h5, _⟩ := inv_scan hi h1
    intro t ht hk
    rcases List.mem_cons.1 ht with rfl | ht
    · simp only at hk
      subst hk
      exact scanTok_ident_ne h2 h4
    · exact ih h5 t ht hk

end Lexer

open Spec PState
attribute [local instance] noMarks
variable [Unicode] {l0 : Lexer} {p q : PState} {n : Nat}

/-! ### What accepted files are -/

/-- From `p` to `q` there are the tokens `hd`, those of an entry, and a comment on its line with the token behind it
if there is such a comment. -/
def Tailed (p : PState) (hd ts : List Token) (q : PState) (x : Node) (cs : List Check) : Option Comment → Prop
  | none => Span p (hd ++ ts) q ∧ Lang (.entry x) ts q.peekTok cs ∧ ¬ Trails ts q.peekTok
  | some k => ∃ c, k = ⟨c.pos, c.lit⟩ ∧ Span p (hd ++ ts ++ [c, q.curTok]) q ∧ Lang (.entry x) ts c cs ∧ Trails ts c

/-- From `p` to `q` there is a rule. -/
def RuleD (p q : PState) (e : Node) (ds : List (Bytes × Node)) (cs : List Check) : Prop :=
  ∃ n a ts x k, Tailed p [n, a] ts q x cs k ∧ n.tok = .IDENT ∧
    e = .rule {} ⟨n.pos, n.lit⟩ x k ∧ (∃ new, q.tasks = p.tasks ++ new ∧ new.filterMap Task.check = cs) ∧
    (a.tok = .ASSIGN ∧ ds = [(n.lit, x)] ∧ p.env.exists? n.lit = false ∧ q.env.symbols = (n.lit, x) :: p.env.symbols ∨
     (a.tok = .TYPE_CHOICE_ASSIGN ∨ a.tok = .GROUP_CHOICE_ASSIGN) ∧ ds = [] ∧ q.env = p.env)

/-- From `p` to `q` there are comments, up to the last. -/
def CommentsD (p q : PState) (e : Node) : Prop :=
  ∃ gs, gs ≠ [] ∧ Span p gs q ∧ (∀ g ∈ gs, g.tok = .COMMENT) ∧ Same p q ∧ q.peek ≠ .COMMENT ∧ e = commentTree gs

theorem trailing_lang {p2 : PState} {hd ts x cs} (h1 : Span p (hd ++ ts) q) (h2 : Span p2 ts q)
    (h3 : Lang (.entry x) ts q.peekTok cs) : (ruleTrailing q).wp (fun r => Tailed p hd ts r.2 x cs r.1 ∧ Same q r.2) := by
  unfold ruleTrailing
  have ht := trails_iff h2
  split
  · rename_i hc
    refine Out.wp_bind.mpr ?_
    intro q1 hq1
    refine Out.wp_bind.mpr ?_
    intro q2 hq2
    rw [← ht, ← curTok_next hq1] at hc
    rw [← curTok_next hq1] at h3
    exact Out.wp_ok.mpr ⟨⟨q1.curTok, rfl, h1.next hq1 ((Span.refl q1).next hq2 (.refl q2)), h3, hc⟩,
      (same_next hq1).trans (same_next hq2)⟩
  · rename_i hc
    exact Out.wp_ok.mpr ⟨⟨h1, h3, fun h => hc (ht.mp h)⟩, .refl q⟩

theorem tailed_env {hd ts x cs k} (h : Tailed p hd ts q x cs k) (env : Env) : Tailed p hd ts { q with env := env } x cs k := by
  cases k <;> exact h

theorem parseRule_lang (hl : Spells l0) (hp : On l0 p) :
    (parseRule n p).wp (fun r => r.2.1 = none → p.errors = [] → r.2.2.errors = [] →
      CommentsD p r.2.2 r.1 ∨ ∃ ds cs, RuleD p r.2.2 r.1 ds cs) := by
  unfold parseRule
  split
  · rename_i h
    exact (parseComment_lang h).mono fun r hr _ _ _ => .inl hr.2
  · rename_i hc
    refine Out.wp_bind.mpr ?_
    intro p1 h1
    have o1 := hp.next h1
    dsimp only
    split
    · rename_i ha
      refine Out.wp_bind.mpr ((nextEntry_lang (parseEntry_lang hl n) o1).mono ?_)
      rintro ⟨x, e, p3⟩ h
      dsimp only at h ⊢
      split
      · simp
      · obtain ⟨p2, h2, ws, cs, g1, g2, g3, -⟩ := h rfl
        have hsp : Span p ([p.curTok, p1.curTok] ++ ws) p3 := (Span.refl p).next h1 ((Span.refl p1).next h2 g1)
        refine Out.wp_bind.mpr ((trailing_lang hsp g1 g2).mono ?_)
        rintro ⟨k, p4⟩ ⟨t1, t2⟩
        dsimp only at t1 t2 ⊢
        obtain ⟨e1, e2, new, e3, e4⟩ := ((same_next h1).then ((same_next h2).then g3)).same t2
        refine Out.wp_bind.mpr ?_
        intro p5 h5
        refine Out.wp_ok.mpr fun _ he0 he5 => .inr ?_
        unfold declare Env.add at h5
        cases hex : p4.env.exists? p.lit with
        | true =>
          exfalso
          simp only [hex] at h5
          obtain ⟨s, _, h5⟩ := Out.bind_eq_ok.mp h5
          cases h5
          simp [addError] at he5
        | false =>
          simp only [hex] at h5
          cases h5
          refine ⟨[(p.lit, x)], cs, p.curTok, p1.curTok, ws, x, k, tailed_env t1 _, hc, rfl, ⟨new, e3, e4⟩,
            .inl ⟨ha, rfl, by rw [← e1]; exact hex, by show (p.lit, x) :: p4.env.symbols = _; rw [e1]; rfl⟩⟩
    all_goals first
      | (rename_i ha
         refine Out.wp_bind.mpr ?_
         intro p2 h2
         refine Out.wp_bind.mpr ((parseEntry_lang hl n 0 p2 (o1.next h2) (Nat.zero_le _)).mono ?_)
         rintro ⟨x, e, p3⟩ h
         dsimp only at h ⊢
         split
         · simp
         · obtain ⟨ws, cs, g1, g2, g3, -⟩ := h rfl
           have hsp : Span p ([p.curTok, p1.curTok] ++ ws) p3 := (Span.refl p).next h1 ((Span.refl p1).next h2 g1)
           refine Out.wp_bind.mpr ((trailing_lang hsp g1 g2).mono ?_)
           rintro ⟨k, p4⟩ ⟨t1, t2⟩
           dsimp only at t1 t2 ⊢
           obtain ⟨e1, e2, new, e3, e4⟩ := ((same_next h1).then ((same_next h2).then g3)).same t2
           refine Out.wp_ok.mpr fun _ he0 he5 => .inr ?_
           exact ⟨[], cs, p.curTok, p1.curTok, ws, x, k, t1, hc, rfl, ⟨new, e3, e4⟩,
             .inr ⟨by first | exact .inl ha | exact .inr ha, rfl, e1⟩⟩)
      | exact Out.wp_ok.mpr nofun
  · exact Out.wp_ok.mpr nofun

/-! ### The tokens of the grammar -/

/-- The tokens entries begin with, behind comments. -/
def starters : List Tok := [.IDENT, .BOOL, .TRUE, .FALSE, .TSTR, .TEXT, .TEXT_LITERAL, .FLOAT, .FLOAT16, .FLOAT32, .FLOAT64,
  .UINT, .INT, .NINT, .BSTR, .BYTES, .NULL, .NIL, .LPAREN, .LBRACK, .LBRACE, .HASH, .OPTIONAL, .UNWRAP, .AMPERSAND,
  .ZERO_OR_MORE, .ONE_OR_MORE]

omit [Unicode] in
theorem single_starter {t x} (h : Single t x) : t.tok ∈ starters ∧ t.tok.precedence = 0 := by
  cases h with
  | bool h | true h | false h | literal h | fraction h | uint h | int h | number h | nint h | bstr h | bytes h =>
    rw [h]; decide
  | text h | null h => rcases h with h | h <;> (rw [h]; decide)
  | float h =>
    rcases h with h | h
    · simp only [List.mem_cons, List.not_mem_nil, or_false] at h
      rcases h with h | h | h <;> (rw [h]; decide)
    · rw [h.1]; decide

omit [Unicode] in
theorem marked_starter {m f x y} (h : Marked m f x y) : m.tok ∈ starters := by
  cases h with
  | optional h | unwrap h | enumeration h | any h | some h => rw [h]; decide

omit [Unicode] in
theorem joined_infix {op f a b y es} (h : Joined op f a b y es) : op.tok ∈ infixes := by
  cases h with
  | field h => rcases h with h | h <;> rw [h] <;> decide
  | keyed h => rcases h with h | h <;> rw [h] <;> decide
  | choice h => rcases h with h | h <;> rw [h] <;> decide
  | size h => rw [h]; decide
  | regexp h => rw [h]; decide
  | bits h => rw [h]; decide
  | compare h => revert h; generalize op.tok = t; cases t <;> decide
  | occ h => rcases h with h | h <;> rw [h] <;> decide
  | range h => rcases h with h | h <;> rw [h] <;> decide

omit [Unicode] in
theorem starter_ne {t : Tok} (h : t ∈ starters) : t ≠ .EOF ∧ t ≠ .COMMENT := by
  revert h; cases t <;> decide

omit [Unicode] in
theorem infix_ne {t : Tok} (h : t ∈ infixes) : t ≠ .EOF ∧ t ≠ .COMMENT := by
  revert h; cases t <;> decide

omit [Unicode] in
/-- The end of the file is in no part. -/
theorem lang_inner {part ts nx cs} (h : Lang part ts nx cs) : ∀ t ∈ ts, t.tok ≠ .EOF := by
  have nums : ∀ {ns a b}, TagNums ns a b → ∀ t ∈ ns, t.tok ≠ .EOF := by
    intro ns a b h t ht
    cases h with
    | none => cases ht
    | major h => simp only [List.mem_singleton] at ht; subst ht; rw [h]; decide
    | both h => simp only [List.mem_singleton] at ht; subst ht; rw [h]; decide
  have one : ∀ {t k : Tok}, t = k → k ≠ .EOF → t ≠ .EOF := fun h => h ▸ id
  induction h with
  | name h => simp only [List.mem_singleton, forall_eq, h]; decide
  | single h => simp only [List.mem_singleton, forall_eq]; exact (starter_ne (single_starter h).1).1
  | group h1 h2 _ ih | array h1 h2 _ ih | map h1 h2 _ ih =>
    simp only [List.mem_cons, List.mem_append, List.not_mem_nil, or_false]
    rintro t ((rfl | h) | rfl)
    · exact one h1 (by decide)
    · exact ih t h
    · exact one h2 (by decide)
  | tag h1 h2 _ _ =>
    simp only [List.mem_cons]
    rintro t (rfl | h)
    · exact one h1 (by decide)
    · exact nums h2 t h
  | tagged h1 h2 h3 h4 _ ih =>
    simp only [List.mem_cons, List.mem_append, List.not_mem_nil, or_false]
    rintro t ((((rfl | h) | rfl | h)) | rfl)
    · exact one h1 (by decide)
    · exact nums h2 t h
    · exact one h3 (by decide)
    · exact ih t h
    · exact one h4 (by decide)
  | noRange h _ _ ih =>
    simp only [List.mem_append, List.mem_singleton]
    rintro t (ht | rfl)
    · exact ih t ht
    · rcases h with h | h <;> exact one h (by decide)
  | noted _ _ h hc ih1 ih2 =>
    intro t ht
    rcases List.mem_append.mp ht with ht | ht
    · rcases List.mem_append.mp ht with ht | ht
      · exact ih1 t ht
      · rcases List.mem_cons.mp ht with rfl | ht
        · exact (infix_ne (joined_infix h)).1
        · exact ih2 t ht
    · rw [List.mem_singleton.mp ht]
      exact one hc.1 (by decide)
  | only _ _ _ ih => exact ih
  | comma h _ ih =>
    simp only [List.mem_append, List.mem_singleton]
    rintro t (ht | rfl)
    · exact ih t ht
    · exact one h (by decide)
  | marked h _ ih =>
    intro t ht
    rcases List.mem_cons.mp ht with rfl | ht
    · exact (starter_ne (marked_starter h)).1
    · exact ih t ht
  | unclosed h1 h2 h3 _ _ ih =>
    simp only [List.mem_cons, List.mem_append]
    rintro t ((rfl | h) | rfl | h)
    · exact one h1 (by decide)
    · exact nums h2 t h
    · exact one h3 (by decide)
    · exact ih t h
  | joined _ _ h _ ih1 ih2 =>
    intro t ht
    rcases List.mem_append.mp ht with ht | ht
    · exact ih1 t ht
    · rcases List.mem_cons.mp ht with rfl | ht
      · exact (infix_ne (joined_infix h)).1
      · exact ih2 t ht
  | skip h _ ih =>
    intro t ht
    rcases List.mem_cons.mp ht with rfl | ht
    · exact one h (by decide)
    · exact ih t ht
  | nil => nofun
  | cons _ _ ih1 ih2 =>
    intro t ht
    rcases List.mem_append.mp ht with ht | ht
    · exact ih1 t ht
    · exact ih2 t ht

/-! ### Files -/

/-- Names are declared once. -/
def FreshFor (ds : List (Bytes × Node)) (env : Env) : Prop :=
  (ds.map (·.1)).Nodup ∧ ∀ d ∈ ds, env.exists? d.1 = false

/-- The end of a file is one token, for ever. -/
structure LastTok (l0 : Lexer) (eof : Token) : Prop where
  one : ∀ t, Tk l0 t → t.tok = .EOF → t = eof
  rest : ∀ p, On l0 p → p.cur = .EOF → p.peek = .EOF

theorem LastTok.cur {eof} (h : LastTok l0 eof) (hp : On l0 p) (hc : p.cur = .EOF) : p.curTok = eof := by
  obtain ⟨ts, hs⟩ := hp
  exact h.one _ (synced_tk hs).1 hc

/-- What the rules behind one more rule are. -/
def FileD (eof : Token) (p q : PState) (us : List Token) (rs : List Node) (ds : List (Bytes × Node)) (cs : List Check) : Prop :=
  (∃ vs, Span p (us ++ vs ++ [q.curTok]) q ∧ (vs = [] ∨ vs = [eof])) ∧ (∀ t ∈ us, t.tok ≠ .EOF) ∧ Rules eof us rs ds cs ∧
    (∃ new, q.tasks = p.tasks ++ new ∧ new.filterMap Task.check = cs) ∧
    q.env.symbols = ds.reverse ++ p.env.symbols ∧ FreshFor ds p.env

theorem loop_lang {eof} (hl : Spells l0) (hE : LastTok l0 eof) (m : Nat) {acc rules : List Node} (hp : On l0 p) (h0 : p.errors = [])
    (h : loopOut (fileStep n) m (acc, p) = .ok (rules, q)) (hq : q.errors = []) :
    q.cur = .EOF ∧ ∃ us ds cs rs, FileD eof p q us rs ds cs ∧ rules = acc ++ rs := by
  induction m generalizing acc p with
  | zero => cases h
  | succ m ih =>
    rw [loopOut] at h
    unfold fileStep at h
    by_cases he : p.cur = .EOF
    · rw [if_pos he] at h
      cases h
      exact ⟨he, [], [], [], [], ⟨⟨[], .refl _, .inl rfl⟩, nofun, .nil, ⟨[], by simp⟩, rfl, by simp [FreshFor]⟩, by simp⟩
    · rw [if_neg he] at h
      cases hr : parseRule n p with
      | panic w => rw [hr] at h; cases h
      | hang => rw [hr] at h; cases h
      | ok v =>
        obtain ⟨e, err, p1⟩ := v
        have hst := parseRule_step _ hr
        rw [hr] at h
        dsimp only [Out.bind_def, Out.bind] at h
        obtain ⟨p2, hn, hlp⟩ : ∃ p2, (p1.record err).next = .ok p2 ∧
            loopOut (fileStep n) m (if e.isNil then acc else acc ++ [e], p2) = .ok (rules, q) := by
          cases err with
          | none =>
            dsimp only at h
            cases hn : p1.next with
            | panic w => rw [hn] at h; cases h
            | hang => rw [hn] at h; cases h
            | ok p2 => rw [hn] at h; exact ⟨p2, hn, h⟩
          | some d =>
            dsimp only at h
            cases hn : (p1.addError d).next with
            | panic w => rw [hn] at h; cases h
            | hang => rw [hn] at h; cases h
            | ok p2 => rw [hn] at h; exact ⟨p2, hn, h⟩
        obtain ⟨rest, hrun, _⟩ := fileLoop_run m _ p2 _ hlp
        have hz : p2.errors = [] := by
          have := run_errors hrun
          rw [hq] at this
          exact List.prefix_nil.mp this
        obtain ⟨k1, k2⟩ := round_errors hst hn
        rw [hz] at k1
        have k1' := List.append_eq_nil_iff.mp k1.symm
        cases err with
        | some d => cases k1'.2
        | none =>
          have hn : p1.next = .ok p2 := hn
          have hs := same_next hn
          have first : ∀ {us vs : List Token}, On l0 p2 → q.cur = .EOF → Span p2 (us ++ vs ++ [q.curTok]) q → vs = [] ∨ vs = [eof] →
              firstTok us eof = p1.peekTok := by
            intro us vs o h1 h2 h3
            have hqe : q.curTok = eof := hE.cur (h2.on o) h1
            obtain ⟨ws, hw⟩ := h2.head
            rw [curTok_next hn] at hw
            cases us with
            | cons t us => exact (List.cons.inj hw).1
            | nil =>
              rcases h3 with rfl | rfl
              · rw [← hqe]; exact (List.cons.inj hw).1
              · exact (List.cons.inj hw).1
          rcases parseRule_lang hl hp _ hr rfl h0 k1'.1 with ⟨gs, g1, g2, g3, g4, g5, g6⟩ | ⟨ds, cs, n', a, ts, x, k, g1, g2, g3, ⟨new, g4, g5⟩, g6⟩
          · dsimp only at g2 g4 g5 g6
            have o2 : On l0 p2 := (g2.on hp).next hn
            obtain ⟨f0, us, ds', cs', rs, ⟨⟨vs, f1, f1'⟩, f2, f3, f4, f5, f6⟩, f7⟩ := ih o2 hz hlp
            have hee := g4.trans hs
            refine ⟨f0, gs ++ us, ds', cs', e :: rs, ⟨⟨vs, ?_, f1'⟩, ?_, ?_, ?_, ?_, ?_⟩, ?_⟩
            · rw [List.append_assoc, List.append_assoc, ← List.append_assoc us]
              exact g2.next hn f1
            · intro t ht
              rcases List.mem_append.mp ht with ht | ht
              · rw [g3 t ht]; decide
              · exact f2 t ht
            · rw [g6]
              refine .comments g1 g3 ?_ f3
              rw [first o2 f0 f1 f1']
              exact g5
            · rw [← hee.2.2]; exact f4
            · rw [f5, hee.1]
            · rw [← hee.1]; exact f6
            · have : e.isNil = false := by
                rw [g6]
                unfold commentTree
                split <;> rfl
              rw [f7, this]
              simp
          · dsimp only at g1 g2 g3 g4 g5 g6
            obtain ⟨f0, us, ds', cs', rs, hfile, f7⟩ : q.cur = .EOF ∧ ∃ us ds' cs' rs,
                ((∃ vs ws, Span p (n' :: a :: ts ++ us ++ vs ++ [q.curTok]) q ∧ (vs = [] ∨ vs = [eof]) ∧ (∀ t ∈ us, t.tok ≠ .EOF) ∧
                  Lang (.entry x) ts (firstTok us eof) cs ∧ Behind eof ts us k ws ∧ Rules eof ws rs ds' cs') ∧
                  (∃ new, q.tasks = p1.tasks ++ new ∧ new.filterMap Task.check = cs') ∧
                  q.env.symbols = ds'.reverse ++ p1.env.symbols ∧ FreshFor ds' p1.env) ∧
                rules = (if e.isNil then acc else acc ++ [e]) ++ rs := by
              cases k with
              | none =>
                obtain ⟨b1, b2, b3⟩ := g1
                have o2 : On l0 p2 := (b1.on hp).next hn
                obtain ⟨f0, us, ds', cs', rs, ⟨⟨vs, f1, f1'⟩, f2, f3, f4, f5, f6⟩, f7⟩ := ih o2 hz hlp
                have hft := first o2 f0 f1 f1'
                rw [← hft] at b2 b3
                refine ⟨f0, us, ds', cs', rs, ⟨⟨vs, us, ?_, f1', f2, b2, .none b3, f3⟩, ?_, ?_, ?_⟩, f7⟩
                · have := b1.next hn f1
                  simpa using this
                · rw [← hs.2.2]; exact f4
                · rw [f5, hs.1]
                · rw [← hs.1]; exact f6
              | some kc =>
                obtain ⟨c, rfl, b1, b2, b3⟩ := g1
                have o1 : On l0 p1 := b1.on hp
                have o2 : On l0 p2 := o1.next hn
                have hcn : c.tok ≠ .EOF := by rw [b3.1]; decide
                by_cases het : p1.cur = .EOF
                · have hp1 : p1.curTok = eof := hE.cur o1 het
                  have h2c : p2.cur = .EOF := (next_cur hn).trans (hE.rest p1 o1 het)
                  have hstop : q = p2 ∧ rules = if e.isNil then acc else acc ++ [e] := by
                    cases m with
                    | zero => cases hlp
                    | succ m =>
                      rw [loopOut] at hlp
                      unfold fileStep at hlp
                      rw [if_pos h2c] at hlp
                      cases hlp
                      exact ⟨rfl, rfl⟩
                  obtain ⟨rfl, hrl⟩ := hstop
                  refine ⟨h2c, [c], [], [], [], ⟨⟨[eof], [], ?_, .inr rfl, by simpa using hcn, b2, .some b3, .nil⟩,
                    ⟨[], by simp [hs.2.2]⟩, by simp [hs.1], by simp [FreshFor]⟩, by simpa using hrl⟩
                  have := b1.next hn (.refl q)
                  rw [hp1] at this
                  simpa using this
                · obtain ⟨f0, us, ds', cs', rs, ⟨⟨vs, f1, f1'⟩, f2, f3, f4, f5, f6⟩, f7⟩ := ih o2 hz hlp
                  refine ⟨f0, c :: p1.curTok :: us, ds', cs', rs, ⟨⟨vs, us, ?_, f1', ?_, b2, .some (us := p1.curTok :: us) b3, f3⟩, ?_, ?_, ?_⟩, f7⟩
                  · have := b1.next hn f1
                    simpa using this
                  · intro t ht
                    rcases List.mem_cons.mp ht with rfl | ht
                    · exact hcn
                    · rcases List.mem_cons.mp ht with rfl | ht
                      · exact het
                      · exact f2 t ht
                  · rw [← hs.2.2]; exact f4
                  · rw [f5, hs.1]
                  · rw [← hs.1]; exact f6
            obtain ⟨⟨vs, ws, w1, w2, w3, w4, w5, w6⟩, ⟨new', f5, f6⟩, f8, f9⟩ := hfile
            refine ⟨f0, n' :: a :: ts ++ us, ds ++ ds', cs ++ cs', e :: rs, ⟨⟨vs, w1, w2⟩, ?_, ?_, ⟨new ++ new', ?_, ?_⟩, ?_, ?_⟩, ?_⟩
            · intro t ht
              rcases List.mem_append.mp ht with ht | ht
              · simp only [List.mem_cons] at ht
                rcases ht with rfl | rfl | ht
                · rw [g2]; decide
                · rcases g6 with ⟨h, _⟩ | ⟨h | h, _⟩ <;> rw [h] <;> decide
                · exact lang_inner w4 t ht
              · exact w3 t ht
            · rw [g3]
              rcases g6 with ⟨ha, rfl, _⟩ | ⟨ha, rfl, _⟩
              · exact .declare g2 ha w4 w5 w6
              · exact .extend g2 ha w4 w5 w6
            · rw [f5, ← List.append_assoc, ← g4]
            · rw [List.filterMap_append, g5, f6]
            · rw [f8]
              rcases g6 with ⟨_, rfl, _, g8⟩ | ⟨_, rfl, g8⟩
              · rw [g8]; simp
              · rw [g8]; rfl
            · rcases g6 with ⟨_, rfl, g7, g8⟩ | ⟨_, rfl, g8⟩
              · have hex : ∀ k, p1.env.exists? k = false → k ≠ n'.lit ∧ p.env.exists? k = false := by
                  intro k hk
                  unfold Env.exists? at hk ⊢
                  rw [g8, assocFind] at hk
                  split at hk
                  · cases hk
                  · rename_i hne
                    exact ⟨fun hh => hne hh.symm, hk⟩
                refine ⟨?_, ?_⟩
                · simp only [List.singleton_append, List.map_cons, List.nodup_cons]
                  refine ⟨fun hm => ?_, f9.1⟩
                  obtain ⟨d, hd, he⟩ := List.mem_map.mp hm
                  exact (hex _ (f9.2 d hd)).1 he
                · intro d hd
                  rcases List.mem_cons.mp hd with rfl | hd
                  · exact g7
                  · exact (hex _ (f9.2 d hd)).2
              · rw [g8] at f9
                exact f9
            · rw [f7, g3]
              simp [Node.isNil]

end Cddlc
