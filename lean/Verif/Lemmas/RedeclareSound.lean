import Verif.Lemmas.Redeclare
import Verif.Lemmas.ErrFile

/-! What is read without complaint, but that names are declared again, is a file of the grammar. -/

namespace Cddlc
open Spec PState
attribute [local instance] noMarks
variable [Unicode] {p q : PState} {n m : Nat} {l0 : Lexer}

/-- The diagnostic of a name that is declared again. -/
def again : Msg → Bool
  | .existing .. => true
  | _ => false

/-- From `p` to `q` there is a rule, with its comment; its name may be declared already. -/
def RuleA (p q : PState) (e : Node) (ds : List (Bytes × Node)) (cs : List Check) : Prop :=
  ∃ n a ts x k, Tailed p [n, a] ts q x cs k ∧ n.tok = .IDENT ∧
    e = .rule {} ⟨n.pos, n.lit⟩ x k ∧ (∃ new, q.tasks = p.tasks ++ new ∧ new.filterMap Task.check = cs) ∧
    (a.tok = .ASSIGN ∧ ds = [(n.lit, x)] ∧ p.env.exists? n.lit = false ∧ q.env.symbols = (n.lit, x) :: p.env.symbols ∧
        q.errors = p.errors ∨
     a.tok = .ASSIGN ∧ ds = [(n.lit, x)] ∧ p.env.exists? n.lit = true ∧ q.env = p.env ∧
        (∃ s, (p.env.get n.lit).start = .ok s ∧ q.errors = p.errors ++ [⟨.existing n.lit s.line s.column, n.pos, n.pos⟩]) ∨
     (a.tok = .TYPE_CHOICE_ASSIGN ∨ a.tok = .GROUP_CHOICE_ASSIGN) ∧ ds = [] ∧ q.env = p.env ∧ q.errors = p.errors)

theorem tailed_error {hd ts x cs k} (h : Tailed p hd ts q x cs k) (d : Diag) : Tailed p hd ts (q.addError d) x cs k := by
  cases k <;> exact h

theorem tells_again {l : Lexer} {d : Diag} (h : Tells l d) : again d.msg = false := by
  unfold Tells at h
  unfold again
  split at h <;> first | (rename_i hm; rw [hm]) | (split <;> simp_all)

theorem ruleStep_fails {l : Lexer} {e d} (hp : Sound l p) (he : p.cur ≠ .EOF) (h : RuleStep p e (some d) q) : again d.msg = false := by
  cases h with
  | @failed p1 p2 q n prec y d _ h1 _ h2 hprec hpe =>
    have hE := parseEntry_err (l := l) n prec p2 hprec ((hp.1.next h1).next h2) _ hpe
    exact tells_again (hE.2.1 _ rfl).2.2
  | noAssign => rfl
  | noIdent => rfl

theorem parseRule_again (hl : Spells l0) (hp : On l0 p) :
    (parseRule n p).wp (fun r => r.2.1 = none →
      CommentsD p r.2.2 r.1 ∨ ∃ ds cs, RuleA p r.2.2 r.1 ds cs) := by
  unfold parseRule
  split
  · rename_i h
    exact (parseComment_lang h).mono fun r hr _ => .inl hr.2
  · rename_i hc
    refine Out.wp_bind.mpr ?_
    intro p1 h1
    have o1 := hp.next h1
    dsimp only
    split
    · rename_i ha
      refine Out.wp_bind.mpr ((nextEntry_lang (parseEntry_lang hl n) o1).mono ?_)
      rintro ⟨x, e, p3⟩ h
      dsimp only at h ⊢
      split
      · simp
      · obtain ⟨p2, h2, ws, cs, g1, g2, g3, -⟩ := h rfl
        have hsp : Span p ([p.curTok, p1.curTok] ++ ws) p3 := (Span.refl p).next h1 ((Span.refl p1).next h2 g1)
        refine Out.wp_bind.mpr ((trailing_lang hsp g1 g2).mono ?_)
        rintro ⟨k, p4⟩ ⟨t1, t2⟩
        dsimp only at t1 t2 ⊢
        obtain ⟨e1, e2, new, e3, e4⟩ := ((same_next h1).then ((same_next h2).then g3)).same t2
        refine Out.wp_bind.mpr ?_
        intro p5 h5
        refine Out.wp_ok.mpr fun _ => .inr ?_
        unfold declare Env.add at h5
        cases hex : p4.env.exists? p.lit with
        | true =>
          simp only [hex] at h5
          obtain ⟨s, hs, h5⟩ := Out.bind_eq_ok.mp h5
          cases h5
          refine ⟨[(p.lit, x)], cs, p.curTok, p1.curTok, ws, x, k, tailed_error t1 _, hc, rfl, ⟨new, e3, e4⟩,
            .inr (.inl ⟨ha, rfl, by rw [← e1]; exact hex, e1, s, by rw [← e1]; exact hs, ?_⟩)⟩
          show p4.errors ++ _ = _
          rw [e2]
          rfl
        | false =>
          simp only [hex] at h5
          cases h5
          refine ⟨[(p.lit, x)], cs, p.curTok, p1.curTok, ws, x, k, tailed_env t1 _, hc, rfl, ⟨new, e3, e4⟩,
            .inl ⟨ha, rfl, by rw [← e1]; exact hex, by show (p.lit, x) :: p4.env.symbols = _; rw [e1]; rfl, e2⟩⟩
    all_goals first
      | (rename_i ha
         refine Out.wp_bind.mpr ?_
         intro p2 h2
         refine Out.wp_bind.mpr ((parseEntry_lang hl n 0 p2 (o1.next h2) (Nat.zero_le _)).mono ?_)
         rintro ⟨x, e, p3⟩ h
         dsimp only at h ⊢
         split
         · simp
         · obtain ⟨ws, cs, g1, g2, g3, -⟩ := h rfl
           have hsp : Span p ([p.curTok, p1.curTok] ++ ws) p3 := (Span.refl p).next h1 ((Span.refl p1).next h2 g1)
           refine Out.wp_bind.mpr ((trailing_lang hsp g1 g2).mono ?_)
           rintro ⟨k, p4⟩ ⟨t1, t2⟩
           dsimp only at t1 t2 ⊢
           obtain ⟨e1, e2, new, e3, e4⟩ := ((same_next h1).then ((same_next h2).then g3)).same t2
           refine Out.wp_ok.mpr fun _ => .inr ?_
           exact ⟨[], cs, p.curTok, p1.curTok, ws, x, k, t1, hc, rfl, ⟨new, e3, e4⟩,
             .inr (.inr ⟨by first | exact .inl ha | exact .inr ha, rfl, e1, e2⟩)⟩)
      | exact Out.wp_ok.mpr nofun
  · exact Out.wp_ok.mpr nofun

/-- What the rules behind one more rule are, and what names they declare again. -/
def FileA (eof : Token) (p q : PState) (seen : List (Bytes × Node)) (us : List Token) (rs : List Node) (ds : List (Bytes × Node))
    (cs : List Check) : Prop :=
  (∃ vs, Span p (us ++ vs ++ [q.curTok]) q ∧ (vs = [] ∨ vs = [eof])) ∧ (∀ t ∈ us, t.tok ≠ .EOF) ∧ Rules eof us rs ds cs ∧
    (∃ new, q.tasks = p.tasks ++ new ∧ new.filterMap Task.check = cs) ∧
    (∃ errs, q.errors = p.errors ++ errs ∧ errs.map (noPosMsg ·.msg) = (repeats seen ds).map (Msg.existing ·.1 0 0)) ∧
    (∀ d ∈ repeats seen ds, ∃ pos, d.2.start = .ok pos) ∧ Binds q.env (seen ++ ds)

theorem loop_again {eof} (hl : Spells l0) (hE : LastTok l0 eof) (m : Nat) {acc rules : List Node} (hp : On l0 p) (hS : Sound l0 p) {seen} (hB : Binds p.env seen)
    (h : loopOut (fileStep n) m (acc, p) = .ok (rules, q)) (hq : ∀ d ∈ q.errors, again d.msg = true) :
    q.cur = .EOF ∧ ∃ us ds cs rs, FileA eof p q seen us rs ds cs ∧ rules = acc ++ rs := by
  induction m generalizing acc p seen with
  | zero => cases h
  | succ m ih =>
    rw [loopOut] at h
    unfold fileStep at h
    by_cases he : p.cur = .EOF
    · rw [if_pos he] at h
      cases h
      exact ⟨he, [], [], [], [], ⟨⟨[], .refl _, .inl rfl⟩, nofun, .nil, ⟨[], by simp⟩, ⟨[], by simp [repeats]⟩, by simp [repeats], by simpa using hB⟩, by simp⟩
    · rw [if_neg he] at h
      cases hr : parseRule n p with
      | panic w => rw [hr] at h; cases h
      | hang => rw [hr] at h; cases h
      | ok v =>
        obtain ⟨e, err, p1⟩ := v
        have hst := parseRule_step _ hr
        rw [hr] at h
        dsimp only [Out.bind_def, Out.bind] at h
        obtain ⟨p2, hn, hlp⟩ : ∃ p2, (p1.record err).next = .ok p2 ∧
            loopOut (fileStep n) m (if e.isNil then acc else acc ++ [e], p2) = .ok (rules, q) := by
          cases err with
          | none =>
            dsimp only at h
            cases hn : p1.next with
            | panic w => rw [hn] at h; cases h
            | hang => rw [hn] at h; cases h
            | ok p2 => rw [hn] at h; exact ⟨p2, hn, h⟩
          | some d =>
            dsimp only at h
            cases hn : (p1.addError d).next with
            | panic w => rw [hn] at h; cases h
            | hang => rw [hn] at h; cases h
            | ok p2 => rw [hn] at h; exact ⟨p2, hn, h⟩
        obtain ⟨rest, hrun, _⟩ := fileLoop_run m _ p2 _ hlp
        have hz := run_errors hrun
        have hS2 : Sound l0 p2 := (ruleStep_sound hS he hst).next hn
        cases err with
        | some d =>
          obtain ⟨k1, -⟩ := round_errors hst hn
          have := hq d (hz.subset (by rw [k1]; simp))
          rw [ruleStep_fails hS he hst] at this
          cases this
        | none =>
          have hn : p1.next = .ok p2 := hn
          have hs := same_next hn
          have first : ∀ {us vs : List Token}, On l0 p2 → q.cur = .EOF → Span p2 (us ++ vs ++ [q.curTok]) q → vs = [] ∨ vs = [eof] →
              firstTok us eof = p1.peekTok := by
            intro us vs o h1 h2 h3
            have hqe : q.curTok = eof := hE.cur (h2.on o) h1
            obtain ⟨ws, hw⟩ := h2.head
            rw [curTok_next hn] at hw
            cases us with
            | cons t us => exact (List.cons.inj hw).1
            | nil =>
              rcases h3 with rfl | rfl
              · rw [← hqe]; exact (List.cons.inj hw).1
              · exact (List.cons.inj hw).1
          rcases parseRule_again hl hp _ hr rfl with ⟨gs, g1, g2, g3, g4, g5, g6⟩ | ⟨ds, cs, n', a, ts, x, k, g1, g2, g3, ⟨new, g4, g5⟩, g6⟩
          · dsimp only at g2 g4 g5 g6
            have o2 : On l0 p2 := (g2.on hp).next hn
            have hee := g4.trans hs
            obtain ⟨f0, us, ds', cs', rs, ⟨⟨vs, f1, f1'⟩, f2, f3, f4, f5, f6⟩, f7⟩ := ih o2 hS2 (by rw [hee.1]; exact hB) hlp
            refine ⟨f0, gs ++ us, ds', cs', e :: rs, ⟨⟨vs, ?_, f1'⟩, ?_, ?_, ?_, ?_, f6⟩, ?_⟩
            · rw [List.append_assoc, List.append_assoc, ← List.append_assoc us]
              exact g2.next hn f1
            · intro t ht
              rcases List.mem_append.mp ht with ht | ht
              · rw [g3 t ht]; decide
              · exact f2 t ht
            · rw [g6]
              refine .comments g1 g3 ?_ f3
              rw [first o2 f0 f1 f1']
              exact g5
            · rw [← hee.2.2]; exact f4
            · rw [← hee.2.1]; exact f5
            · have : e.isNil = false := by
                rw [g6]
                unfold commentTree
                split <;> rfl
              rw [f7, this]
              simp
          · dsimp only at g1 g2 g3 g4 g5 g6
            obtain ⟨rep, errs, a1, a2, a3, a4, a5⟩ : ∃ (rep : List (Bytes × Node)) (errs : List Diag), p1.errors = p.errors ++ errs ∧
                errs.map (noPosMsg ·.msg) = rep.map (Msg.existing ·.1 0 0) ∧ (∀ d ∈ rep, ∃ pos, d.2.start = .ok pos) ∧
                Binds p1.env (seen ++ ds) ∧ ∀ ds', repeats seen (ds ++ ds') = rep ++ repeats (seen ++ ds) ds' := by
              rcases g6 with ⟨_, rfl, i1, i2, i3⟩ | ⟨_, rfl, i1, i2, s, i3, i4⟩ | ⟨_, rfl, i1, i2⟩
              · have hf : seen.find? (·.1 = n'.lit) = none := by
                  rw [hB.exists] at i1
                  simpa using i1
                refine ⟨[], [], by simpa using i3, rfl, nofun, ?_, by simp [repeats, hf]⟩
                have := hB.fresh hf x
                rw [← i2] at this
                exact this
              · have hf : ∃ b, seen.find? (·.1 = n'.lit) = some b := by
                  rw [hB.exists] at i1
                  exact Option.isSome_iff_exists.mp i1
                obtain ⟨b, hf⟩ := hf
                have hg : p.env.get n'.lit = b.2 := by
                  unfold Env.get
                  rw [hB, hf]
                  rfl
                rw [hg] at i3
                refine ⟨[(n'.lit, b.2)], _, i4, rfl, by simp [i3], ?_, by simp [repeats, hf]⟩
                rw [i2]
                exact hB.old hf x
              · exact ⟨[], [], by simpa using i2, rfl, nofun, by rw [i1]; simpa using hB, by simp⟩
            obtain ⟨f0, us, ds', cs', rs, hfile, f7⟩ : q.cur = .EOF ∧ ∃ us ds' cs' rs,
                ((∃ vs ws, Span p (n' :: a :: ts ++ us ++ vs ++ [q.curTok]) q ∧ (vs = [] ∨ vs = [eof]) ∧ (∀ t ∈ us, t.tok ≠ .EOF) ∧
                  Lang (.entry x) ts (firstTok us eof) cs ∧ Behind eof ts us k ws ∧ Rules eof ws rs ds' cs') ∧
                  (∃ new, q.tasks = p1.tasks ++ new ∧ new.filterMap Task.check = cs') ∧
                  (∃ errs, q.errors = p1.errors ++ errs ∧ errs.map (noPosMsg ·.msg) = (repeats (seen ++ ds) ds').map (Msg.existing ·.1 0 0)) ∧
                  (∀ d ∈ repeats (seen ++ ds) ds', ∃ pos, d.2.start = .ok pos) ∧ Binds q.env (seen ++ ds ++ ds')) ∧
                rules = (if e.isNil then acc else acc ++ [e]) ++ rs := by
              have hB2 : Binds p2.env (seen ++ ds) := by rw [hs.1]; exact a4
              cases k with
              | none =>
                obtain ⟨b1, b2, b3⟩ := g1
                have o2 : On l0 p2 := (b1.on hp).next hn
                obtain ⟨f0, us, ds', cs', rs, ⟨⟨vs, f1, f1'⟩, f2, f3, f4, f5, f6⟩, f7⟩ := ih o2 hS2 hB2 hlp
                have hft := first o2 f0 f1 f1'
                rw [← hft] at b2 b3
                refine ⟨f0, us, ds', cs', rs, ⟨⟨vs, us, ?_, f1', f2, b2, .none b3, f3⟩, ?_, ?_, f6⟩, f7⟩
                · have := b1.next hn f1
                  simpa using this
                · rw [← hs.2.2]; exact f4
                · rw [← hs.2.1]; exact f5
              | some kc =>
                obtain ⟨c, rfl, b1, b2, b3⟩ := g1
                have o1 : On l0 p1 := b1.on hp
                have o2 : On l0 p2 := o1.next hn
                have hcn : c.tok ≠ .EOF := by rw [b3.1]; decide
                by_cases het : p1.cur = .EOF
                · have hp1 : p1.curTok = eof := hE.cur o1 het
                  have h2c : p2.cur = .EOF := (next_cur hn).trans (hE.rest p1 o1 het)
                  have hstop : q = p2 ∧ rules = if e.isNil then acc else acc ++ [e] := by
                    cases m with
                    | zero => cases hlp
                    | succ m =>
                      rw [loopOut] at hlp
                      unfold fileStep at hlp
                      rw [if_pos h2c] at hlp
                      cases hlp
                      exact ⟨rfl, rfl⟩
                  obtain ⟨rfl, hrl⟩ := hstop
                  refine ⟨h2c, [c], [], [], [], ⟨⟨[eof], [], ?_, .inr rfl, by simpa using hcn, b2, .some b3, .nil⟩,
                    ⟨[], by simp [hs.2.2]⟩, ⟨[], by simp [hs.2.1, repeats]⟩, nofun, by simpa using hB2⟩, by simpa using hrl⟩
                  have := b1.next hn (.refl q)
                  rw [hp1] at this
                  simpa using this
                · obtain ⟨f0, us, ds', cs', rs, ⟨⟨vs, f1, f1'⟩, f2, f3, f4, f5, f6⟩, f7⟩ := ih o2 hS2 hB2 hlp
                  refine ⟨f0, c :: p1.curTok :: us, ds', cs', rs, ⟨⟨vs, us, ?_, f1', ?_, b2, .some (us := p1.curTok :: us) b3, f3⟩, ?_, ?_, f6⟩, f7⟩
                  · have := b1.next hn f1
                    simpa using this
                  · intro t ht
                    rcases List.mem_cons.mp ht with rfl | ht
                    · exact hcn
                    · rcases List.mem_cons.mp ht with rfl | ht
                      · exact het
                      · exact f2 t ht
                  · rw [← hs.2.2]; exact f4
                  · rw [← hs.2.1]; exact f5
            obtain ⟨⟨vs, ws, w1, w2, w3, w4, w5, w6⟩, ⟨new', f5, f6⟩, ⟨errs', f8, f8'⟩, f9, f10⟩ := hfile
            refine ⟨f0, n' :: a :: ts ++ us, ds ++ ds', cs ++ cs', e :: rs, ⟨⟨vs, w1, w2⟩, ?_, ?_, ⟨new ++ new', ?_, ?_⟩,
              ⟨errs ++ errs', ?_, ?_⟩, ?_, ?_⟩, ?_⟩
            · intro t ht
              rcases List.mem_append.mp ht with ht | ht
              · simp only [List.mem_cons] at ht
                rcases ht with rfl | rfl | ht
                · rw [g2]; decide
                · rcases g6 with ⟨h, _⟩ | ⟨h, _⟩ | ⟨h | h, _⟩ <;> rw [h] <;> decide
                · exact lang_inner w4 t ht
              · exact w3 t ht
            · rw [g3]
              rcases g6 with ⟨ha, rfl, _⟩ | ⟨ha, rfl, _⟩ | ⟨ha, rfl, _⟩
              · exact .declare g2 ha w4 w5 w6
              · exact .declare g2 ha w4 w5 w6
              · exact .extend g2 ha w4 w5 w6
            · rw [f5, ← List.append_assoc, ← g4]
            · rw [List.filterMap_append, g5, f6]
            · rw [f8, a1, List.append_assoc]
            · simp only [a5, List.map_append, a2, f8']
            · rw [a5]
              intro d hd
              rcases List.mem_append.mp hd with hd | hd
              · exact a3 d hd
              · exact f9 d hd
            · rw [← List.append_assoc]; exact f10
            · rw [f7, g3]
              simp [Node.isNil]

end Cddlc
