import Verif.Lemmas.Tree
import Verif.Props.Lexer

/-! Consequences of a run of `ParseFile`: which names get bound, what is reported, and where the
rules stand. -/

namespace Cddlc
open Spec
variable [Unicode]

/-! ### Tokens of a clean source are where they are -/

theorem scans_det {l l1 l2 : Lexer} {us vs} (h : Scans l us l1) (h' : Scans l vs l2)
    (hl : us.length ≤ vs.length) : us <+: vs := by
  induction h generalizing vs with
  | nil => exact List.nil_prefix
  | cons h1 _ ih =>
    cases h' with
    | nil => simp at hl
    | cons h2 h3 =>
      rw [h1] at h2
      cases h2
      exact List.cons_prefix_cons.mpr ⟨rfl, ih h3 (by simpa using hl)⟩

/-- A token read earlier stands earlier. -/
theorem offset_lt {src : Bytes} (hc : Clean src) {ts us l1 l2} {a b : Token}
    (h1 : Scans (Lexer.new src) (ts ++ [a]) l1) (h2 : Scans (Lexer.new src) (us ++ [b]) l2)
    (hl : ts.length < us.length) (ha : a.tok ≠ .EOF) (hb : b.tok ≠ .EOF) :
    a.pos.offset < b.pos.offset := by
  have hp : ts ++ [a] <+: us := by
    have := scans_det h1 h2 (by simp; omega)
    exact List.prefix_of_prefix_length_le this (List.prefix_append _ _) (by simp; omega)
  obtain ⟨ws, rfl⟩ := hp
  have hpw := (C13_offsets hc h2).1
  rw [List.append_assoc, List.append_assoc, List.filter_append, List.pairwise_append] at hpw
  have := hpw.2.1
  rw [List.filter_append, List.pairwise_append] at this
  refine this.2.2 a (by simp [ha]) b (by simp [hb])

theorem tkThen_unique {src : Bytes} (hc : Clean src) {i j : Ident} {s t : Tok}
    (h : TkThen (Lexer.new src) i s) (h' : TkThen (Lexer.new src) j t) (hij : i.pos = j.pos) : s = t := by
  obtain ⟨ts, a, l1, h1, rfl⟩ := h
  obtain ⟨us, b, l2, h2, rfl⟩ := h'
  have split : ∀ {ts a b l}, Scans (Lexer.new src) (ts ++ [a, b]) l → ∃ m, Scans (Lexer.new src) (ts ++ [a]) m := by
    intro ts a b l h
    have : Scans (Lexer.new src) ((ts ++ [a]) ++ [b]) l := by simpa using h
    obtain ⟨m, hm, _⟩ := scans_split this
    exact ⟨m, hm⟩
  obtain ⟨m1, g1⟩ := split h1
  obtain ⟨m2, g2⟩ := split h2
  rcases Nat.lt_trichotomy ts.length us.length with hlt | heq | hgt
  · have := offset_lt hc g1 g2 hlt (by simp) (by simp)
    dsimp only at this
    rw [hij] at this; omega
  · have h3 := (scans_det h1 h2 (by simp [heq])).eq_of_length (by simp [heq])
    have := List.append_inj h3 heq
    simp only [List.cons.injEq] at this
    rw [this.2.2.1]
  · have := offset_lt hc g2 g1 hgt (by simp) (by simp)
    dsimp only at this
    rw [hij] at this; omega

theorem on_tkThen {l0} {p q : PState} (h : On l0 p) (hn : p.next = .ok q) (hc : p.cur = .IDENT) :
    TkThen l0 ⟨p.pos, p.lit⟩ q.cur := by
  obtain ⟨ts, h⟩ := h
  refine ⟨ts, p.peekTok, p.lx, ?_, (next_cur hn).symm⟩
  unfold Synced at h
  simpa [PState.curTok, hc] using h

/-! ### Trees only come from clean sources -/

theorem on_clean {src : Bytes} {p : PState} (h : On (Lexer.new src) p) (he : p.cur = .EOF) : Clean src := by
  refine Classical.byContradiction fun hc => ?_
  obtain ⟨ts, l', h⟩ := h.tk
  exact C02_malformed_no_eof hc h _ (List.mem_append_right _ (List.mem_singleton.mpr rfl)) he

theorem round_on {l0} {p q r : PState} {e err} (hp : On l0 p) (h : RuleStep p e err q)
    (hn : (q.record err).next = .ok r) : On l0 r := by
  obtain ⟨ts, hp⟩ := hp
  obtain ⟨_, ext, _, h⟩ := PState.round_reach hp h hn
  exact ⟨_, h⟩

theorem run_end {l0} {p q : PState} {rules} (h : FileRun p rules q) (hp : On l0 p) :
    On l0 q ∧ q.cur = .EOF := by
  induction h with
  | stop h => exact ⟨hp, h⟩
  | step _ hst hn _ ih => exact ih (round_on hp hst hn)

/-! ### Rules and their values -/

theorem comments_tk {l0} {p q : PState} {cs} (h : Comments p cs q) (hp : On l0 p) :
    ∀ c ∈ cs, Tk l0 ⟨.COMMENT, c.pos, c.text⟩ := by
  induction h with
  | stop => simp
  | more hpk hn _ ih =>
    have hq := hp.next hn
    have hk := hq.tk
    rw [next_cur hn, hpk] at hk
    intro c hc
    rcases List.mem_cons.mp hc with rfl | hc
    · exact hk
    · exact ih hq c hc

/-- What can stand in the list of rules. -/
def RuleNode (l0 : Lexer) (tasks : List Task) (e : Node) : Prop :=
  (∃ cs, cs ≠ [] ∧ e = PState.commentNode cs ∧ ∀ c ∈ cs, Tk l0 ⟨.COMMENT, c.pos, c.text⟩) ∨
  (∃ name v tc a, e = .rule {} name v tc ∧ TkThen l0 name a ∧
    (a = .ASSIGN ∨ a = .TYPE_CHOICE_ASSIGN ∨ a = .GROUP_CHOICE_ASSIGN) ∧
    (∀ c ∈ tc, Tk l0 ⟨.COMMENT, c.pos, c.text⟩) ∧ (v = .nil ∨ Good l0 tasks v))

theorem ruleTrail_tk {l0} {p q : PState} {t} (hp : On l0 p) (h : RuleTrail p t q) :
    ∀ c ∈ t, Tk l0 ⟨.COMMENT, c.pos, c.text⟩ := by
  cases h with
  | none => simp
  | some hpk _ hn _ =>
    have hk := (hp.next hn).tk
    rw [next_cur hn, hpk] at hk
    simpa using hk

theorem ruleStep_node {l0} {p q : PState} {e err} (hp : On l0 p) (h : RuleStep p e err q) :
    e.isNil = true ∨ RuleNode l0 q.tasks e := by
  cases h with
  | comment hc h =>
    refine Or.inr (Or.inl ⟨_, by simp, rfl, ?_⟩)
    have hk := hp.tk
    rw [hc] at hk
    intro c hc'
    rcases List.mem_cons.mp hc' with rfl | hc'
    · exact hk
    · exact comments_tk h hp c hc'
  | bound hc h1 ha h2 hd ht hadd =>
    have hg := (der_good hd ((hp.next h1).next h2) _ (List.mem_singleton.mpr rfl)).reach (ruleTrail_reach ht)
    exact Or.inr (Or.inr ⟨_, _, _, _, rfl, on_tkThen hp h1 hc, Or.inl ha,
      ruleTrail_tk (((hp.next h1).next h2).reach (der_reach hd)) ht, Or.inr hg⟩)
  | dup hc h1 ha h2 hd ht hadd =>
    have hg := (der_good hd ((hp.next h1).next h2) _ (List.mem_singleton.mpr rfl)).reach (ruleTrail_reach ht)
    exact Or.inr (Or.inr ⟨_, _, _, _, rfl, on_tkThen hp h1 hc, Or.inl ha,
      ruleTrail_tk (((hp.next h1).next h2).reach (der_reach hd)) ht, Or.inr hg⟩)
  | choice hc h1 ha h2 hd ht =>
    have hg := der_good hd ((hp.next h1).next h2) _ (List.mem_singleton.mpr rfl)
    exact Or.inr (Or.inr ⟨_, _, _, _, rfl, on_tkThen hp h1 hc, Or.inr ha,
      ruleTrail_tk (((hp.next h1).next h2).reach (der_reach hd)) ht, Or.inr (hg.reach (ruleTrail_reach ht))⟩)
  | failed hc h1 ha => exact Or.inr (Or.inr ⟨_, _, _, _, rfl, on_tkThen hp h1 hc, ha, nofun, Or.inl rfl⟩)
  | noAssign => exact Or.inl rfl
  | noIdent => exact Or.inl rfl

theorem RuleNode.mono {l0 tasks tasks' e} (h : RuleNode l0 tasks e) (ht : tasks <+: tasks') :
    RuleNode l0 tasks' e := by
  rcases h with h | ⟨name, v, tc, a, h1, h2, h3, h5, h4⟩
  · exact Or.inl h
  · exact Or.inr ⟨name, v, tc, a, h1, h2, h3, h5, h4.imp id (·.mono ht)⟩

theorem run_nodes {l0} {p q : PState} {rules} (h : FileRun p rules q) (hp : On l0 p) :
    ∀ e ∈ rules, RuleNode l0 q.tasks e := by
  induction h with
  | stop => simp
  | @step p q r s e err rules _ hst hn hrun ih =>
    intro e' he
    rcases List.mem_append.mp he with he | he
    · split at he
      · cases he
      · rename_i hnil
        rw [List.mem_singleton] at he
        subst he
        rcases ruleStep_node hp hst with h | h
        · exact absurd h hnil
        · refine h.mono (List.IsPrefix.trans ?_ (PState.run_tasks hrun))
          rw [(next_fields hn).2.2.2.2.1, (PState.record_fields q err).1]
          exact List.prefix_refl _
    · exact ih (round_on hp hst hn) e' he

/-! ### Which names are bound -/

theorem ruleStep_env {src : Bytes} (hc : Clean src) {p q : PState} {e err}
    (hp : On (Lexer.new src) p) (h : RuleStep p e err q) :
    (∃ k v, Declares (Lexer.new src) e k v ∧
      ((p.env.exists? k = false ∧ q.env = ⟨(k, v) :: p.env.symbols⟩) ∨
       (p.env.exists? k = true ∧ q.env = p.env ∧ ∃ s, (p.env.get k).start = .ok s ∧
          ∃ d ∈ q.errors, e.start = .ok d.start ∧ d.msg = .existing k s.line s.column))) ∨
    ((∀ k v, ¬ Declares (Lexer.new src) e k v) ∧ q.env = p.env) := by
  cases h with
  | comment _ h =>
    refine Or.inr ⟨?_, (comments_reach h).frame.1⟩
    rintro k v ⟨pos, tc, he, _⟩
    unfold PState.commentNode at he
    split at he <;> cases he
  | @bound p1 p2 p3 p4 x tc env hcur h1 ha h2 hd ht hadd =>
    have hr := (Reach.step h1 (.step h2 ((der_reach hd).trans (ruleTrail_reach ht)))).frame
    have hg := (der_good hd ((hp.next h1).next h2) _ (List.mem_singleton.mpr rfl)).1
    have hthen := on_tkThen hp h1 hcur
    rw [ha] at hthen
    refine Or.inl ⟨p.lit, x, ⟨_, _, rfl, hg, hthen⟩, Or.inl ?_⟩
    rw [hr.1] at hadd
    unfold Env.add at hadd
    split at hadd
    · cases hadd
    · rename_i hex; cases hadd; exact ⟨by simpa using hex, rfl⟩
  | @dup p1 p2 p3 p4 x tc env s hcur h1 ha h2 hd ht hadd hs =>
    have hr := (Reach.step h1 (.step h2 ((der_reach hd).trans (ruleTrail_reach ht)))).frame
    have hg := (der_good hd ((hp.next h1).next h2) _ (List.mem_singleton.mpr rfl)).1
    have hthen := on_tkThen hp h1 hcur
    rw [ha] at hthen
    refine Or.inl ⟨p.lit, x, ⟨_, _, rfl, hg, hthen⟩, Or.inr ?_⟩
    rw [hr.1] at hadd hs
    unfold Env.add at hadd
    split at hadd
    · rename_i hex
      exact ⟨hex, hr.1, s, hs, _, by simp [PState.addError]; exact Or.inr rfl, rfl, rfl⟩
    · cases hadd
  | @choice p1 p2 p3 p4 x tc hcur h1 ha h2 hd ht =>
    have hr := (Reach.step h1 (.step h2 ((der_reach hd).trans (ruleTrail_reach ht)))).frame
    refine Or.inr ⟨?_, hr.1⟩
    rintro k v ⟨pos, tc, he, _, h⟩
    cases he
    have := tkThen_unique hc h (on_tkThen hp h1 hcur) rfl
    rcases ha with ha | ha <;> rw [ha] at this <;> cases this
  | failed hcur h1 ha h2 _ hp' =>
    refine Or.inr ⟨?_, (Reach.step h1 (.step h2 (PState.parseEntry_reach _ _ _ _ hp'))).frame.1⟩
    rintro k v ⟨pos, tc, he, hv, _⟩
    cases he; cases hv
  | noAssign _ h1 =>
    refine Or.inr ⟨?_, (next_fields h1).2.2.2.1⟩
    rintro k v ⟨pos, tc, he, hv, _⟩
    cases he
  | noIdent =>
    refine Or.inr ⟨?_, rfl⟩
    rintro k v ⟨pos, tc, he, hv, _⟩
    cases he

theorem declares_name {l0 e k k' v v'} (h : Declares l0 e k v) (h' : Declares l0 e k' v') : k = k' ∧ v = v' := by
  obtain ⟨pos, tc, rfl, _⟩ := h
  obtain ⟨pos', tc', he, _⟩ := h'
  cases he; exact ⟨rfl, rfl⟩

theorem declares_not_nil {l0 e k v} (h : Declares l0 e k v) : e.isNil = false := by
  obtain ⟨pos, tc, rfl, _⟩ := h; rfl

theorem run_env {src : Bytes} {p q : PState} {rules} (h : FileRun p rules q)
    (hp : On (Lexer.new src) p) (k : Bytes) :
    (∃ v, assocFind k p.env.symbols = some v ∧ assocFind k q.env.symbols = some v) ∨
    (assocFind k p.env.symbols = none ∧
      ((∃ v, FirstDecl (Lexer.new src) rules k v ∧ assocFind k q.env.symbols = some v) ∨
       ((∀ e ∈ rules, ∀ v, ¬ Declares (Lexer.new src) e k v) ∧ assocFind k q.env.symbols = none))) := by
  have hc : Clean src := on_clean (run_end h hp).1 (run_end h hp).2
  induction h with
  | @stop p h =>
    cases hf : assocFind k p.env.symbols with
    | some v => exact Or.inl ⟨v, rfl, rfl⟩
    | none => exact Or.inr ⟨rfl, Or.inr ⟨by simp, rfl⟩⟩
  | @step p q r s e err rules _ hst hn hrun ih =>
    have ih := ih (round_on hp hst hn)
    have henv : r.env = q.env := (next_fields hn).2.2.2.1.trans (PState.record_fields q err).2.2.2.2.1
    rw [henv] at ih
    rcases ruleStep_env hc hp hst with ⟨k', v', hdecl, hcase⟩ | ⟨hno, heq⟩
    · have hnn := declares_not_nil hdecl
      simp only [hnn, Bool.false_eq_true, if_false]
      rcases hcase with ⟨hex, heq⟩ | ⟨hex, heq, s', hs, _⟩
      · by_cases hk : k' = k
        · subst hk
          rw [heq] at ih
          simp only [assocFind, if_pos] at ih
          have hnone : assocFind k' p.env.symbols = none := by
            unfold Env.exists? at hex
            cases hf : assocFind k' p.env.symbols with
            | none => rfl
            | some v => rw [hf] at hex; cases hex
          refine Or.inr ⟨hnone, Or.inl ⟨v', ⟨[], e, rules, rfl, hdecl, by simp⟩, ?_⟩⟩
          rcases ih with ⟨v, h1, h2⟩ | ⟨h1, _⟩
          · simp only [Option.some.injEq] at h1; rw [h1]; exact h2
          · simp at h1
        · have hq : assocFind k q.env.symbols = assocFind k p.env.symbols := by
            rw [heq]; simp [assocFind, hk]
          rw [hq] at ih
          rcases ih with ih | ⟨h1, ⟨v, ⟨pre, e2, post, h2, h3, h4⟩, h5⟩ | ⟨h2, h3⟩⟩
          · exact Or.inl ih
          · refine Or.inr ⟨h1, Or.inl ⟨v, ⟨e :: pre, e2, post, by simp [h2], h3, ?_⟩, h5⟩⟩
            intro e' he' v2 hd2
            rcases List.mem_cons.mp he' with rfl | he'
            · exact hk (declares_name hdecl hd2).1
            · exact h4 e' he' v2 hd2
          · refine Or.inr ⟨h1, Or.inr ⟨?_, h3⟩⟩
            intro e' he' v2 hd2
            rcases List.mem_cons.mp he' with rfl | he'
            · exact hk (declares_name hdecl hd2).1
            · exact h2 e' he' v2 hd2
      · rw [heq] at ih
        rcases ih with ih | ⟨h1, ih⟩
        · exact Or.inl ih
        · have hk : k' ≠ k := by
            rintro rfl
            unfold Env.exists? at hex
            rw [h1] at hex; cases hex
          rcases ih with ⟨v, ⟨pre, e2, post, h2, h3, h4⟩, h5⟩ | ⟨h2, h3⟩
          · refine Or.inr ⟨h1, Or.inl ⟨v, ⟨e :: pre, e2, post, by simp [h2], h3, ?_⟩, h5⟩⟩
            intro e' he' v2 hd2
            rcases List.mem_cons.mp he' with rfl | he'
            · exact hk (declares_name hdecl hd2).1
            · exact h4 e' he' v2 hd2
          · refine Or.inr ⟨h1, Or.inr ⟨?_, h3⟩⟩
            intro e' he' v2 hd2
            rcases List.mem_cons.mp he' with rfl | he'
            · exact hk (declares_name hdecl hd2).1
            · exact h2 e' he' v2 hd2
    · rw [heq] at ih
      have hpre : ∀ e' ∈ (if e.isNil = true then [] else [e] : List Node), ∀ v,
          ¬ Declares (Lexer.new src) e' k v := by
        intro e' he' v
        split at he'
        · cases he'
        · rw [List.mem_singleton] at he'; subst he'; exact hno k v
      rcases ih with ih | ⟨h1, ⟨v, ⟨pre, e2, post, h2, h3, h4⟩, h5⟩ | ⟨h2, h3⟩⟩
      · exact Or.inl ih
      · refine Or.inr ⟨h1, Or.inl ⟨v, ⟨(if e.isNil = true then [] else [e]) ++ pre, e2, post,
          by simp [h2], h3, ?_⟩, h5⟩⟩
        intro e' he' v2 hd2
        rcases List.mem_append.mp he' with he' | he'
        · exact hpre e' he' v2 hd2
        · exact h4 e' he' v2 hd2
      · refine Or.inr ⟨h1, Or.inr ⟨?_, h3⟩⟩
        intro e' he' v2 hd2
        rcases List.mem_append.mp he' with he' | he'
        · exact hpre e' he' v2 hd2
        · exact h2 e' he' v2 hd2

/-! ### Errors are only appended -/

theorem ruleStep_errors {p q : PState} {e err} (h : RuleStep p e err q) : p.errors <+: q.errors := by
  cases h with
  | comment _ h => rw [(comments_reach h).frame.2.1]; exact List.prefix_refl _
  | @bound p1 p2 p3 p4 x tc env _ h1 _ h2 hd ht _ =>
    have := (Reach.step h1 (.step h2 ((der_reach hd).trans (ruleTrail_reach ht)))).frame.2.1
    show p.errors <+: p4.errors
    rw [this]; exact List.prefix_refl _
  | @dup p1 p2 p3 p4 x tc env s _ h1 _ h2 hd ht _ =>
    have := (Reach.step h1 (.step h2 ((der_reach hd).trans (ruleTrail_reach ht)))).frame.2.1
    show p.errors <+: p4.errors ++ _
    rw [this]; exact List.prefix_append _ _
  | choice _ h1 _ h2 hd ht =>
    rw [(Reach.step h1 (.step h2 ((der_reach hd).trans (ruleTrail_reach ht)))).frame.2.1]
    exact List.prefix_refl _
  | failed _ h1 _ h2 _ hp =>
    rw [(Reach.step h1 (.step h2 (PState.parseEntry_reach _ _ _ _ hp))).frame.2.1]; exact List.prefix_refl _
  | noAssign _ h1 => rw [(next_fields h1).2.2.2.2.2.1]; exact List.prefix_refl _
  | noIdent => exact List.prefix_refl _

theorem round_errors {p q r : PState} {e err} (h : RuleStep p e err q) (hn : (q.record err).next = .ok r) :
    r.errors = q.errors ++ err.toList ∧ p.errors <+: q.errors :=
  ⟨(next_fields hn).2.2.2.2.2.1.trans (PState.record_fields q err).2.2.2.2.2, ruleStep_errors h⟩

theorem run_errors {p q : PState} {rules} (h : FileRun p rules q) : p.errors <+: q.errors := by
  induction h with
  | stop => exact List.prefix_refl _
  | step _ hst hn _ ih =>
    obtain ⟨h1, h2⟩ := round_errors hst hn
    exact (h2.trans (List.prefix_append _ _)).trans (h1 ▸ ih)

/-- A declaration of a name bound before is reported where it stands. -/
theorem run_dup {src : Bytes} {p q : PState} {rules} (h : FileRun p rules q)
    (hp : On (Lexer.new src) p) {pre post : List Node} {e : Node} {k : Bytes} {v : Node}
    (hr : rules = pre ++ e :: post) (hd : Declares (Lexer.new src) e k v)
    (hb : p.env.exists? k = true ∨ ∃ e' ∈ pre, ∃ v', Declares (Lexer.new src) e' k v') :
    ∃ d ∈ q.errors, e.start = .ok d.start ∧ ∃ line col, d.msg = .existing k line col := by
  have hc : Clean src := on_clean (run_end h hp).1 (run_end h hp).2
  induction h generalizing pre with
  | stop => simp at hr
  | @step p q r s e0 err rules _ hst hn hrun ih =>
    have henv : r.env = q.env := (next_fields hn).2.2.2.1.trans (PState.record_fields q err).2.2.2.2.1
    have herr := round_errors hst hn
    have hsub : ∀ d ∈ q.errors, d ∈ s.errors := fun d hd =>
      (run_errors hrun).subset (herr.1 ▸ List.mem_append_left _ hd)
    have hcase := ruleStep_env hc hp hst
    -- the environment only grows
    have hgrow : ∀ k, p.env.exists? k = true → r.env.exists? k = true := by
      intro k hk
      rw [henv]
      rcases hcase with ⟨k', v', _, ⟨h1, h2⟩ | ⟨h1, h2, _⟩⟩ | ⟨_, h2⟩
      · rw [h2]
        unfold Env.exists? at hk ⊢
        simp only [assocFind]
        split
        · rfl
        · exact hk
      · rw [h2]; exact hk
      · rw [h2]; exact hk
    by_cases hnil : e0.isNil = true
    · rw [if_pos hnil] at hr
      refine ih (round_on hp hst hn) hr ?_
      exact hb.imp (hgrow k) id
    · rw [if_neg hnil] at hr
      cases pre with
      | nil =>
        simp only [List.cons_append, List.nil_append, List.cons.injEq] at hr
        obtain ⟨rfl, _⟩ := hr
        rcases hb with hb | ⟨_, h, _⟩
        · rcases hcase with ⟨k', v', h0, ⟨h1, h2⟩ | ⟨h1, h2, s', h3, d, h4, h5, h6⟩⟩ | ⟨h1, h2⟩
          · have := (declares_name hd h0).1
            subst this
            rw [h1] at hb; cases hb
          · have := (declares_name hd h0).1
            subst this
            exact ⟨d, hsub d h4, h5, _, _, h6⟩
          · exact absurd hd (h1 _ _)
        · cases h
      | cons a pre =>
        simp only [List.cons_append, List.nil_append, List.cons.injEq] at hr
        obtain ⟨rfl, hr⟩ := hr
        refine ih (round_on hp hst hn) hr ?_
        rcases hb with hb | ⟨e', he', v', hd'⟩
        · exact Or.inl (hgrow k hb)
        · rcases List.mem_cons.mp he' with rfl | he'
          · left
            rcases hcase with ⟨k', v'', h0, hcs⟩ | ⟨h1, h2⟩
            · have := (declares_name hd' h0).1
              subst this
              rcases hcs with ⟨h1, h2⟩ | ⟨h1, _⟩
              · rw [henv, h2]; unfold Env.exists?; simp [assocFind]
              · exact hgrow _ h1
            · exact absurd hd' (h1 _ _)
          · exact Or.inr ⟨e', he', v', hd'⟩

/-! ### Rules stand in the order of the source -/

theorem ruleStep_start {p q : PState} {e err} (h : RuleStep p e err q) :
    e.isNil = true ∨ (e.start = .ok p.pos ∧ p.cur ≠ .EOF) := by
  cases h with
  | comment hc _ =>
    refine Or.inr ⟨?_, by rw [hc]; decide⟩
    unfold PState.commentNode
    split
    · rename_i h; cases h; rfl
    · rfl
  | bound hc => exact Or.inr ⟨rfl, by rw [hc]; decide⟩
  | dup hc => exact Or.inr ⟨rfl, by rw [hc]; decide⟩
  | choice hc => exact Or.inr ⟨rfl, by rw [hc]; decide⟩
  | failed hc => exact Or.inr ⟨rfl, by rw [hc]; decide⟩
  | noAssign => exact Or.inl rfl
  | noIdent => exact Or.inl rfl

theorem run_order {src : Bytes} {p q : PState} {rules} (h : FileRun p rules q) {ts}
    (hp : Synced (Lexer.new src) ts p) :
    rules.Pairwise (fun a b => ∃ i j, a.start = .ok i ∧ b.start = .ok j ∧ i.offset < j.offset) ∧
    ∀ e ∈ rules, ∃ us t l, Scans (Lexer.new src) (us ++ [t]) l ∧ ts.length ≤ us.length ∧ t.tok ≠ .EOF ∧
      e.start = .ok t.pos := by
  have hc : Clean src := on_clean (run_end h ⟨_, hp⟩).1 (run_end h ⟨_, hp⟩).2
  induction h generalizing ts with
  | stop => simp
  | @step p q r s e err rules hne hst hn hrun ih =>
    obtain ⟨_, ext, hext, hr⟩ := PState.round_reach hp hst hn
    obtain ⟨ih1, ih2⟩ := ih hr
    have hlen : ts.length < (ts ++ ext).length := by
      have := List.length_pos_iff.mpr hext
      simp; omega
    have hcur : ∃ l, Scans (Lexer.new src) (ts ++ [p.curTok]) l := by
      have h' : Scans (Lexer.new src) ((ts ++ [p.curTok]) ++ [p.peekTok]) p.lx := by
        rw [List.append_assoc]; exact hp
      obtain ⟨m, h1, _⟩ := scans_split h'
      exact ⟨m, h1⟩
    obtain ⟨lc, hcur⟩ := hcur
    have hrest : ∀ e ∈ rules, ∃ us t l, Scans (Lexer.new src) (us ++ [t]) l ∧ ts.length ≤ us.length ∧
        t.tok ≠ .EOF ∧ e.start = .ok t.pos := by
      intro e he
      obtain ⟨us, t, l, h1, h2, h3⟩ := ih2 e he
      exact ⟨us, t, l, h1, by omega, h3⟩
    by_cases hnil : e.isNil = true
    · rw [if_pos hnil]; exact ⟨ih1, hrest⟩
    · rw [if_neg hnil]
      rcases ruleStep_start hst with h | ⟨h, hne'⟩
      · exact absurd h hnil
      · constructor
        · simp only [List.cons_append, List.nil_append, List.pairwise_cons]
          refine ⟨?_, ih1⟩
          intro b hb
          obtain ⟨us, t, l, h1, h2, h3, h4⟩ := ih2 b hb
          exact ⟨p.pos, t.pos, h, h4, offset_lt hc hcur h1 (by omega) hne' h3⟩
        · intro b hb
          simp only [List.cons_append, List.nil_append, List.mem_cons] at hb
          rcases hb with rfl | hb
          · exact ⟨ts, p.curTok, lc, hcur, Nat.le_refl _, hne', h⟩
          · exact hrest b hb

/-! ### From source to result -/

/-- What `parseSource` does, in terms of runs. -/
theorem parseSource_run {n : Nat} {src : Bytes} {env : Env} : (parseSource n src env).wp (fun res =>
    ∃ p, On (Lexer.new src) p ∧ Synced (Lexer.new src) [] p ∧ p.env = env ∧ p.errors = [] ∧ p.tasks = [] ∧
      PState.new (Lexer.new src) env = .ok p ∧
    ((p.lx.errors ≠ [] ∧ res = ⟨none, [], p⟩) ∨
     (p.lx.errors = [] ∧ ∃ rules q, FileRun p rules q ∧
        res = ⟨some rules, q.runTasks.errors, q.runTasks⟩))) := by
  unfold parseSource
  refine Out.wp_bind.mpr ?_
  intro p hp
  obtain ⟨h1, h2, h3, h4⟩ := PState.new_synced p hp
  refine PState.parseFile_run.mono ?_
  intro res hres
  exact ⟨p, ⟨_, h1⟩, h1, h2, h3, h4, hp, hres⟩

/-- A tree comes from a run. -/
theorem tree_run {n : Nat} {src : Bytes} {env : Env} {res : PState.FileResult} {rules}
    (h : parseSource n src env = .ok res) (ht : res.cddl = some rules) :
    ∃ p q, Synced (Lexer.new src) [] p ∧ p.env = env ∧ p.errors = [] ∧ p.tasks = [] ∧
      FileRun p rules q ∧ res.final = q.runTasks ∧ res.errs = q.runTasks.errors := by
  obtain ⟨p, _, h1, h2, h3, h4, _, hc⟩ := parseSource_run res h
  rcases hc with ⟨_, rfl⟩ | ⟨_, rules', q, hr, rfl⟩
  · cases ht
  · cases ht
    exact ⟨p, q, h1, h2, h3, h4, hr, rfl, rfl⟩

end Cddlc
