import Verif.Lemmas.Der
import Verif.Spec.Scans

/-! What a run of `ParseFile` consists of, as inductive relations; and what stays unchanged. -/

namespace Cddlc
variable [Unicode]

/-! ### Frames -/

/-- Tokens read and tasks added do not touch environment and errors; tasks are only appended. -/
theorem Reach.frame {p q : PState} (h : Reach p q) :
    q.env = p.env ∧ q.errors = p.errors ∧ p.tasks <+: q.tasks := by
  induction h with
  | refl => exact ⟨rfl, rfl, List.prefix_refl _⟩
  | next _ hn ih =>
    have hf := next_fields hn
    exact ⟨hf.2.2.2.1.trans ih.1, hf.2.2.2.2.2.1.trans ih.2.1, hf.2.2.2.2.1 ▸ ih.2.2⟩
  | task t _ ih => exact ⟨ih.1, ih.2.1, ih.2.2.trans (List.prefix_append _ _)⟩

theorem scans_push {l l' l'' : Lexer} {ts tok pos lit} (h : Scans l ts l')
    (hs : l'.scan = .ok (tok, pos, lit, l'')) : Scans l (ts ++ [⟨tok, pos, lit⟩]) l'' := by
  induction h with
  | nil => exact .cons hs (.nil _)
  | cons h0 _ ih => exact .cons h0 (ih hs)

/-- The token the parser is at, and the one after it. -/
def PState.curTok (p : PState) : Token := ⟨p.cur, p.pos, p.lit⟩
def PState.peekTok (p : PState) : Token := ⟨p.peek, p.peekPos, p.peekLit⟩

/-- The parser has read, from the lexer `l0`, the tokens `ts` and the two it looks at. -/
def Synced (l0 : Lexer) (ts : List Token) (p : PState) : Prop :=
  Scans l0 (ts ++ [p.curTok, p.peekTok]) p.lx

theorem synced_next {l0 ts} {p q : PState} (h : Synced l0 ts p) (hn : p.next = .ok q) :
    Synced l0 (ts ++ [p.curTok]) q := by
  obtain ⟨h1, h2, h3, _, _, _, h4⟩ := next_fields hn
  have := scans_push h h4
  unfold Synced
  have hc : q.curTok = p.peekTok := by simp [PState.curTok, PState.peekTok, h1, h2, h3]
  rw [hc]
  simpa [PState.peekTok] using this

theorem synced_reach {l0 ts} {p q : PState} (h : Synced l0 ts p) (hr : Reach p q) :
    ∃ ext, Synced l0 (ts ++ ext) q := by
  induction hr with
  | refl => exact ⟨[], by simpa using h⟩
  | next _ hn ih =>
    obtain ⟨ext, h⟩ := ih
    exact ⟨_, by rw [← List.append_assoc]; exact synced_next h hn⟩
  | task t _ ih =>
    obtain ⟨ext, h⟩ := ih
    exact ⟨ext, h⟩

theorem comments_reach {p q : PState} {cs} (h : Comments p cs q) : Reach p q := by
  induction h with
  | stop => exact .refl _
  | more _ hn _ ih => exact (Reach.next (.refl _) hn).trans ih

theorem occHead_reach {p q : PState} {m} (h : OccHead p m q) : Reach p q := by
  cases h with
  | none _ h => exact .next (.refl _) h
  | some _ _ h => exact .next (.refl _) h

theorem tagHead_reach {p q : PState} {a b} (h : TagHead p a b q) : Reach p q := by
  cases h with
  | none => exact .refl _
  | major _ h => exact .next (.refl _) h
  | both _ h => exact .next (.refl _) h

theorem trail_reach {p q : PState} {t} (h : Trail p t q) : Reach p q := by
  cases h with
  | none => exact .refl _
  | some _ _ h => exact .next (.refl _) h

theorem Reach.step {p q r : PState} (h : p.next = .ok q) (h' : Reach q r) : Reach p r :=
  (Reach.next (.refl _) h).trans h'

theorem der_reach {b} {p q : PState} {xs} (h : Der b p xs q) : Reach p q := by
  induction h with
  | nil => exact .refl _
  | cons _ hn _ ih1 ih2 => exact ih1.trans (.step hn ih2)
  | skip _ hc hn _ ih => exact (comments_reach hc).trans (.step hn ih)
  | leaf => exact .refl _
  | ref => exact .task _ (.refl _)
  | socket => exact .refl _
  | field _ _ hn hn' _ ht ih => exact .step hn (.step hn' (ih.trans (trail_reach ht)))
  | group _ hn _ _ ih => exact .step hn ih
  | array _ hn _ _ ih => exact .step hn ih
  | map _ hn _ _ ih => exact .step hn ih
  | optional _ hn _ ih => exact .step hn ih
  | unwrap _ hn _ ih => exact .step hn ih
  | enumeration _ hn _ ih => exact .step hn ih
  | occ0 _ ho _ ih => exact (occHead_reach ho).trans ih
  | occ1 _ ho _ ih => exact (occHead_reach ho).trans ih
  | tag _ ht _ => exact tagHead_reach ht
  | tagItem _ ht _ hn hn' _ hc ih =>
    refine (tagHead_reach ht).trans (.step hn (.step hn' (ih.trans ?_)))
    rcases hc with ⟨_, rfl⟩ | ⟨_, hc⟩
    · exact .refl _
    · exact .next (.refl _) hc
  | colon _ _ hn _ hn' _ ht ih1 ih2 =>
    exact ih1.trans (.step hn (.step hn' (ih2.trans (trail_reach ht))))
  | comma _ _ hn ih => exact ih.next hn
  | choice _ _ hn hn' _ ih1 ih2 => exact ih1.trans (.step hn (.step hn' ih2))
  | size _ _ hn _ hn' _ ih1 ih2 => exact ih1.trans (.step hn (.step hn' ih2))
  | regexp _ _ hn _ hn' _ ih1 ih2 => exact ih1.trans (.step hn (.step hn' ih2))
  | bits _ _ hn hn' _ ih1 ih2 => exact ih1.trans (.step hn (.step hn' ih2))
  | compare _ _ hn _ hn' _ ih1 ih2 => exact ih1.trans (.step hn (.step hn' ih2))
  | occ _ _ hn _ ho _ ih1 ih2 => exact ih1.trans (.step hn ((occHead_reach ho).trans ih2))
  | rangeEmpty _ _ hn _ _ _ ih => exact ih.next hn
  | rangeIdent _ _ hn hn' _ ih1 ih2 => exact (ih1.trans (.step hn (.step hn' ih2))).task _
  | rangeInt _ _ hn hn' _ ih1 ih2 => exact ih1.trans (.step hn (.step hn' ih2))
  | rangeIntIdent _ _ hn hn' _ ih1 ih2 => exact (ih1.trans (.step hn (.step hn' ih2))).task _
  | rangeIntOther _ _ hn hn' _ _ _ _ ih1 ih2 => exact ih1.trans (.step hn (.step hn' ih2))
  | rangeFloat _ _ hn hn' _ ih1 ih2 => exact ih1.trans (.step hn (.step hn' ih2))
  | rangeFloatIdent _ _ hn hn' _ ih1 ih2 => exact (ih1.trans (.step hn (.step hn' ih2))).task _
  | rangeFloatOther _ _ hn hn' _ _ _ _ ih1 ih2 => exact ih1.trans (.step hn (.step hn' ih2))

/-! ### Rules -/

/-- A comment behind a rule, on its line; the token after it is read too. -/
inductive RuleTrail (p : PState) : Option Comment → PState → Prop
  | none : ¬ (p.peek = .COMMENT ∧ p.pos.line = p.peekPos.line) → RuleTrail p none p
  | some {q r} : p.peek = .COMMENT → p.pos.line = p.peekPos.line → p.next = .ok q → q.next = .ok r →
      RuleTrail p (some ⟨q.pos, q.lit⟩) r

theorem ruleTrail_reach {p q : PState} {t} (h : RuleTrail p t q) : Reach p q := by
  cases h with
  | none => exact .refl _
  | some _ _ h h' => exact .step h (.next (.refl _) h')

/-- What parsing one rule does. -/
inductive RuleStep (p : PState) : Node → Option Diag → PState → Prop
  | comment {q cs} : p.cur = .COMMENT → Comments p cs q →
      RuleStep p (PState.commentNode (⟨p.pos, p.lit⟩ :: cs)) none q
  | bound {p1 p2 p3 p4 x tc env} : p.cur = .IDENT → p.next = .ok p1 → p1.cur = .ASSIGN →
      p1.next = .ok p2 → Der false p2 [x] p3 → RuleTrail p3 tc p4 →
      p4.env.add p.lit x = (env, false) →
      RuleStep p (.rule {} ⟨p.pos, p.lit⟩ x tc) none { p4 with env := env }
  | dup {p1 p2 p3 p4 x tc env s} : p.cur = .IDENT → p.next = .ok p1 → p1.cur = .ASSIGN →
      p1.next = .ok p2 → Der false p2 [x] p3 → RuleTrail p3 tc p4 →
      p4.env.add p.lit x = (env, true) → (p4.env.get p.lit).start = .ok s →
      RuleStep p (.rule {} ⟨p.pos, p.lit⟩ x tc) none
        (p4.addError ⟨.existing p.lit s.line s.column, p.pos, p.pos⟩)
  | choice {p1 p2 p3 p4 x tc} : p.cur = .IDENT → p.next = .ok p1 →
      p1.cur = .TYPE_CHOICE_ASSIGN ∨ p1.cur = .GROUP_CHOICE_ASSIGN →
      p1.next = .ok p2 → Der false p2 [x] p3 → RuleTrail p3 tc p4 →
      RuleStep p (.rule {} ⟨p.pos, p.lit⟩ x tc) none p4
  | failed {p1 p2 q n prec y d} : p.cur = .IDENT → p.next = .ok p1 →
      p1.cur = .ASSIGN ∨ p1.cur = .TYPE_CHOICE_ASSIGN ∨ p1.cur = .GROUP_CHOICE_ASSIGN →
      p1.next = .ok p2 → (p2.cur = .IDENT ∨ p2.cur = .COMMENT → prec = 0) →
      PState.parseEntry n prec p2 = .ok (y, some d, q) →
      RuleStep p (.rule {} ⟨p.pos, p.lit⟩ .nil none) (some d) q
  | noAssign {p1} : p.cur = .IDENT → p.next = .ok p1 → p1.cur ≠ .ASSIGN →
      p1.cur ≠ .TYPE_CHOICE_ASSIGN → p1.cur ≠ .GROUP_CHOICE_ASSIGN →
      RuleStep p .nil (some ⟨.expectedAssign p.lit, p.pos, p.pos⟩) p1
  | noIdent : p.cur ≠ .COMMENT → p.cur ≠ .IDENT →
      RuleStep p .nil (some (PState.errExpected p.pos .IDENT)) p

/-- The parser after a rule, its diagnostic recorded. -/
def PState.record (p : PState) : Option Diag → PState
  | some d => p.addError d
  | none => p

/-- What the loop over the rules does. -/
inductive FileRun : PState → List Node → PState → Prop
  | stop {p} : p.cur = .EOF → FileRun p [] p
  | step {p q r s e err rules} : p.cur ≠ .EOF → RuleStep p e err q → (q.record err).next = .ok r →
      FileRun r rules s → FileRun p ((if e.isNil then [] else [e]) ++ rules) s

namespace PState
variable {n : Nat} {p : PState}

theorem ruleTrailing_step : (ruleTrailing p).wp (fun r => RuleTrail p r.1 r.2) := by
  unfold ruleTrailing
  split
  · rename_i h
    refine Out.wp_bind.mpr ?_
    intro q hq
    refine Out.wp_bind.mpr ?_
    intro r hr
    exact Out.wp_ok.mpr (.some h.1 (by simpa [sameLine] using h.2) hq hr)
  · rename_i h
    exact Out.wp_ok.mpr (.none fun hh => h ⟨hh.1, by simpa [sameLine] using hh.2⟩)

omit [Unicode] in
/-- A refused `Add` changes nothing. -/
theorem env_add_true {e env : Env} {k v} (h : e.add k v = (env, true)) : env = e := by
  unfold Env.add at h
  split at h <;> cases h
  rfl

theorem parseRule_step : (parseRule n p).wp (fun r => RuleStep p r.1 r.2.1 r.2.2) := by
  unfold parseRule
  split
  · rename_i hc
    refine parseComment_der.mono ?_
    rintro ⟨x, e, q⟩ ⟨he, cs, h1, h2⟩
    dsimp only at he h1 h2 ⊢
    subst he
    rw [h2]
    exact .comment hc h1
  · rename_i hc
    refine Out.wp_bind.mpr ?_
    intro p1 h1
    split
    · rename_i ha
      unfold nextEntry
      refine Out.wp_bind.mpr (Out.wp_bind.mpr ?_)
      intro p2 h2
      rintro ⟨x, e, p3⟩ hx
      have hd := parseEntry_der n _ p2 (prec_cur p2) _ hx
      dsimp only at hd ⊢
      cases e with
      | some d => exact Out.wp_ok.mpr (.failed hc h1 (Or.inl ha) h2 (prec_cur p2) hx)
      | none =>
        refine Out.wp_bind.mpr (ruleTrailing_step.mono ?_)
        rintro ⟨tc, p4⟩ ht
        refine Out.wp_bind.mpr ?_
        unfold declare
        dsimp only at ht ⊢
        split
        · rename_i env hadd
          exact Out.wp_ok.mpr (Out.wp_ok.mpr (.bound hc h1 ha h2 (hd rfl) ht hadd))
        · rename_i env hadd
          obtain rfl := env_add_true hadd
          refine Out.wp_bind.mpr ?_
          intro s hs
          exact Out.wp_ok.mpr (Out.wp_ok.mpr (.dup hc h1 ha h2 (hd rfl) ht hadd hs))
    · rename_i ha
      refine Out.wp_bind.mpr ?_
      intro p2 h2
      refine Out.wp_bind.mpr ?_
      rintro ⟨x, e, p3⟩ hx
      have hd := parseEntry_der n _ p2 (fun _ => rfl) _ hx
      dsimp only at hd ⊢
      cases e with
      | some d => exact Out.wp_ok.mpr (.failed hc h1 (Or.inr (Or.inl ha)) h2 (fun _ => rfl) hx)
      | none =>
        refine Out.wp_bind.mpr (ruleTrailing_step.mono ?_)
        rintro ⟨tc, p4⟩ ht
        exact Out.wp_ok.mpr (.choice hc h1 (Or.inl ha) h2 (hd rfl) ht)
    · rename_i ha
      refine Out.wp_bind.mpr ?_
      intro p2 h2
      refine Out.wp_bind.mpr ?_
      rintro ⟨x, e, p3⟩ hx
      have hd := parseEntry_der n _ p2 (fun _ => rfl) _ hx
      dsimp only at hd ⊢
      cases e with
      | some d => exact Out.wp_ok.mpr (.failed hc h1 (Or.inr (Or.inr ha)) h2 (fun _ => rfl) hx)
      | none =>
        refine Out.wp_bind.mpr (ruleTrailing_step.mono ?_)
        rintro ⟨tc, p4⟩ ht
        exact Out.wp_ok.mpr (.choice hc h1 (Or.inr ha) h2 (hd rfl) ht)
    · rename_i ha hb hc'
      exact Out.wp_ok.mpr (.noAssign hc h1 ha hb hc')
  · rename_i h1 h2
    exact Out.wp_ok.mpr (.noIdent h1 h2)

theorem fileStep_run (acc : List Node) (p : PState) :
    (fileStep n (acc, p)).wp (fun o => match o with
      | .inr s => p.cur = .EOF ∧ s = (acc, p)
      | .inl s => p.cur ≠ .EOF ∧ ∃ e err q, RuleStep p e err q ∧ (q.record err).next = .ok s.2 ∧
          s.1 = acc ++ (if e.isNil then [] else [e])) := by
  unfold fileStep
  by_cases h : p.cur = .EOF
  · simp only [if_pos h]
    exact Out.wp_ok.mpr ⟨h, rfl⟩
  · simp only [if_neg h]
    refine Out.wp_bind.mpr (parseRule_step.mono ?_)
    rintro ⟨e, err, q⟩ hs
    dsimp only at hs ⊢
    refine Out.wp_bind.mpr ?_
    intro r hr
    replace hr : (q.record err).next = .ok r := by cases err <;> exact hr
    refine Out.wp_ok.mpr ⟨h, e, err, q, hs, hr, ?_⟩
    split <;> simp

theorem fileLoop_run (m : Nat) (acc : List Node) (p : PState) :
    (loopOut (fileStep n) m (acc, p)).wp (fun r => ∃ rules, FileRun p rules r.2 ∧ r.1 = acc ++ rules) := by
  induction m generalizing acc p with
  | zero => exact Out.wp_hang.mpr trivial
  | succ m ih =>
    rw [loopOut]
    have hs := fileStep_run (n := n) acc p
    cases hst : fileStep n (acc, p) with
    | panic w => exact Out.wp_panic.mpr trivial
    | hang => exact Out.wp_hang.mpr trivial
    | ok o =>
      have hs := hs _ hst
      cases o with
      | inr s =>
        obtain ⟨h1, rfl⟩ := hs
        exact Out.wp_ok.mpr ⟨[], .stop h1, by simp⟩
      | inl s =>
        obtain ⟨acc', r⟩ := s
        obtain ⟨h, e, err, q, h1, h2, h3⟩ := hs
        refine (ih _ r).mono ?_
        rintro ⟨xs, s⟩ ⟨rules, h4, h5⟩
        refine ⟨_, .step h h1 h2 h4, ?_⟩
        dsimp only at h3 h5 ⊢
        rw [h5, h3, List.append_assoc]

/-- What `ParseFile` returns. -/
theorem parseFile_run : (parseFile n p).wp (fun res =>
    (p.lx.errors ≠ [] ∧ res = ⟨none, [], p⟩) ∨
    (p.lx.errors = [] ∧ ∃ rules q, FileRun p rules q ∧ res = ⟨some rules, q.runTasks.errors, q.runTasks⟩)) := by
  unfold parseFile
  split
  · rename_i h
    exact Out.wp_ok.mpr (Or.inl ⟨h, rfl⟩)
  · rename_i h
    refine Out.wp_bind.mpr ((fileLoop_run n [] p).mono ?_)
    rintro ⟨rules, q⟩ ⟨rules', h1, h2⟩
    refine Out.wp_ok.mpr (Or.inr ⟨Decidable.not_not.mp h, rules, q, ?_, rfl⟩)
    dsimp only at h1 h2
    rw [h2]; simpa using h1

/-- A rule reads tokens and adds tasks, and then changes environment or errors at most. -/
theorem ruleStep_reach {e err q} (h : RuleStep p e err q) : ∃ q', Reach p q' ∧ q.tasks = q'.tasks ∧
    q.lx = q'.lx ∧ q.curTok = q'.curTok ∧ q.peekTok = q'.peekTok := by
  cases h with
  | comment _ h => exact ⟨q, comments_reach h, rfl, rfl, rfl, rfl⟩
  | @bound p1 p2 p3 p4 x tc env _ h1 _ h2 hd ht _ =>
    exact ⟨p4, .step h1 (.step h2 ((der_reach hd).trans (ruleTrail_reach ht))), rfl, rfl, rfl, rfl⟩
  | @dup p1 p2 p3 p4 x tc env s _ h1 _ h2 hd ht _ =>
    exact ⟨p4, .step h1 (.step h2 ((der_reach hd).trans (ruleTrail_reach ht))), rfl, rfl, rfl, rfl⟩
  | choice _ h1 _ h2 hd ht =>
    exact ⟨q, .step h1 (.step h2 ((der_reach hd).trans (ruleTrail_reach ht))), rfl, rfl, rfl, rfl⟩
  | failed _ h1 _ h2 _ hp =>
    exact ⟨q, .step h1 (.step h2 (parseEntry_reach _ _ _ _ hp)), rfl, rfl, rfl, rfl⟩
  | noAssign _ h1 => exact ⟨q, .next (.refl _) h1, rfl, rfl, rfl, rfl⟩
  | noIdent => exact ⟨p, .refl _, rfl, rfl, rfl, rfl⟩

omit [Unicode] in
theorem record_fields (q : PState) (err : Option Diag) : (q.record err).tasks = q.tasks ∧
    (q.record err).lx = q.lx ∧ (q.record err).curTok = q.curTok ∧ (q.record err).peekTok = q.peekTok ∧
    (q.record err).env = q.env ∧ (q.record err).errors = q.errors ++ err.toList := by
  cases err <;> simp [record, addError, curTok, peekTok]

theorem synced_congr {l0 ts} {p q : PState} (h : Synced l0 ts p) (h1 : q.lx = p.lx)
    (h2 : q.curTok = p.curTok) (h3 : q.peekTok = p.peekTok) : Synced l0 ts q := by
  unfold Synced at *; rw [h1, h2, h3]; exact h

/-- One round of the loop, seen from the tokens and the tasks. -/
theorem round_reach {l0 ts e err q r} (hs : Synced l0 ts p) (h : RuleStep p e err q)
    (hn : (q.record err).next = .ok r) : p.tasks <+: r.tasks ∧
    ∃ ext, ext ≠ [] ∧ Synced l0 (ts ++ ext) r := by
  obtain ⟨q', h1, h2, h3, h4, h5⟩ := ruleStep_reach h
  have hr := record_fields q err
  have hf := next_fields hn
  constructor
  · rw [hf.2.2.2.2.1, hr.1, h2]; exact h1.frame.2.2
  · obtain ⟨ext, hq'⟩ := synced_reach hs h1
    have := synced_congr hq' (hr.2.1.trans h3) (hr.2.2.1.trans h4) (hr.2.2.2.1.trans h5)
    exact ⟨ext ++ [(q.record err).curTok], by simp, by rw [← List.append_assoc]; exact synced_next this hn⟩

theorem run_tasks {rules q} (h : FileRun p rules q) : p.tasks <+: q.tasks := by
  induction h with
  | stop => exact List.prefix_refl _
  | @step p q r s e err rules _ hst hn _ ih =>
    obtain ⟨q', h1, h2, _⟩ := ruleStep_reach hst
    refine List.IsPrefix.trans ?_ ih
    rw [(next_fields hn).2.2.2.2.1, (record_fields q err).1, h2]; exact h1.frame.2.2

/-- What `NewParser` leaves. -/
theorem new_synced {lx env} : (PState.new lx env).wp (fun p => Synced lx [] p ∧ p.env = env ∧
    p.errors = [] ∧ p.tasks = []) := by
  unfold PState.new
  dsimp only
  refine Out.wp_bind.mpr ?_
  intro p1 h1
  intro p h
  have hf1 := next_fields h1
  have hf := next_fields h
  refine ⟨?_, ?_, ?_, ?_⟩
  · unfold Synced
    have hs1 := hf1.2.2.2.2.2.2
    have hs := hf.2.2.2.2.2.2
    have hc : p.curTok = p1.peekTok := by simp [PState.curTok, PState.peekTok, hf.1, hf.2.1, hf.2.2.1]
    rw [hc]
    exact .cons hs1 (.cons hs (.nil _))
  · rw [hf.2.2.2.1, hf1.2.2.2.1]
  · rw [hf.2.2.2.2.2.1, hf1.2.2.2.2.2.1]
  · rw [hf.2.2.2.2.1, hf1.2.2.2.2.1]

end PState
end Cddlc
