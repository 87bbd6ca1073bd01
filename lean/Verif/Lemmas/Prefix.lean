import Verif.Lemmas.Twins
import Verif.Spec.Prefix

/-! The parser run on two token streams that are the same up to some token. -/

namespace Cddlc
variable [Unicode]
open HasLx PState

variable {T : Twins} {p q : PState} {m : Side} {n : Nat}

theorem next_scan {p q : PState} (h : p.next = .ok q) : ∃ t x s l, p.lx.scan = .ok (t, x, s, l) ∧
    q = { p with lx := l, cur := p.peek, lit := p.peekLit, pos := p.peekPos, peek := t, peekPos := x, peekLit := s } := by
  unfold PState.next at h
  cases hs : p.lx.scan with
  | ok y =>
    rw [hs] at h
    cases h
    exact ⟨_, _, _, _, rfl, rfl⟩
  | panic w => rw [hs] at h; cases h
  | hang => rw [hs] at h; cases h

omit [Unicode] in
/-- Only the bindings and the errors change when a name is declared. -/
theorem declare_only {p q : PState} {i x} (h : p.declare i x = .ok q) :
    ∃ env errors, q = { p with env := env, errors := errors } := by
  unfold declare at h
  split at h
  · cases h; exact ⟨_, _, rfl⟩
  · rename_i env _
    cases hs : (env.get i.name).start with
    | ok s => rw [hs] at h; cases h; exact ⟨_, _, rfl⟩
    | panic w => rw [hs] at h; cases h
    | hang => rw [hs] at h; cases h

omit [Unicode] in
theorem declare_lx {p q : PState} {i x} {l : Lexer} (h : p.declare i x = .ok q) :
    { p with lx := l }.declare i x = .ok { q with lx := l } := by
  unfold declare at h ⊢
  dsimp only
  split at h
  · cases h; rfl
  · rename_i env _
    cases hs : (env.get i.name).start with
    | ok s => rw [hs] at h; cases h; rfl
    | panic w => rw [hs] at h; cases h
    | hang => rw [hs] at h; cases h

def Side.record (m : Side) : Option Diag → Side
  | none => m
  | some d => { m with errors := m.errors ++ [d] }

/-- Parsers with the same next token and with lexers in a relation that scanning preserves, until the first
lexer is past some point; this may depend on the last token read. -/
def Twins.ofLexers (past : Lexer → Token → Prop) (tw : Lexer → Lexer → Prop)
    (onward : ∀ {l t x s l' u}, past l u → l.scan = .ok (t, x, s, l') → past l' ⟨t, x, s⟩)
    (step : ∀ {l m t x s l'}, tw l m → l.scan = .ok (t, x, s, l') →
      past l' ⟨t, x, s⟩ ∨ ∃ m', m.scan = .ok (t, x, s, m') ∧ tw l' m') : Twins where
  gone p := past p.lx p.peekTok
  near p m := tw p.lx m.lx ∧ m = ⟨m.lx, p.peek, p.peekPos, p.peekLit, p.errors, p.env, p.tasks⟩
  gone_next h hn := by
    obtain ⟨t, x, s, l, h1, rfl⟩ := next_scan hn
    exact onward h h1
  gone_task h := h
  gone_declare h hd := by
    obtain ⟨_, _, rfl⟩ := declare_only hd
    exact h
  near_next := by
    rintro p q ⟨m, _, _, _, _, _, _⟩ ⟨h1, h2⟩ hn
    cases h2
    obtain ⟨t, x, s, l, h3, rfl⟩ := next_scan hn
    rcases step h1 h3 with h | ⟨m', h4, h5⟩
    · exact .inl h
    · refine .inr ⟨⟨m', t, x, s, p.errors, p.env, p.tasks⟩, ⟨h5, rfl⟩, ?_⟩
      dsimp only [PState.next]
      rw [h4]
      rfl
  near_task := by
    rintro p ⟨m, _, _, _, _, _, _⟩ t ⟨h1, h2⟩
    cases h2
    exact ⟨h1, rfl⟩
  near_declare := by
    rintro p q ⟨m, _, _, _, _, _, _⟩ i x ⟨h1, h2⟩ hd
    cases h2
    refine .inr ⟨⟨m, q.peek, q.peekPos, q.peekLit, q.errors, q.env, q.tasks⟩, ⟨?_, rfl⟩, ?_⟩
    · obtain ⟨_, _, rfl⟩ := declare_only hd
      exact h1
    · exact declare_lx hd
  look := by
    rintro p m ⟨_, h⟩
    rw [h]
    exact .inl rfl

/-- The lexers on two sources whose first tokens are `ts`, after which they are `L` and `L'`. -/
def commonTwins (L L' : Lexer) : Twins := .ofLexers
  (fun l t => ∃ us, Scans L (us ++ [t]) l)
  (fun l m => ∃ us, Scans l us L ∧ Scans m us L')
  (by
    rintro l t x s l' u ⟨us, h⟩ hs
    exact ⟨us ++ [u], scans_push h hs⟩)
  (by
    rintro l m t x s l' ⟨us, h, h'⟩ hs
    cases h with
    | nil => exact .inl ⟨[], .cons hs (.nil _)⟩
    | cons h1 h2 =>
      rw [h1] at hs
      cases hs
      cases h' with
      | cons h3 h4 => exact .inr ⟨_, h3, _, h2, h4⟩)

theorem scans_append {l l' l'' : Lexer} {ts us} (h : Scans l ts l') (h' : Scans l' us l'') : Scans l (ts ++ us) l'' := by
  induction h with
  | nil => exact h'
  | cons h1 _ ih => exact .cons h1 (ih h')

variable {src : Bytes} {L L' : Lexer} {ts : List Token}

theorem near_record {err : Option Diag} (h : (commonTwins L L').near p m) :
    (commonTwins L L').near (p.record err) (m.record err) := by
  obtain ⟨h1, h2⟩ := h
  rw [h2]
  cases err <;> exact ⟨h1, rfl⟩

/-- A parser past the common tokens has read more than those. -/
theorem gone_count (hc : Clean src) (hL : Scans (Lexer.new src) ts L) (he : ∀ t ∈ ts, t.tok ≠ .EOF) {us}
    (hs : Synced (Lexer.new src) us p) (hg : (commonTwins L L').gone p) : ts.length < us.length + 2 := by
  refine Decidable.byContradiction fun hlt => ?_
  obtain ⟨vs, hv⟩ := hg
  have h1 : Scans (Lexer.new src) ((ts ++ vs) ++ [p.peekTok]) p.lx := by simpa using scans_append hL hv
  have h2 : Scans (Lexer.new src) ((us ++ [p.curTok]) ++ [p.peekTok]) p.lx := by
    simpa [Synced] using hs
  have hpre := scans_det h2 hL (by simp; omega)
  have hne : p.peekTok.tok ≠ .EOF := he _ (hpre.subset (by simp))
  have := offset_lt hc h2 h1 (by simp; omega) hne hne
  omega

/-- The first tokens of the items, from the tokens read before. -/
theorem run_heads {l0 : Lexer} {rest : List Node} {s : PState} (h : FileRun p rest s) {us} (hs : Synced l0 us p)
    {i : Nat} {e : Node} (hi : rest[i]? = some e) :
    ∃ vs a l, Scans l0 (vs ++ [a]) l ∧ us.length + i ≤ vs.length ∧ a.pos = headPos e ∧ a.tok ≠ .EOF := by
  induction h generalizing us i with
  | stop => simp at hi
  | @step p q r s x err rest hne hst hn _ ih =>
    obtain ⟨_, ext, hx, hr⟩ := round_reach hs hst hn
    have hlen : 0 < ext.length := List.length_pos_iff.mpr hx
    have later : ∀ {j}, rest[j]? = some e → i ≤ j + 1 →
        ∃ vs a l, Scans l0 (vs ++ [a]) l ∧ us.length + i ≤ vs.length ∧ a.pos = headPos e ∧ a.tok ≠ .EOF := by
      intro j hj hij
      obtain ⟨vs, a, l, h1, h2, h3⟩ := ih hr hj
      exact ⟨vs, a, l, h1, by simp at h2; omega, h3⟩
    by_cases hnil : x.isNil
    · rw [if_pos hnil] at hi
      exact later hi (by omega)
    · rw [if_neg hnil] at hi
      cases i with
      | succ i => exact later (by simpa using hi) (by omega)
      | zero =>
        simp only [List.cons_append, List.nil_append, List.getElem?_cons_zero, Option.some.injEq] at hi
        subst hi
        have hscan : Scans l0 ((us ++ [p.curTok]) ++ [p.peekTok]) p.lx := by simpa [Synced] using hs
        obtain ⟨l, hl, _⟩ := scans_split hscan
        refine ⟨us, p.curTok, l, hl, by simp, ?_, hne⟩
        cases hst with
        | comment => 
          rename_i cs _ _
          cases cs <;> rfl
        | noAssign => exact absurd rfl hnil
        | noIdent => exact absurd rfl hnil
        | _ => rfl

theorem fileStep_eq (acc : List Node) : fileStep n (acc, p) = if p.cur = .EOF then .ok (.inr (acc, p)) else
    parseRule n p >>= fun r => (r.2.2.record r.2.1).next >>= fun p2 =>
      .ok (.inl (if r.1.isNil then acc else acc ++ [r.1], p2)) := by
  unfold fileStep
  dsimp only
  split
  · rfl
  · congr 1

theorem file_prefix (hc : Clean src) (hL : Scans (Lexer.new src) ts L) (he : ∀ t ∈ ts, t.tok ≠ .EOF)
    (k : Nat) {acc us rules rules' q q'} (hs : Synced (Lexer.new src) us p) (ht : (commonTwins L L').near p m)
    (h : loopOut (fileStep n) k (acc, p) = .ok (rules, q))
    (h' : loopOut (fileStep n) k (acc, p⟪m⟫) = .ok (rules', q')) :
    ∃ done rest, rules = done ++ rest ∧ done <+: rules' ∧ ∀ i e, rest[i + 1]? = some e →
      ∃ vs a l, Scans (Lexer.new src) (vs ++ [a]) l ∧ ts.length ≤ vs.length ∧ a.pos = headPos e ∧ a.tok ≠ .EOF := by
  induction k generalizing acc us p m with
  | zero => cases h
  | succ k ih =>
    have hpre : acc <+: rules' := by
      obtain ⟨r, _, hr⟩ := fileLoop_run (k + 1) acc p⟪m⟫ _ h'
      exact ⟨r, hr.symm⟩
    rw [loopOut, fileStep_eq] at h h'
    by_cases heof : p.cur = .EOF
    · rw [if_pos heof] at h
      cases h
      exact ⟨_, [], by simp, hpre, by simp⟩
    · rw [if_neg heof] at h h'
      cases hr : parseRule n p with
      | panic w => rw [hr] at h; cases h
      | hang => rw [hr] at h; cases h
      | ok x =>
        obtain ⟨e, err, q1⟩ := x
        have hstep := parseRule_step _ hr
        rw [hr] at h
        cases hnx : (q1.record err).next with
        | panic w => simp only [hnx, Out.bind_def, Out.bind] at h; cases h
        | hang => simp only [hnx, Out.bind_def, Out.bind] at h; cases h
        | ok p1 =>
          simp only [hnx, Out.bind_def, Out.bind] at h
          obtain ⟨q2, g1, _, g2, g3, g4⟩ := ruleStep_reach hstep
          obtain ⟨ext, hq2⟩ := synced_reach hs g1
          have hrf := record_fields q1 err
          have hq1 := synced_congr hq2 (hrf.2.1.trans g2) (hrf.2.2.1.trans g3) (hrf.2.2.2.1.trans g4)
          have hs1 := synced_next hq1 hnx
          obtain ⟨rest1, hrun, hrest⟩ := fileLoop_run k _ p1 _ h
          dsimp only at hrest
          rcases R_rule (T := commonTwins L L') ht _ hr with hg | ⟨m1, ht1, hr1⟩
          · -- past the common tokens within the rule
            refine ⟨acc, (if e.isNil then [] else [e]) ++ rest1, ?_, hpre, ?_⟩
            · rw [hrest]; split <;> simp
            · have hgone : (commonTwins L L').gone (q1.record err) := by
                cases err <;> exact hg
              have hcount := gone_count hc hL he hq1 hgone
              intro i x hi
              split at hi
              · obtain ⟨vs, a, l, a1, a2, a3⟩ := run_heads hrun hs1 hi
                exact ⟨vs, a, l, a1, by simp at a2 hcount ⊢; omega, a3⟩
              · obtain ⟨vs, a, l, a1, a2, a3⟩ := run_heads hrun hs1 (i := i) (by simpa using hi)
                exact ⟨vs, a, l, a1, by simp at a2 hcount ⊢; omega, a3⟩
          · have hset : HasLx.set (e, err, q1) m1 = (e, err, q1⟪m1⟫) := rfl
            have hrec : q1⟪m1⟫.record err = (q1.record err)⟪m1.record err⟫ := by
              cases err <;> rfl
            have ht2 : (commonTwins L L').near (q1.record err) (m1.record err) := by cases err <;> exact near_record ht1
            rw [hr1, hset] at h'
            simp only [Out.bind_def, Out.bind, hrec] at h'
            rcases rel_next ht2 _ hnx with hg | ⟨m2, ht3, hn2⟩
            · -- past them with the token behind
              cases hnx' : (q1.record err)⟪m1.record err⟫.next with
              | panic w => rw [hnx'] at h'; cases h'
              | hang => rw [hnx'] at h'; cases h'
              | ok p1' =>
                rw [hnx'] at h'
                obtain ⟨rest2, _, hrest2⟩ := fileLoop_run k _ p1' _ h'
                refine ⟨_, rest1, hrest, ⟨rest2, hrest2.symm⟩, ?_⟩
                have hcount := gone_count hc hL he hs1 hg
                intro i x hi
                obtain ⟨vs, a, l, a1, a2, a3⟩ := run_heads hrun hs1 hi
                exact ⟨vs, a, l, a1, by simp at a2 hcount ⊢; omega, a3⟩
            · rw [hn2] at h'
              exact ih hs1 ht3 h h'

theorem source_prefix {src' : Bytes} {env : Env} (hc : Clean src) (hL : Scans (Lexer.new src) ts L)
    (hL' : Scans (Lexer.new src') ts L') (he : ∀ t ∈ ts, t.tok ≠ .EOF) {k k' : Nat} {res res' : FileResult} {rules rules'}
    (h : parseSource k src env = .ok res) (hr : res.cddl = some rules)
    (h' : parseSource k' src' env = .ok res') (hr' : res'.cddl = some rules') :
    ∃ done rest, rules = done ++ rest ∧ done <+: rules' ∧ ∀ i e, rest[i + 1]? = some e →
      ∃ vs a l, Scans (Lexer.new src) (vs ++ [a]) l ∧ ts.length ≤ vs.length ∧ a.pos = headPos e ∧ a.tok ≠ .EOF := by
  replace h : parseSource (max k k') src env = .ok res := by
    rcases parseSource_le (Nat.le_max_left k k') (src := src) (env := env) with h1 | h1
    · rw [h1] at h; cases h
    · rw [← h1, h]
  replace h' : parseSource (max k k') src' env = .ok res' := by
    rcases parseSource_le (Nat.le_max_right k k') (src := src') (env := env) with h1 | h1
    · rw [h1] at h'; cases h'
    · rw [← h1, h']
  generalize max k k' = n at h h'
  have hnew : Rel (commonTwins L L') (PState.new (Lexer.new src) env) (PState.new (Lexer.new src') env) := by
    unfold PState.new
    exact Rel.bind (rel_next (m := ⟨Lexer.new src', .ILLEGAL, {}, [], [], env, []⟩) ⟨⟨ts, hL, hL'⟩, rfl⟩) (fun q hq => past_next hq) fun q m hq => rel_next hq
  unfold parseSource at h h'
  cases hp : PState.new (Lexer.new src) env with
  | panic w => rw [hp] at h; cases h
  | hang => rw [hp] at h; cases h
  | ok p =>
    rw [hp] at h
    have hs := (new_synced p hp).1
    have loop : ∀ {p : PState} {res : FileResult} {rules}, p.parseFile n = .ok res → res.cddl = some rules →
        ∃ q, loopOut (fileStep n) n ([], p) = .ok (rules, q) := by
      intro p res rules h hr
      unfold parseFile at h
      split at h
      · cases h; cases hr
      · cases hl : loopOut (fileStep n) n ([], p) with
        | panic w => rw [hl] at h; cases h
        | hang => rw [hl] at h; cases h
        | ok x =>
          rw [hl] at h
          cases h
          cases hr
          exact ⟨_, rfl⟩
    obtain ⟨q, hq⟩ := loop h hr
    rcases hnew _ hp with hg | ⟨m, ht, hp'⟩
    · obtain ⟨rest, hrun, hrest⟩ := fileLoop_run n [] p _ hq
      dsimp only [List.nil_append] at hrest
      subst hrest
      refine ⟨[], rules, rfl, List.nil_prefix, fun i e hi => ?_⟩
      obtain ⟨vs, a, l, a1, a2, a3⟩ := run_heads hrun hs hi
      have hcount := gone_count hc hL he hs hg
      exact ⟨vs, a, l, a1, by simp at a2 hcount; omega, a3⟩
    · rw [hp'] at h'
      obtain ⟨q', hq'⟩ := loop h' hr'
      exact file_prefix hc hL he n hs ht hq hq'

end Cddlc
