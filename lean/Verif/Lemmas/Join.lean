import Verif.Lemmas.Prefix
import Verif.Lemmas.Sentence
import Verif.Lemmas.JoinLex
import Verif.Lemmas.ErrFile
import Verif.Lemmas.LayoutParse
import Verif.Lemmas.RunFile
import Verif.Lemmas.Work
import Verif.Props.Lexer
import Verif.Props.Errors
import Verif.Spec.Join
import Verif.Spec.Recover

/-! A source, and the same source with another behind it. -/

namespace Cddlc
open Spec HasLx PState
variable [Unicode] {p q : PState} {m : Side} {n : Nat} {L L' : Lexer} {c : Token}

omit [Unicode] in
/-- To declare a name looks at the bindings only. -/
theorem declare_side {i x} (he : m.env = p.env) (hr : m.errors = p.errors) (h : p.declare i x = .ok q) :
    p⟪m⟫.declare i x = .ok q⟪{ m with env := q.env, errors := q.errors }⟫ := by
  unfold declare at h ⊢
  dsimp only
  rw [he]
  split at h
  · cases h; dsimp only; rw [hr]
  · rename_i env _
    cases hs : (env.get i.name).start with
    | ok s => rw [hs] at h; cases h; simp only [Out.bind_def, Out.bind, addError, hr]
    | panic w => rw [hs] at h; cases h
    | hang => rw [hs] at h; cases h

/-- The first source ends at `L`, its last token being `c`; the second source goes on at `L'`, with something that
begins a rule or with its end. -/
structure Seam (L L' : Lexer) (c : Token) : Prop where
  eof : c.tok ≠ .EOF
  comment : c.tok ≠ .COMMENT
  ended : ∀ us l, Scans L us l → ∀ t ∈ us, t.tok = .EOF
  two : ∃ u v l, Scans L' [u, v] l
  edge : ∀ t u l l', Scans L [t] l → Scans L' [u] l' → Edge c t u

/-- The first parser reads the tokens up to `L`, the last being `c`, and then those behind `L`; the second reads
the same tokens up to `L'` and then those behind `L'`. -/
def joinTwins (hj : Seam L L' c) : Twins where
  gone p := ∃ us, Scans L (us ++ [p.curTok, p.peekTok]) p.lx
  near p m := (m.errors = p.errors ∧ m.env = p.env ∧ m.tasks = p.tasks) ∧ p.cur ≠ .EOF ∧
    ((p.peekTok = m.token ∧ ∃ us, Scans p.lx us L ∧ Scans m.lx us L' ∧ (p.peekTok :: us).getLast? = some c ∧
      ∀ t ∈ p.peekTok :: us, t.tok ≠ .EOF) ∨
     (p.curTok = c ∧ Scans L [p.peekTok] p.lx ∧ Scans L' [m.token] m.lx))
  gone_next := by
    rintro p q ⟨us, h⟩ hn
    obtain ⟨t, x, s, l, h1, rfl⟩ := next_scan hn
    exact ⟨us ++ [p.curTok], by simpa [curTok, peekTok] using scans_push h h1⟩
  gone_task h := h
  gone_declare h hd := by
    obtain ⟨_, _, rfl⟩ := declare_only hd
    exact h
  near_next := by
    rintro p q m ⟨hf, hcur, h⟩ hn
    obtain ⟨t, x, s, l, h1, rfl⟩ := next_scan hn
    rcases h with ⟨hm, us, h2, h3, h4, h5⟩ | ⟨_, h2, _⟩
    · obtain ⟨ml, mt, mp, ms, me, mv, mk⟩ := m
      obtain ⟨rfl, rfl, rfl⟩ := hf
      cases hm
      right
      cases h2 with
      | nil =>
        cases h3
        obtain ⟨u, v, l', hu⟩ := hj.two
        cases hu with
        | cons hu hz =>
          refine ⟨⟨_, _, _, _, p.errors, p.env, p.tasks⟩, ⟨⟨rfl, rfl, rfl⟩, ?_, .inr ⟨?_, .cons h1 (.nil _), .cons hu (.nil _)⟩⟩, ?_⟩
          · exact h5 p.peekTok List.mem_cons_self
          · simpa [curTok, peekTok] using h4
          · dsimp only [PState.next]
            rw [hu]
            rfl
      | cons a1 a2 =>
        rw [a1] at h1
        cases h1
        cases h3 with
        | cons b1 b2 =>
          refine ⟨⟨_, _, _, _, p.errors, p.env, p.tasks⟩,
            ⟨⟨rfl, rfl, rfl⟩, h5 p.peekTok List.mem_cons_self, .inl ⟨rfl, _, a2, b2, ?_, fun t ht => h5 t (List.mem_cons_of_mem _ ht)⟩⟩, ?_⟩
          · rw [List.getLast?_cons_cons] at h4
            exact h4
          · dsimp only [PState.next]
            rw [b1]
            rfl
    · refine .inl ⟨[], ?_⟩
      have := scans_push h2 h1
      simpa [curTok, peekTok] using this
  near_task := by
    rintro p m t ⟨⟨h1, h2, h3⟩, h⟩
    exact ⟨⟨h1, h2, by simp [Side.addTask, addTask, h3]⟩, h⟩
  near_declare := by
    rintro p q m i x ⟨⟨h1, h2, h3⟩, h⟩ hd
    refine .inr ⟨_, ?_, declare_side h2 h1 hd⟩
    obtain ⟨_, _, rfl⟩ := declare_only hd
    exact ⟨⟨rfl, rfl, h3⟩, h⟩
  look := by
    rintro p m ⟨_, _, ⟨h, _⟩ | ⟨rfl, h1, h2⟩⟩
    · exact .inl h
    · exact .inr (hj.edge _ _ _ _ h1 h2)

/-- What can be reached from near is near, or past the point. -/
theorem reach_near {T : Twins} (h : Reach p q) (hp : T.near p m) : T.gone q ∨ ∃ m', T.near q m' := by
  induction h with
  | refl => exact .inr ⟨m, hp⟩
  | next _ hn ih =>
    rcases ih with ih | ⟨m', ih⟩
    · exact .inl (T.gone_next ih hn)
    · rcases T.near_next ih hn with h | ⟨m'', h, _⟩
      · exact .inl h
      · exact .inr ⟨m'', h⟩
  | task t _ ih =>
    rcases ih with ih | ⟨m', ih⟩
    · exact .inl (T.gone_task ih)
    · exact .inr ⟨_, T.near_task ih⟩

theorem der_cur {x : Node} (h : Der false p [x] q) : q.cur ≠ .EOF := by
  obtain ⟨us, _, h2⟩ := der_says h
  intro he
  exact phrase_no_eof h2 (by simp [he])

section
variable (hj : Seam L L' c)

theorem gone_cur (h : (joinTwins hj).gone p) : p.cur = .EOF := by
  obtain ⟨us, h⟩ := h
  exact hj.ended _ _ h p.curTok (by simp)

/-- No rule of the first source ends behind it, as its last token is no comment. -/
theorem trail_stays (hp : (joinTwins hj).near p m) (h : Reach p q) (hq : q.cur ≠ .EOF) {tc r} (ht : RuleTrail q tc r) :
    r.cur ≠ .EOF := by
  cases ht with
  | none => exact hq
  | @some q1 _ hk _ hn hn' =>
    rcases reach_near h hp with hg | ⟨m', _, _, ⟨_, us, h1, h2, h3, h4⟩ | ⟨_, h1, _⟩⟩
    · exact absurd (gone_cur hj hg) hq
    · cases us with
      | nil =>
        simp only [List.getLast?_singleton, Option.some.injEq] at h3
        exact absurd (h3 ▸ hk : c.tok = .COMMENT) hj.comment
      | cons y us =>
        rw [next_cur hn']
        obtain ⟨t, x, s, l, a1, rfl⟩ := next_scan hn
        cases h1 with
        | cons b1 b2 =>
          rw [b1] at a1
          cases a1
          exact h4 _ (List.mem_cons_of_mem _ List.mem_cons_self)
    · have := hj.ended _ _ h1 q.peekTok (by simp)
      rw [show q.peekTok.tok = .COMMENT from hk] at this
      cases this

theorem rule_stays (hp : (joinTwins hj).near p m) {e err} (h : RuleStep p e err q) (hno : ∀ d, err = some d → ¬ CutOff c d) :
    q.cur ≠ .EOF := by
  cases h with
  | comment hc h =>
    obtain ⟨_, _, h2, _⟩ := comments_took h hc
    rw [h2]
    decide
  | @bound _ _ _ p4 _ _ _ _ h1 _ h2 hd ht _ =>
    exact trail_stays (r := p4) hj hp (.step h1 (.step h2 (der_reach hd))) (der_cur hd) ht
  | @dup _ _ _ p4 _ _ _ _ _ h1 _ h2 hd ht _ _ =>
    exact trail_stays (r := p4) hj hp (.step h1 (.step h2 (der_reach hd))) (der_cur hd) ht
  | choice _ h1 _ h2 hd ht => exact trail_stays hj hp (.step h1 (.step h2 (der_reach hd))) (der_cur hd) ht
  | failed _ _ _ _ _ h3 => exact fun he => hno _ rfl (.inl ((parseEntry_fair _ _ _ _ h3).2 he))
  | noAssign _ h1 =>
    intro he
    refine hno _ rfl (.inr ⟨⟨_, rfl⟩, ?_⟩)
    obtain ⟨_, _, ⟨_, us, _, _, _, h4⟩ | ⟨h2, _⟩⟩ := hp
    · exact absurd ((next_cur h1).symm.trans he) (h4 p.peekTok List.mem_cons_self)
    · rw [← h2]; rfl
  | noIdent => exact hp.2.1

theorem near_recorded {err : Option Diag} (h : (joinTwins hj).near p m) :
    (joinTwins hj).near (p.record err) (m.record err) := by
  cases err with
  | none => exact h
  | some d =>
    obtain ⟨⟨h1, h2, h3⟩, h⟩ := h
    exact ⟨⟨by simp [PState.record, Side.record, addError, h1], h2, h3⟩, h⟩

/-- If the first source is parsed and all mistakes are noticed before its end, the parser of the second is at the
seam after the same rules. -/
theorem join_file (k : Nat) {acc rules : List Node} (hp : (joinTwins hj).near p m)
    (h : loopOut (fileStep n) k (acc, p) = .ok (rules, q)) (hq : ∀ d ∈ q.errors, ¬ CutOff c d) :
    ∃ j r, j ≤ k ∧ Scans L' [r.curTok, r.peekTok] r.lx ∧ r.errors = q.errors ∧ r.env = q.env ∧ r.tasks = q.tasks ∧
      ∀ i, loopOut (fileStep n) (j + i) (acc, p⟪m⟫) = loopOut (fileStep n) i (rules, r) := by
  induction k generalizing acc p m with
  | zero => cases h
  | succ k ih =>
    rw [loopOut, fileStep_eq] at h
    rw [if_neg hp.2.1] at h
    cases hr : parseRule n p with
    | panic w => rw [hr] at h; cases h
    | hang => rw [hr] at h; cases h
    | ok x =>
      obtain ⟨e, err, q1⟩ := x
      have hstep := parseRule_step _ hr
      rw [hr] at h
      cases hnx : (q1.record err).next with
      | panic w => simp only [hnx, Out.bind_def, Out.bind] at h; cases h
      | hang => simp only [hnx, Out.bind_def, Out.bind] at h; cases h
      | ok p1 =>
        simp only [hnx, Out.bind_def, Out.bind] at h
        obtain ⟨rest1, hrun, hrest⟩ := fileLoop_run k _ p1 _ h
        have hcur := rule_stays hj hp hstep fun d hd => hq d <| (run_errors hrun).subset <| by
          rw [(round_errors hstep hnx).1, hd]; simp
        rcases R_rule (T := joinTwins hj) hp _ hr with hg | ⟨m1, ht1, hr1⟩
        · exact absurd (gone_cur hj hg) hcur
        · have hset : HasLx.set (e, err, q1) m1 = (e, err, q1⟪m1⟫) := rfl
          have hrec : q1⟪m1⟫.record err = (q1.record err)⟪m1.record err⟫ := by cases err <;> rfl
          replace ht1 : (joinTwins hj).near (q1.record err) (m1.record err) := near_recorded hj ht1
          generalize q1.record err = Q at hnx ht1 hrec
          generalize m1.record err = M at ht1 hrec
          rcases rel_next ht1 _ hnx with hg | ⟨m2, ht3, hn2⟩
          · have hend : p1.cur = .EOF := gone_cur hj hg
            obtain ⟨⟨f1, f2, f3⟩, _, ⟨_, us, h1, h2, h3, h4⟩ | ⟨h1, h2, h3⟩⟩ := ht1
            · exfalso
              have : p1.cur = Q.peek := next_cur hnx
              exact h4 Q.peekTok List.mem_cons_self (this.symm.trans hend)
            · obtain ⟨u, v, l, hu⟩ := hj.two
              cases hu with
              | cons hu hv =>
                cases hv with
                | cons hv hw =>
                  cases hw
                  cases h3 with
                  | cons g1 g2 =>
                    rename_i l1 _ _ _ _ _ _ l2
                    rw [hu] at g1
                    cases g1
                    cases g2
                    cases k with
                    | zero => cases h
                    | succ k =>
                    rw [loopOut, fileStep_eq, if_pos hend] at h
                    cases h
                    refine ⟨1, ⟨l, M.errors, M.pos, _, M.tok, _, M.lit, _, M.env, M.tasks⟩, by omega,
                      .cons hu (.cons hv (.nil _)), ?_, ?_, ?_, fun i => ?_⟩
                    · obtain ⟨_, _, _, _, _, rfl⟩ := next_scan hnx
                      exact f1
                    · obtain ⟨_, _, _, _, _, rfl⟩ := next_scan hnx
                      exact f2
                    · obtain ⟨_, _, _, _, _, rfl⟩ := next_scan hnx
                      exact f3
                    · rw [Nat.add_comm, loopOut, fileStep_eq, if_neg hp.2.1, hr1, hset]
                      simp only [Out.bind_def, Out.bind, hrec]
                      dsimp only [PState.next]
                      rw [hv]
                      rfl
          · obtain ⟨j, r, a1, a2, a3, a4, a5, a6⟩ := ih ht3 h
            refine ⟨j + 1, r, by omega, a2, a3, a4, a5, fun i => ?_⟩
            rw [show j + 1 + i = (j + i) + 1 by omega, loopOut, fileStep_eq, if_neg hp.2.1, hr1, hset]
            have hn2' : Q⟪M⟫.next = .ok p1⟪m2⟫ := hn2
            simp only [Out.bind_def, Out.bind, hrec, hn2']
            exact a6 i

end

/-! ### The parser with other bindings and tasks -/

omit [Unicode] in
theorem assoc_append {α : Type} (k : Bytes) (xs ys : List (Bytes × α)) :
    assocFind k (xs ++ ys) = (assocFind k xs).or (assocFind k ys) := by
  induction xs with
  | nil => rfl
  | cons x xs ih =>
    obtain ⟨a, b⟩ := x
    simp only [List.cons_append, assocFind]
    split
    · rfl
    · exact ih

/-- Rules only add bindings, and of new names. -/
theorem ruleStep_adds {e err} (h : RuleStep p e err q) :
    ∃ bs, q.env.symbols = bs ++ p.env.symbols ∧ ∀ k, p.env.exists? k = true → assocFind k bs = none := by
  have hadd : ∀ {a b : Env} {k x t}, a = p.env → a.add k x = (b, t) →
      ∃ bs, b.symbols = bs ++ p.env.symbols ∧ ∀ k, p.env.exists? k = true → assocFind k bs = none := by
    rintro a b k x t rfl h
    unfold Env.add at h
    split at h
    · cases h; exact ⟨[], rfl, fun _ _ => rfl⟩
    · rename_i hno
      cases h
      refine ⟨[(k, x)], rfl, fun k' hk => ?_⟩
      simp only [assocFind]
      rw [if_neg]
      rintro rfl
      exact hno hk
  have same : ∀ {r : PState}, Reach p r → ∃ bs, r.env.symbols = bs ++ p.env.symbols ∧ ∀ k, p.env.exists? k = true → assocFind k bs = none :=
    fun h => ⟨[], by rw [h.frame.1]; rfl, fun _ _ => rfl⟩
  cases h with
  | comment _ h => exact same (comments_reach h)
  | bound _ h1 _ h2 hd ht ha => exact hadd (Reach.step h1 (.step h2 ((der_reach hd).trans (ruleTrail_reach ht)))).frame.1 ha
  | @dup _ _ _ p4 _ _ _ _ _ h1 _ h2 hd ht _ _ => exact same (r := p4) (Reach.step h1 (.step h2 ((der_reach hd).trans (ruleTrail_reach ht))))
  | choice _ h1 _ h2 hd ht => exact same (Reach.step h1 (.step h2 ((der_reach hd).trans (ruleTrail_reach ht))))
  | failed _ h1 _ h2 _ h3 => exact same (Reach.step h1 (.step h2 ((parseEntry_reach _) _ _ _ h3)))
  | noAssign _ h1 => exact same (Reach.step h1 (.refl _))
  | noIdent => exact same (.refl _)

theorem run_adds {rules} (h : FileRun p rules q) :
    ∃ bs, q.env.symbols = bs ++ p.env.symbols ∧ ∀ k, p.env.exists? k = true → assocFind k bs = none := by
  induction h with
  | stop => exact ⟨[], rfl, fun _ _ => rfl⟩
  | @step p q r s e err rules _ hst hn _ ih =>
    obtain ⟨bs, h1, n1⟩ := ruleStep_adds hst
    obtain ⟨cs, h2, n2⟩ := ih
    have h3 : r.env = q.env := (next_fields hn).2.2.2.1.trans (record_fields q err).2.2.2.2.1
    refine ⟨cs ++ bs, by rw [h2, h3, h1, List.append_assoc], fun k hk => ?_⟩
    rw [assoc_append, n1 k hk, n2 k]
    · rfl
    · simp only [Env.exists?] at hk ⊢
      rw [h3, h1, assoc_append, n1 k hk]
      simpa using hk

/-- All names of the first are bound likewise in the second. -/
def Below (e1 e2 : Env) : Prop := ∀ k, e1.exists? k = true → assocFind k e2.symbols = assocFind k e1.symbols

/-- The second parser has other bindings to begin with, more tasks and diagnostics `es`. It does the same, until the first
declares a name that only the second knows or, if the second does not have all bindings of the first, reports an error. -/
def frameTwins (e1 e2 : Env) (ts : List Task) (es : List Diag) : Twins where
  gone p := (p.errors ≠ [] ∧ ¬ Below e1 e2) ∨ ∃ k, p.env.exists? k = true ∧ e2.exists? k = true ∧ e1.exists? k = false
  near p m := m.lx = p.lx ∧ p.peekTok = m.token ∧ m.errors = es ++ p.errors ∧ m.tasks = ts ++ p.tasks ∧
    ∃ bs, p.env.symbols = bs ++ e1.symbols ∧ m.env.symbols = bs ++ e2.symbols
  gone_next := by
    rintro p q h hn
    obtain ⟨t, x, s, l, h1, rfl⟩ := next_scan hn
    exact h
  gone_task h := h
  gone_declare := by
    rintro p q i x h hd
    unfold declare Env.add at hd
    split at hd
    · rename_i env he
      cases hd
      split at he
      · cases he
      · cases he
        refine h.imp id ?_
        rintro ⟨k, h1, h2⟩
        refine ⟨k, ?_, h2⟩
        simp only [Env.exists?, assocFind]
        split
        · rfl
        · exact h1
    · rename_i env he
      cases hs : (env.get i.name).start with
      | ok s =>
        rw [hs] at hd
        cases hd
        split at he <;> cases he
        exact h.imp (fun h => ⟨by simp [addError], h.2⟩) id
      | panic w => rw [hs] at hd; cases hd
      | hang => rw [hs] at hd; cases hd
  near_next := by
    rintro p q ⟨_, _, _, _, _, _, _⟩ ⟨h1, h2, h4, h5, h6⟩ hn
    cases h1
    cases h2
    obtain ⟨t, x, s, l, hs, rfl⟩ := next_scan hn
    refine .inr ⟨⟨l, t, x, s, _, _, _⟩, ⟨rfl, rfl, h4, h5, h6⟩, ?_⟩
    dsimp only [PState.next]
    rw [hs]
    rfl
  near_task := by
    rintro p m t ⟨h1, h2, h4, h5, h6⟩
    exact ⟨h1, h2, h4, by simp [Side.addTask, addTask, h5], h6⟩
  near_declare := by
    rintro p q m i x ⟨h1, h2, h4, h5, bs, h6, h7⟩ hd
    unfold declare Env.add at hd
    split at hd
    · rename_i env he
      cases hd
      split at he
      · cases he
      · rename_i hno
        cases he
        by_cases hm : e2.exists? i.name = true
        · left
          right
          refine ⟨i.name, ?_, hm, ?_⟩
          · simp [Env.exists?, assocFind]
          · cases hb : e1.exists? i.name with
            | false => rfl
            | true =>
              exfalso
              apply hno
              simp only [Env.exists?] at hb ⊢
              rw [h6, assoc_append]
              cases assocFind i.name bs <;> simp [hb]
        · right
          refine ⟨{ m with env := ⟨(i.name, x) :: m.env.symbols⟩ }, ⟨h1, h2, h4, h5, (i.name, x) :: bs, ?_, ?_⟩, ?_⟩
          · simp [h6]
          · simp [h7]
          · have hno' : m.env.exists? i.name = false := by
              simp only [Env.exists?] at hno hm ⊢
              rw [h6, assoc_append] at hno
              rw [h7, assoc_append]
              cases hf : assocFind i.name bs with
              | some y => rw [hf] at hno; simp at hno
              | none => simpa using hm
            unfold declare Env.add
            simp only [hno']
            rfl
    · rename_i env he
      cases hs : (env.get i.name).start with
      | ok s =>
        rw [hs] at hd
        cases hd
        by_cases hb : Below e1 e2
        · right
          split at he <;> cases he
          rename_i hyes
          have hsame : assocFind i.name m.env.symbols = assocFind i.name p.env.symbols := by
            rw [h6, h7, assoc_append, assoc_append]
            cases hf : assocFind i.name bs with
            | some y => rfl
            | none =>
              simp only [Env.exists?] at hyes
              rw [h6, assoc_append, hf] at hyes
              exact hb i.name (by simpa [Env.exists?] using hyes)
          have hex : m.env.exists? i.name = true := by
            simp only [Env.exists?] at hyes ⊢
            rw [hsame, hyes]
          have hget : m.env.get i.name = p.env.get i.name := by
            simp only [Env.get, hsame]
          refine ⟨{ m with errors := m.errors ++ [⟨.existing i.name s.line s.column, i.pos, i.pos⟩] },
            ⟨h1, h2, by simp [addError, h4], h5, bs, h6, h7⟩, ?_⟩
          unfold declare Env.add
          simp only [hex, if_true]
          rw [hget, hs]
          rfl
        · exact .inl (.inl ⟨by simp [addError], hb⟩)
      | panic w => rw [hs] at hd; cases hd
      | hang => rw [hs] at hd; cases hd
  look h := .inl h.2.1

section
variable {e1 e2 : Env} {ts : List Task} {es : List Diag}

theorem frame_run {rules} (h : FileRun p rules q) (hg : (frameTwins e1 e2 ts es).gone p) : (frameTwins e1 e2 ts es).gone q := by
  rcases hg with ⟨hg, hb⟩ | ⟨k, h1, h2⟩
  · left
    refine ⟨fun hq => ?_, hb⟩
    have := run_errors h
    rw [hq] at this
    exact hg (List.prefix_nil.mp this)
  · right
    refine ⟨k, ?_, h2⟩
    obtain ⟨bs, hb, _⟩ := run_adds h
    simp only [Env.exists?] at h1 ⊢
    rw [hb, assoc_append]
    cases assocFind k bs <;> simp [h1]

theorem frame_record (err : Option Diag) (hg : (frameTwins e1 e2 ts es).gone p) : (frameTwins e1 e2 ts es).gone (p.record err) := by
  cases err with
  | none => exact hg
  | some d => exact hg.imp (fun h => ⟨by simp [record, addError], h.2⟩) id

theorem frame_near_record (err : Option Diag) (hp : (frameTwins e1 e2 ts es).near p m) :
    ∃ m', (frameTwins e1 e2 ts es).near (p.record err) m' ∧ p⟪m⟫.record err = (p.record err)⟪m'⟫ := by
  cases err with
  | none => exact ⟨m, hp, rfl⟩
  | some d =>
    obtain ⟨h1, h2, h4, h5, h6⟩ := hp
    exact ⟨{ m with errors := m.errors ++ [d] }, ⟨h1, h2, by simp [record, addError, h4], h5, h6⟩, rfl⟩

/-- The loop over the rules, with other rules before. -/
theorem frame_file (k : Nat) {acc acc' rules : List Node} (hp : (frameTwins e1 e2 ts es).near p m)
    (h : loopOut (fileStep n) k (acc, p) = .ok (rules, q)) (hq : ¬ (frameTwins e1 e2 ts es).gone q) :
    ∃ m' rest, (frameTwins e1 e2 ts es).near q m' ∧ rules = acc ++ rest ∧
      loopOut (fileStep n) k (acc', p⟪m⟫) = .ok (acc' ++ rest, q⟪m'⟫) := by
  induction k generalizing acc acc' p m with
  | zero => cases h
  | succ k ih =>
    rw [loopOut, fileStep_eq] at h ⊢
    by_cases heof : p.cur = .EOF
    · rw [if_pos heof] at h
      cases h
      rw [if_pos heof]
      exact ⟨m, [], hp, by simp, by simp⟩
    · rw [if_neg heof] at h
      rw [if_neg heof]
      cases hr : parseRule n p with
      | panic w => rw [hr] at h; cases h
      | hang => rw [hr] at h; cases h
      | ok x =>
        obtain ⟨e, err, q1⟩ := x
        have hstep := parseRule_step _ hr
        rw [hr] at h
        cases hnx : (q1.record err).next with
        | panic w => simp only [hnx, Out.bind_def, Out.bind] at h; cases h
        | hang => simp only [hnx, Out.bind_def, Out.bind] at h; cases h
        | ok p1 =>
          simp only [hnx, Out.bind_def, Out.bind] at h
          obtain ⟨rest1, hrun, hrest⟩ := fileLoop_run k _ p1 _ h
          have hng : ¬ (frameTwins e1 e2 ts es).gone p1 := fun hg => hq (frame_run hrun hg)
          rcases R_rule (T := frameTwins e1 e2 ts es) hp _ hr with hg | ⟨m1, ht1, hr1⟩
          · exact absurd ((frameTwins e1 e2 ts es).gone_next (frame_record err hg) hnx) hng
          · obtain ⟨m3, ht2, hrec'⟩ := frame_near_record (p := q1) err ht1
            have hset : HasLx.set (e, err, q1) m1 = (e, err, q1⟪m1⟫) := rfl
            rcases rel_next ht2 _ hnx with hg | ⟨m2, ht3, hn2⟩
            · exact absurd hg hng
            · obtain ⟨m', rest, a1, a2, a3⟩ := ih (acc' := if e.isNil then acc' else acc' ++ [e]) (p := p1) ht3 h
              refine ⟨m', (if e.isNil then [] else [e]) ++ rest, a1, ?_, ?_⟩
              · rw [a2]; split <;> simp
              · have hn2' : (q1⟪m1⟫.record err).next = .ok p1⟪m2⟫ := by rw [hrec']; exact hn2
                rw [hr1, hset]
                simp only [Out.bind_def, Out.bind]
                rw [hn2']
                dsimp only
                rw [a3]
                split <;> simp

end

/-! ### Two sources -/

/-- The rules of a source that is read well. -/
theorem well_loop {src : Bytes} {env : Env} {res : FileResult} {rules} (h : parseSource n src env = .ok res)
    (hw : ReadWell res rules) : ∃ p q, PState.new (Lexer.new src) env = .ok p ∧ p.lx.errors = [] ∧
      loopOut (fileStep n) n ([], p) = .ok (rules, q) ∧ q.errors = [] ∧ q.env = res.final.env ∧ q.tasks = res.final.tasks ∧
      res.errs = q.tasks.filterMap (runTask q.env) := by
  unfold parseSource at h
  cases hp : PState.new (Lexer.new src) env with
  | panic w => rw [hp] at h; cases h
  | hang => rw [hp] at h; cases h
  | ok p =>
    have h0 := h
    rw [hp] at h
    dsimp only [Out.bind_def, Out.bind] at h
    unfold parseFile at h
    split at h
    · cases h; cases hw.1
    · rename_i hl
      cases hq : loopOut (fileStep n) n ([], p) with
      | panic w => rw [hq] at h; cases h
      | hang => rw [hq] at h; cases h
      | ok x =>
        obtain ⟨rs, q⟩ := x
        rw [hq] at h
        cases h
        cases hw.1
        have hrun := fileLoop_run n [] p _ hq
        obtain ⟨rs', hrun, hrs⟩ := hrun
        have hs := new_synced p hp
        have hsound : Sound (Lexer.new src) q := run_sound hrun
          ⟨⟨⟨[], hs.1⟩, by rw [hs.2.2.2]; exact fun d hd => (List.not_mem_nil hd).elim, new_spells src⟩,
            by rw [hs.2.2.1]; exact fun d hd => (List.not_mem_nil hd).elim⟩
        have hq0 : q.errors = [] := by
          cases hqe : q.errors with
          | nil => rfl
          | cons d ds =>
            have h1 := hsound.immediate d (by rw [hqe]; exact List.mem_cons_self)
            have h2 := hw.2 d (by show d ∈ q.errors ++ _; rw [hqe]; simp)
            rw [h1] at h2
            cases h2
        refine ⟨p, q, rfl, by simpa using hl, hq, hq0, rfl, rfl, ?_⟩
        show q.errors ++ _ = _
        rw [hq0]
        rfl

/-- Nothing is reported but by the checks at the end. -/
def Quiet (r : FileResult) (rules : List Node) : Prop :=
  r.cddl = some rules ∧ r.errs = r.final.tasks.filterMap (runTask r.final.env)

theorem well_quiet {src : Bytes} {env : Env} {res : FileResult} {rules} (h : parseSource n src env = .ok res)
    (hw : ReadWell res rules) : Quiet res rules := by
  obtain ⟨_, _, _, _, _, _, h1, h2, h3⟩ := well_loop h hw
  exact ⟨hw.1, by rw [h3, h1, h2]⟩

/-- The rules of such a source. -/
theorem quiet_loop {src : Bytes} {env : Env} {res : FileResult} {rules} (h : parseSource n src env = .ok res)
    (hw : Quiet res rules) : ∃ p q, PState.new (Lexer.new src) env = .ok p ∧ p.lx.errors = [] ∧
      loopOut (fileStep n) n ([], p) = .ok (rules, q) ∧ q.errors = [] ∧ q.env = res.final.env ∧ q.tasks = res.final.tasks := by
  unfold parseSource at h
  cases hp : PState.new (Lexer.new src) env with
  | panic w => rw [hp] at h; cases h
  | hang => rw [hp] at h; cases h
  | ok p =>
    rw [hp] at h
    dsimp only [Out.bind_def, Out.bind] at h
    unfold parseFile at h
    split at h
    · cases h; cases hw.1
    · rename_i hl
      cases hq : loopOut (fileStep n) n ([], p) with
      | panic w => rw [hq] at h; cases h
      | hang => rw [hq] at h; cases h
      | ok x =>
        obtain ⟨rs, q⟩ := x
        rw [hq] at h
        cases h
        obtain ⟨h1, h2⟩ := hw
        cases h1
        have h3 : q.errors ++ q.tasks.filterMap (runTask q.env) = q.tasks.filterMap (runTask q.env) := h2
        exact ⟨p, q, rfl, by simpa using hl, hq, List.append_left_eq_self.mp h3, rfl, rfl⟩

/-- A source that is read well begins with a rule or a comment. -/
theorem well_first {acc rules : List Node} {k : Nat} (h : loopOut (fileStep n) k (acc, p) = .ok (rules, q)) (hq : q.errors = []) :
    fringe p.cur := by
  obtain ⟨rest, hrun, _⟩ := fileLoop_run k acc p _ h
  cases hrun with
  | stop h => exact .inl h
  | @step _ q1 r _ e err _ _ hst hn hr =>
    have h1 : r.errors = [] := by
      have := run_errors hr
      rw [hq] at this
      exact List.prefix_nil.mp this
    have h2 := (round_errors hst hn).1
    rw [h1] at h2
    cases hst with
    | comment h => exact .inr (.inr h)
    | noIdent => simp at h2
    | _ h => exact .inr (.inl h)

theorem scans_same {l l1 l2 : Lexer} {us vs : List Token} (h : Scans l us l1) (h' : Scans l vs l2)
    (hl : us.length = vs.length) : us = vs ∧ l1 = l2 := by
  induction h generalizing vs with
  | nil =>
    cases vs with
    | nil => cases h'; exact ⟨rfl, rfl⟩
    | cons => simp at hl
  | cons h1 _ ih =>
    cases h' with
    | nil => simp at hl
    | cons h2 h3 =>
      rw [h1] at h2
      cases h2
      obtain ⟨rfl, rfl⟩ := ih h3 (by simpa using hl)
      exact ⟨rfl, rfl⟩

omit [Unicode] in
theorem reading_refl (k : Nat) {r r' : List Char} [Unicode] (h : r.dropWhile ws = r'.dropWhile ws)
    (after : Bool) (hn : after = true → ('\n' ∈ r.takeWhile ws ↔ '\n' ∈ r'.takeWhile ws)) : RenamedReading id k after r r' := by
  induction k generalizing r r' after with
  | zero => trivial
  | succ k ih =>
    unfold RenamedReading
    rw [h]
    cases hx : lexeme (r'.dropWhile ws) with
    | none => trivial
    | some x =>
      refine ⟨rfl, ?_, rfl, fun ha _ => hn ha, ih rfl _ fun _ => Iff.rfl⟩
      simp [renameLit]

/-- The rules of any source. -/
theorem any_loop {src : Bytes} {env : Env} {res : FileResult} {rules} (h : parseSource n src env = .ok res)
    (hw : res.cddl = some rules) : ∃ p q, PState.new (Lexer.new src) env = .ok p ∧ p.lx.errors = [] ∧
      loopOut (fileStep n) n ([], p) = .ok (rules, q) ∧ q.env = res.final.env ∧ q.tasks = res.final.tasks ∧
      res.errs = q.errors ++ res.final.tasks.filterMap (runTask res.final.env) := by
  unfold parseSource at h
  obtain ⟨p, hp, h⟩ := Out.bind_eq_ok.mp h
  unfold parseFile at h
  split at h
  · cases h; cases hw
  · rename_i hl
    obtain ⟨⟨rs, q⟩, hq, h⟩ := Out.bind_eq_ok.mp h
    cases h
    cases hw
    exact ⟨p, q, hp, by simpa using hl, hq, rfl, rfl, rfl⟩

/-- The two sources one behind the other, with the diagnostics `es` for rules of the first and `es'` for those of the
second. -/
theorem join_any {t b : List Char} (hA : Whole (t ++ ['\n'])) (hB : '\uFFFD' ∉ b) {env e1 : Env} {rA rB : FileResult}
    {xs ys : List Node} {na nb : Nat} (pA : parseSource na (enc (t ++ ['\n'])) env = .ok rA) (tA : rA.cddl = some xs) {es : List Diag}
    (hes : rA.errs = es ++ rA.final.tasks.filterMap (runTask rA.final.env)) (hst : Finished (enc (t ++ ['\n'])) es)
    (pB : parseSource nb (enc b) e1 = .ok rB) (tB : rB.cddl = some ys) {es' : List Diag}
    (hes' : rB.errs = es' ++ rB.final.tasks.filterMap (runTask rB.final.env))
    (hF : ∀ f, PState.new (Lexer.new (enc b)) e1 = .ok f → fringe f.cur) (hbel : es' = [] ∨ Below e1 rA.final.env)
    (hd : ∀ k, rA.final.env.exists? k = true → rB.final.env.exists? k = true → e1.exists? k = true) :
    ∃ n r zs es2 bs bs', parseSource n (enc (t ++ '\n' :: b)) env = .ok r ∧ r.cddl = some zs ∧ noPosL zs = noPosL (xs ++ ys) ∧
      r.errs = es ++ es2 ++ r.final.tasks.filterMap (runTask r.final.env) ∧ es2.map dm = es'.map dm ∧
      r.final.tasks.map noPosTask = (rA.final.tasks ++ rB.final.tasks).map noPosTask ∧
      r.final.env.symbols = bs ++ rA.final.env.symbols ∧ rB.final.env.symbols = bs' ++ e1.symbols ∧
      noPosEnv ⟨bs⟩ = noPosEnv ⟨bs'⟩ ∧ ∀ k, e1.exists? k = true → assocFind k bs' = none := by
  obtain ⟨hcl, _, c, ⟨ts, L, x, s, L1, hs, hne, he, hle⟩, hcc, hcr⟩ := hA
  have pA' : parseSource (max na nb) (enc (t ++ ['\n'])) env = .ok rA := by
    rcases parseSource_le (Nat.le_max_left na nb) (src := enc (t ++ ['\n'])) (env := env) with h1 | h1
    · rw [h1] at pA; cases pA
    · rw [← h1, pA]
  have pB' : parseSource (max na nb) (enc b) e1 = .ok rB := by
    rcases parseSource_le (Nat.le_max_right na nb) (src := enc b) (env := e1) with h1 | h1
    · rw [h1] at pB; cases pB
    · rw [← h1, pB]
  generalize max na nb = n at pA' pB'
  clear pA pB
  obtain ⟨p, q, hp, hpl, hq, hqv, hqt, hqe⟩ := any_loop pA' tA
  have hqe : q.errors = es := List.append_cancel_right (hqe.symm.trans hes)
  have hfin : ∀ d ∈ q.errors, ¬ CutOff c d := hqe ▸ hst c ⟨ts, L, x, s, L1, hs, hne, he, hle⟩
  obtain ⟨p', q', hp', hpl', hq', hqv', hqt', hqe'⟩ := any_loop pB' tB
  have hqe' : q'.errors = es' := List.append_cancel_right (hqe'.symm.trans hes')
  have ht : '\uFFFD' ∉ t := fun h => hcl (by simp [h])
  obtain ⟨L', done, r, hs', hcln, hdw, hnl, hee, hline⟩ := join_lex ht hB hs hne he
  have hLe : L'.errors = [] := by rw [← hee, hle]
  -- the second source alone, and behind the first
  have hsim : Out.Same (fun a b => Sim id a b ∧ (a.lx.errors = [] ↔ b.lx.errors = [])) (PState.new L' e1) (PState.new (Lexer.new (enc b)) e1) := by
    unfold PState.new
    have h0 : Sim id ⟨L', [], {}, {}, .ILLEGAL, .ILLEGAL, [], [], e1, []⟩
        ⟨Lexer.new (enc b), [], {}, {}, .ILLEGAL, .ILLEGAL, [], [], e1, []⟩ :=
      ⟨renaming_id, rfl, rfl, rfl, rfl, rfl, rfl, by simp [renameEnv, rename_id], fun hk => absurd hk (by simp), fun k =>
        toks_reading k hcln (Lexer.clean_new hB) (by simp [hLe, clean_new_errors]) (reading_refl k hdw false (by simp)) ⟨rfl, rfl⟩⟩
    exact Out.Same.bind (sim_next h0) fun a b hab => (sim_next' hab).mono fun _ _ h => ⟨h.1.1, h.2⟩
  rw [hp'] at hsim
  cases ha : PState.new L' e1 with
  | panic w => rw [ha] at hsim; exact hsim.elim
  | hang => rw [ha] at hsim; exact hsim.elim
  | ok a =>
  rw [ha] at hsim
  obtain ⟨hsim, hae⟩ := hsim
  have hae := hae.mpr hpl'
  obtain ⟨has, hav, hars, hat⟩ := new_synced a ha
  have hfirst : fringe a.cur := hsim.cur ▸ hF _ hp'
  have hj : Seam L L' c := by
    refine ⟨hne c (by simp), hcc, ?_, ⟨_, _, _, has⟩, ?_⟩
    · intro us l h u hu
      cases us with
      | nil => cases hu
      | cons y us =>
        cases h with
        | cons h1 h2 =>
          rw [he] at h1
          cases h1
          rcases List.mem_cons.mp hu with rfl | hu
          · rfl
          · have := (C03_eof_absorbing (scans_push hs he) rfl).2
            obtain ⟨_, _, _, h3⟩ := this
            rw [(h3 _ _ h2).1 u hu]
    · intro u v l l' h1 h2
      have hu : u.tok = .EOF := by
        cases h1 with
        | cons h1 _ => rw [he] at h1; cases h1; rfl
      obtain ⟨l2, h3, _⟩ := scans_split (ts := [a.curTok]) (us := [a.peekTok]) has
      obtain ⟨h4, rfl⟩ := scans_same h2 h3 rfl
      cases h4
      refine ⟨hcc, hcr, ⟨.inl hu, hfirst⟩, fun h => (by rw [hu] at h; cases h), fun _ => ?_⟩
      cases h3 with
      | cons h3 _ =>
        obtain ⟨y, _, _, _, hpos, _⟩ := Lexer.clean_scan_ok hcln h3
        have h5 := hline c (by simp)
        show c.pos.line ≠ a.pos.line
        rw [hpos]
        have : (Lexer.posAfter done).line < (Lexer.posAfter (done ++ r.takeWhile ws)).line := by
          simp only [Lexer.posAfter, List.count_append]
          have := List.count_pos_iff.mpr hnl
          omega
        omega
  -- the first source, alone and with more behind it
  have hnew : Rel (joinTwins hj) (PState.new (Lexer.new (enc (t ++ ['\n']))) env) (PState.new (Lexer.new (enc (t ++ '\n' :: b))) env) := by
    unfold PState.new
    refine Rel.bind (rel_next (m := ⟨Lexer.new (enc (t ++ '\n' :: b)), .ILLEGAL, {}, [], [], env, []⟩)
      ⟨⟨rfl, rfl, rfl⟩, by simp, .inl ⟨rfl, _, hs, hs', ?_, ?_⟩⟩) (fun q hq => past_next hq) fun q m hq => rel_next hq
    · rw [List.getLast?_cons]; simp
    · intro y hy
      rcases List.mem_cons.mp hy with rfl | hy
      · simp [peekTok]
      · exact hne y hy
  have hps := (new_synced p hp).1
  have hpc : p.cur ≠ .EOF := by
    obtain ⟨l2, h3, _⟩ := scans_split (ts := [p.curTok]) (us := [p.peekTok]) hps
    have h4 := scans_det h3 hs (by simp)
    exact hne p.curTok (h4.subset (by simp))
  rcases hnew _ hp with hg | ⟨m, hm, hp2⟩
  · exact absurd (gone_cur hj hg) hpc
  obtain ⟨j, w, hjn, hw, hwe, hwv, hwt, hloop⟩ := join_file (p := p) hj n hm hq hfin
  obtain ⟨htok, hlx⟩ := scans_same hw has rfl
  -- behind the first, the second is read as alone
  have hfr : (frameTwins e1 q.env q.tasks es).near a ⟨w.lx, w.peek, w.peekPos, w.peekLit, w.errors, w.env, w.tasks⟩ := by
    refine ⟨hlx, ?_, by rw [hars, List.append_nil]; exact hwe.trans hqe, by rw [hwt, hat]; simp, [], by rw [hav]; rfl, by rw [hwv]; rfl⟩
    exact (List.cons.inj (List.cons.inj htok).2).1.symm
  have hsl := S_loop n n (xs := []) (ys := []) rfl hsim
  rw [hq'] at hsl
  cases hl : loopOut (fileStep n) n ([], a) with
  | panic w => rw [hl] at hsl; exact hsl.elim
  | hang => rw [hl] at hsl; exact hsl.elim
  | ok z =>
  obtain ⟨ys', z⟩ := z
  rw [hl] at hsl
  obtain ⟨hys, hz⟩ := hsl
  simp only [renameL_id] at hys
  have hze : z.errors.map dm = es'.map dm := by
    have := hz.errs
    rw [hqe', show dmr id = dm from funext fun d => by rw [dmr, renameMsg_id, dm]] at this
    exact this
  have hng : ¬ (frameTwins e1 q.env q.tasks es).gone z := by
    rintro (⟨h, hb⟩ | ⟨k, h1, h2, h3⟩)
    · rcases hbel with rfl | hbel
      · exact h (by simpa using hze)
      · exact hb (hqv ▸ hbel)
    · rw [env_exists renaming_id hz.env k, hqv'] at h1
      rw [hqv] at h2
      rw [hd k h2 h1] at h3
      cases h3
  obtain ⟨m', rest, ⟨-, -, g4, g5, bs, g6, g7⟩, hrest, hfin⟩ := frame_file n (acc' := xs) hfr hl hng
  have haw : a⟪⟨w.lx, w.peek, w.peekPos, w.peekLit, w.errors, w.env, w.tasks⟩⟫ = w := by
    have h1 := (List.cons.inj htok).1
    simp only [curTok, Token.mk.injEq] at h1
    dsimp only
    rw [← h1.1, ← h1.2.1, ← h1.2.2]
  rw [haw, ← hloop n] at hfin
  have hbig : loopOut (fileStep (n + n)) (n + n) ([], p⟪m⟫) = .ok (xs ++ rest, z⟪m'⟫) := by
    rcases loopOut_le (fileStep_le (n := n) (m := n + n) (by omega)) (n := j + n) (m := n + n) (by omega) ([], p⟪m⟫) with h | h
    · rw [h] at hfin; cases hfin
    · rw [← h, hfin]
  have hml : m.lx.errors = [] := by
    have hm2 := (new_synced _ hp2).1
    have hc0 := Lexer.clean_new (cs := t ++ '\n' :: b) (by simp [ht, hB])
    obtain ⟨_, d1, r1, hcm⟩ := scans_errors hc0 hm2
    have hpre : ∃ us, Scans m.lx us a.lx := by
      obtain ⟨_, _, ⟨_, us, _, h2, _⟩ | ⟨_, _, h2⟩⟩ := hm
      · exact ⟨_, scans_append h2 has⟩
      · obtain ⟨l2, h3, h4⟩ := scans_split (ts := [a.curTok]) (us := [a.peekTok]) has
        obtain ⟨_, h5⟩ := scans_same h2 h3 rfl
        exact ⟨_, h5 ▸ h4⟩
    obtain ⟨us, hpre⟩ := hpre
    have := (scans_errors hcm hpre).1
    rw [hae] at this
    exact List.prefix_nil.mp this
  obtain ⟨bs', hbs', hnew'⟩ : ∃ bs', rB.final.env.symbols = bs' ++ e1.symbols ∧ ∀ k, e1.exists? k = true → assocFind k bs' = none := by
    obtain ⟨_, hrun, _⟩ := fileLoop_run n [] p' _ hq'
    obtain ⟨bs', h, h'⟩ := run_adds hrun
    rw [(new_synced p' hp').2.1] at h h'
    exact ⟨bs', by rw [← hqv', h], h'⟩
  refine ⟨n + n, ⟨some (xs ++ rest), z⟪m'⟫.runTasks.errors, z⟪m'⟫.runTasks⟩, xs ++ rest, z.errors, bs, bs', ?_, rfl, ?_, ?_, hze, ?_, ?_, hbs', ?_, hnew'⟩
  rotate_left 5
  · show noPosEnv ⟨bs⟩ = _
    have h1 := hz.env
    rw [renameEnv_id, hqv'] at h1
    simp only [noPosEnv, g6, hbs', List.map_append] at h1 ⊢
    exact List.append_cancel_right h1
  · unfold parseSource
    rw [hp2]
    show parseFile (n + n) p⟪m⟫ = _
    unfold parseFile
    rw [if_neg (fun h => h hml), hbig]
    rfl
  · rw [noPosL_map, noPosL_map, List.map_append, List.map_append, ← noPosL_map ys, ← hys, hrest, noPosL_map]
    rfl
  · show m'.errors ++ _ = _
    rw [g4]
    rfl
  · show m'.tasks.map noPosTask = _
    have h1 := hz.tasks
    have hid : ∀ t, noPosTask (renameTask id t) = noPosTask t := by
      intro t
      cases t <;> simp [renameTask, rename_id]
    simp only [hid] at h1
    rw [g5, List.map_append, h1, hqt, hqt', List.map_append]
  · show m'.env.symbols = _
    rw [g7, hqv]

/-- The second source in which nothing is reported but by the checks at the end. -/
theorem join_mistakes {t b : List Char} (hA : Whole (t ++ ['\n'])) (hB : '\uFFFD' ∉ b) {env e1 : Env} {rA rB : FileResult}
    {xs ys : List Node} {na nb : Nat} (pA : parseSource na (enc (t ++ ['\n'])) env = .ok rA) (tA : rA.cddl = some xs) {es : List Diag}
    (hes : rA.errs = es ++ rA.final.tasks.filterMap (runTask rA.final.env)) (hst : Finished (enc (t ++ ['\n'])) es)
    (pB : parseSource nb (enc b) e1 = .ok rB) (wB : Quiet rB ys)
    (hd : ∀ k, rA.final.env.exists? k = true → rB.final.env.exists? k = true → e1.exists? k = true) :
    ∃ n r zs bs bs', parseSource n (enc (t ++ '\n' :: b)) env = .ok r ∧ r.cddl = some zs ∧ noPosL zs = noPosL (xs ++ ys) ∧
      r.errs = es ++ r.final.tasks.filterMap (runTask r.final.env) ∧
      r.final.tasks.map noPosTask = (rA.final.tasks ++ rB.final.tasks).map noPosTask ∧
      r.final.env.symbols = bs ++ rA.final.env.symbols ∧ rB.final.env.symbols = bs' ++ e1.symbols ∧
      noPosEnv ⟨bs⟩ = noPosEnv ⟨bs'⟩ ∧ ∀ k, e1.exists? k = true → assocFind k bs' = none := by
  obtain ⟨p', q', hp', -, hq', hqe', -⟩ := quiet_loop pB wB
  obtain ⟨n, r, zs, es2, bs, bs', h1, h2, h3, h4, h5, h6⟩ := join_any (es' := []) hA hB pA tA hes hst pB wB.1 wB.2
    (fun f hf => by rw [hp'] at hf; cases hf; exact well_first hq' hqe') (.inl rfl) hd
  rw [List.map_eq_nil_iff.mp h5, List.append_nil] at h4
  exact ⟨n, r, zs, bs, bs', h1, h2, h3, h4, h6⟩

theorem join_quiet {t b : List Char} (hA : Whole (t ++ ['\n'])) (hB : '\uFFFD' ∉ b) {env e1 : Env} {rA rB : FileResult}
    {xs ys : List Node} {na nb : Nat} (pA : parseSource na (enc (t ++ ['\n'])) env = .ok rA) (wA : Quiet rA xs)
    (pB : parseSource nb (enc b) e1 = .ok rB) (wB : Quiet rB ys)
    (hd : ∀ k, rA.final.env.exists? k = true → rB.final.env.exists? k = true → e1.exists? k = true) :
    ∃ n r zs bs bs', parseSource n (enc (t ++ '\n' :: b)) env = .ok r ∧ r.cddl = some zs ∧ noPosL zs = noPosL (xs ++ ys) ∧
      r.errs = r.final.tasks.filterMap (runTask r.final.env) ∧
      r.final.tasks.map noPosTask = (rA.final.tasks ++ rB.final.tasks).map noPosTask ∧
      r.final.env.symbols = bs ++ rA.final.env.symbols ∧ rB.final.env.symbols = bs' ++ e1.symbols ∧
      noPosEnv ⟨bs⟩ = noPosEnv ⟨bs'⟩ ∧ ∀ k, e1.exists? k = true → assocFind k bs' = none :=
  join_mistakes (es := []) hA hB pA wA.1 wA.2 (fun _ _ _ h => (List.not_mem_nil h).elim) pB wB hd

/-! ### The checks at the end -/

/-- The two sources one behind the other. -/
theorem join_source {t b : List Char} (hA : Whole (t ++ ['\n'])) (hB : '\uFFFD' ∉ b) {env e1 : Env} {rA rB : FileResult}
    {xs ys : List Node} {na nb : Nat} (pA : parseSource na (enc (t ++ ['\n'])) env = .ok rA) (wA : ReadWell rA xs)
    (pB : parseSource nb (enc b) e1 = .ok rB) (wB : ReadWell rB ys)
    (hd : ∀ k, rA.final.env.exists? k = true → rB.final.env.exists? k = true → e1.exists? k = true) :
    ∃ n r zs bs bs', parseSource n (enc (t ++ '\n' :: b)) env = .ok r ∧ r.cddl = some zs ∧ noPosL zs = noPosL (xs ++ ys) ∧
      r.errs = r.final.tasks.filterMap (runTask r.final.env) ∧
      r.final.tasks.map noPosTask = (rA.final.tasks ++ rB.final.tasks).map noPosTask ∧
      r.final.env.symbols = bs ++ rA.final.env.symbols ∧ rB.final.env.symbols = bs' ++ e1.symbols ∧
      noPosEnv ⟨bs⟩ = noPosEnv ⟨bs'⟩ ∧ ∀ k, e1.exists? k = true → assocFind k bs' = none :=
  join_quiet hA hB pA (well_quiet pA wA) pB (well_quiet pB wB) hd

omit [Unicode] in
theorem task_env {e e' : Env} (h : ∀ k, e.exists? k = e'.exists? k ∧ (e.get k).kind = (e'.get k).kind) : runTask e = runTask e' := by
  funext t
  cases t with
  | identBound t l to =>
    cases to <;> first | rfl | simp only [runTask, (h _).2]
  | _ => simp only [runTask, (h _).1, (h _).2]

omit [Unicode] in
theorem find_kind {e e' : Env} {k : Bytes}
    (h : (assocFind k e.symbols).map noPos = (assocFind k e'.symbols).map noPos) :
    e.exists? k = e'.exists? k ∧ (e.get k).kind = (e'.get k).kind := by
  unfold Env.exists? Env.get
  cases h1 : assocFind k e.symbols <;> cases h2 : assocFind k e'.symbols <;> rw [h1, h2] at h <;> simp at h
  · exact ⟨rfl, rfl⟩
  · refine ⟨rfl, ?_⟩
    have := congrArg Node.kind h
    rwa [noPos_kind, noPos_kind] at this

theorem tasks_same {e : Env} {ts ts' : List Task} (h : ts.map noPosTask = ts'.map noPosTask) :
    (ts.filterMap (runTask e)).map dm = (ts'.filterMap (runTask e)).map dm := by
  have hid : ∀ t, noPosTask (renameTask id t) = noPosTask t := by
    intro t
    cases t <;> simp [renameTask, rename_id]
  have hm : dmr id = dm := funext fun d => by rw [dmr, renameMsg_id, dm]
  have := S_tasks renaming_id (e := e) (e' := e) (by rw [renameEnv_id]) (ts := ts) (ts' := ts') (by simpa only [hid] using h)
  rwa [hm] at this

/-- Two texts of which each can have another behind it, one behind the other. -/
theorem whole_append {A B : List Char} (hA : Whole A) (hB : Whole B) : Whole (A ++ B) := by
  obtain ⟨h1, ⟨t, rfl⟩, c, ⟨ts, L, x, s, L1, hs, hne, he, hle⟩, _, _⟩ := hA
  obtain ⟨g1, ⟨u, rfl⟩, d, ⟨us, M, y, s', M1, gs, gne, ge, gle⟩, g2, g3⟩ := hB
  have ht : '\uFFFD' ∉ t := fun h => h1 (by simp [h])
  obtain ⟨L', done, r, hs', hcln, hdw, _, hee, _⟩ := join_lex ht g1 hs hne he
  obtain ⟨us', m', d1, d1', r1, r1', k1, k2, k3, k4, k5, k6⟩ :=
    scans_alike gs (Lexer.clean_new g1) hcln hdw.symm (by simp [clean_new_errors, ← hee, hle])
  obtain ⟨z, hz, hzt, _⟩ := Lexer.clean_scan_ok k3 ge
  have hsc := Lexer.clean_scan k4
  rw [← k5, hz] at hsc
  obtain ⟨l2, hsc, _⟩ := hsc
  rw [hzt] at hsc
  have hl : us'.length = (us ++ [d]).length := by simpa using congrArg List.length k2
  obtain ⟨vs, e, rfl⟩ : ∃ vs e, us' = vs ++ [e] := by
    rcases List.eq_nil_or_concat us' with h | ⟨vs, e, h⟩
    · rw [h] at hl; simp at hl
    · exact ⟨vs, e, by simpa using h⟩
  simp only [List.map_append, List.map_cons, List.map_nil] at k2
  obtain ⟨k7, k8⟩ := List.append_inj_left' k2 rfl, List.append_inj_right' k2 rfl
  have hed : e.tok = d.tok := by simpa using k8
  rw [List.append_assoc]
  refine ⟨?_, ⟨t ++ '\n' :: u, by simp⟩, e, ⟨ts ++ [c] ++ vs, m', _, _, _, ?_, ?_, hsc, k6.mp gle⟩, by rwa [hed], by rwa [hed]⟩
  · simp only [List.mem_append, not_or] at h1 g1 ⊢
    exact ⟨h1.1, h1.2, g1⟩
  · have := scans_append hs' k1
    rwa [List.append_assoc]
  · intro q hq
    rw [List.append_assoc] at hq
    rcases List.mem_append.mp hq with hq | hq
    · exact hne q hq
    · have : q.tok ∈ (us ++ [d]).map (·.tok) := by
        rw [List.map_append, List.map_cons, List.map_nil, ← k2]
        simpa using List.mem_map_of_mem (f := fun x : Token => x.tok) hq
      obtain ⟨w, hw, hwq⟩ := List.mem_map.mp this
      rw [← hwq]
      exact gne w hw

end Cddlc
