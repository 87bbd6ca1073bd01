import Verif.Props.Join
import Verif.Spec.Recover

/-! C125: what mistakes leave of the rules behind them. -/

namespace Cddlc
open Spec PState
variable [Unicode]

omit [Unicode] in
theorem task_msg {env : Env} {tk : Task} {d : Diag} (h : runTask env tk = some d) : LateKind d := by
  unfold LateKind
  cases tk with
  | «exists» k x => simp only [runTask] at h; split at h <;> cases h; exact .inl rfl
  | identBound tok l y =>
    cases y <;> simp only [runTask, reduceCtorEq] at h
    split at h <;> cases h
    exact .inl rfl
  | intBound k a b =>
    simp only [runTask] at h
    split at h
    · cases h; exact .inl rfl
    · split at h <;> cases h <;> simp [onlyDeferred]
  | floatBound k a b =>
    simp only [runTask] at h
    split at h
    · cases h; exact .inl rfl
    · split at h <;> cases h <;> simp [onlyDeferred]

/-- The names of both sources. -/
theorem names_both {env eA eB e : Env} {as bs bs' : List (Bytes × Node)} (ha : eA.symbols = as ++ env.symbols)
    (h6 : e.symbols = bs ++ eA.symbols) (h7 : eB.symbols = bs' ++ env.symbols) (h8 : noPosEnv ⟨bs⟩ = noPosEnv ⟨bs'⟩)
    (h9 : ∀ k, env.exists? k = true → assocFind k bs' = none)
    (hd : ∀ k, eA.exists? k = true → eB.exists? k = true → env.exists? k = true) (k : Bytes) :
    (assocFind k e.symbols).map noPos = ((assocFind k eA.symbols).or (assocFind k eB.symbols)).map noPos := by
  have a1 := find_alike h8 k
  have mapor : ∀ o o' : Option Node, (o.or o').map noPos = (o.map noPos).or (o'.map noPos) := by
    intro o o'; cases o <;> rfl
  rw [h6, assoc_append, mapor, mapor, a1]
  cases hk : assocFind k eA.symbols with
  | none =>
    have he : assocFind k env.symbols = none := by
      rw [ha, assoc_append] at hk
      exact (Option.or_eq_none_iff.mp hk).2
    rw [h7, assoc_append, he]
    cases assocFind k bs' <;> rfl
  | some x =>
    have hb : assocFind k bs' = none := by
      cases hb : assocFind k bs' with
      | none => rfl
      | some y =>
        have := h9 k (hd k (by simp [Env.exists?, hk]) (by simp [Env.exists?, h7, assoc_append, hb]))
        rw [hb] at this
        cases this
    rw [hb]
    rfl

/-- The names that a source adds are new. -/
theorem source_adds {src : Bytes} {env : Env} {res : FileResult} {rules n} (h : parseSource n src env = .ok res)
    (hw : res.cddl = some rules) :
    ∃ as, res.final.env.symbols = as ++ env.symbols ∧ ∀ k, env.exists? k = true → assocFind k as = none := by
  obtain ⟨p, q, hp, -, hq, hqv, -, -⟩ := any_loop h hw
  obtain ⟨_, hrun, _⟩ := fileLoop_run n [] p _ hq
  obtain ⟨as, h, h'⟩ := run_adds hrun
  rw [(new_synced p hp).2.1] at h h'
  exact ⟨as, by rw [← hqv]; exact h, h'⟩

/-- **C125**, as far as it holds: a source with any mistakes, none of which is that it stops where more was expected,
followed by another with any mistakes, which begins with a name or a comment and declares other names. The rules of both
are in the tree and the names of both are declared, and what is reported are the mistakes of the first, then those of the
second, and then what the checks behind the last rule find. -/
theorem C125_recovery_partial {A B : List Char} (hA : Whole A) (hB : '�' ∉ B) {env : Env} {rA rB : FileResult}
    {xs ys : List Node} {na nb : Nat} (pA : parseSource na (enc A) env = .ok rA) (tA : rA.cddl = some xs)
    (fA : Finished (enc A) rA.errs) (pB : parseSource nb (enc B) env = .ok rB) (tB : rB.cddl = some ys) (oB : Opens (enc B))
    (hd : ∀ k, rA.final.env.exists? k = true → rB.final.env.exists? k = true → env.exists? k = true) :
    ∃ n r zs, parseSource n (enc (A ++ B)) env = .ok r ∧ r.cddl = some zs ∧ noPosL zs = noPosL (xs ++ ys) ∧
      (∃ es lateA es1 lateB es2 late, rA.errs = es ++ lateA ∧ rB.errs = es1 ++ lateB ∧ r.errs = es ++ es2 ++ late ∧
        es2.map (fun d => noPosMsg d.msg) = es1.map (fun d => noPosMsg d.msg) ∧ ∀ d ∈ lateA ++ lateB ++ late, LateKind d) ∧
      ∀ k, (assocFind k r.final.env.symbols).map noPos =
        ((assocFind k rA.final.env.symbols).or (assocFind k rB.final.env.symbols)).map noPos := by
  obtain ⟨t, rfl⟩ := hA.2.1
  obtain ⟨p, q, hp, -, hq, hqv, -, hqe⟩ := any_loop pA tA
  obtain ⟨p', q', hp', -, hq', hqv', -, hqe'⟩ := any_loop pB tB
  obtain ⟨as, ha, hnew⟩ := source_adds pA tA
  have hbel : Below env rA.final.env := by
    intro k hk
    rw [ha, assoc_append, hnew k hk]
    rfl
  obtain ⟨n, r, zs, es2, bs, bs', h1, h2, h3, h4, h5, h5', h6, h7, h8, h9⟩ := join_any hA hB pA tA hqe
    (fun c hc d hm => fA c hc d (by rw [hqe]; exact List.mem_append_left _ hm)) pB tB hqe'
    (fun f hf => by
      obtain ⟨l2, h3, _⟩ := scans_split (ts := [f.curTok]) (us := [f.peekTok]) (new_synced f hf).1
      exact oB _ _ h3) (.inr hbel) hd
  rw [List.append_assoc]
  refine ⟨n, r, zs, h1, h2, h3, ⟨_, _, _, _, _, _, hqe, hqe', h4, h5, fun d hm => ?_⟩, names_both ha h6 h7 h8 h9 hd⟩
  rcases List.mem_append.mp hm with hm | hm
  · rcases List.mem_append.mp hm with hm | hm <;>
      obtain ⟨tk, _, htk⟩ := List.mem_filterMap.mp hm <;> exact task_msg htk
  · obtain ⟨tk, _, htk⟩ := List.mem_filterMap.mp hm
    exact task_msg htk

/-- **C125** for a second source in which nothing is reported but by the checks of names: nothing else is then reported
than the mistakes of the first. -/
theorem C125_clean_partial {A B : List Char} (hA : Whole A) (hB : '�' ∉ B) {env : Env} {rA rB : FileResult}
    {xs ys : List Node} {na nb : Nat} (pA : parseSource na (enc A) env = .ok rA) (tA : rA.cddl = some xs)
    (fA : Finished (enc A) rA.errs) (pB : parseSource nb (enc B) env = .ok rB) (wB : ReadWell rB ys)
    (hd : ∀ k, rA.final.env.exists? k = true → rB.final.env.exists? k = true → env.exists? k = true) :
    ∃ n r zs, parseSource n (enc (A ++ B)) env = .ok r ∧ r.cddl = some zs ∧ noPosL zs = noPosL (xs ++ ys) ∧
      (∃ es lateA late, rA.errs = es ++ lateA ∧ r.errs = es ++ late ∧ ∀ d ∈ lateA ++ late, LateKind d) ∧
      ∀ k, (assocFind k r.final.env.symbols).map noPos =
        ((assocFind k rA.final.env.symbols).or (assocFind k rB.final.env.symbols)).map noPos := by
  obtain ⟨t, rfl⟩ := hA.2.1
  obtain ⟨p, q, hp, -, hq, hqv, -, hqe⟩ := any_loop pA tA
  obtain ⟨n, r, zs, bs, bs', h1, h2, h3, h4, h5, h6, h7, h8, h9⟩ := join_mistakes (es := q.errors) hA hB pA tA hqe
    (fun c hc d hm => fA c hc d (by rw [hqe]; exact List.mem_append_left _ hm)) pB (well_quiet pB wB) hd
  obtain ⟨as, ha, -⟩ := source_adds pA tA
  rw [List.append_assoc]
  refine ⟨n, r, zs, h1, h2, h3, ⟨_, _, _, hqe, h4, fun d hm => ?_⟩, names_both ha h6 h7 h8 h9 hd⟩
  rcases List.mem_append.mp hm with hm | hm <;>
    obtain ⟨tk, _, htk⟩ := List.mem_filterMap.mp hm <;> exact task_msg htk

/-- Messages that are never about the end of a source. -/
theorem finished_of {src : Bytes} {errs : List Diag} (h : (errs.all fun d => match d.msg with
    | .unexpectedPrefix t _ => decide (t ≠ .EOF)
    | .expectedAssign _ => false
    | _ => true) = true) : Finished src errs := by
  intro c _ d hd hs
  have := List.all_eq_true.mp h d hd
  rcases hs with ⟨x, hx⟩ | ⟨⟨y, hy⟩, _⟩
  · rw [hx] at this; simp at this
  · rw [hy] at this; cases this

theorem opens_of {src : Bytes} (h : (match (Lexer.new src).scan with
    | .ok (t, _) => decide (t = .EOF ∨ t = .IDENT ∨ t = .COMMENT)
    | _ => true) = true) : Opens src := by
  rintro c l (_ | ⟨hs, _⟩)
  rw [hs] at h
  simpa using h

omit [Unicode] in
/-- The hypotheses of `C125_recovery_partial` hold for two sources with mistakes. In the first four diagnostics are reported: for an entry that
is missing, a bracket that does not match, and a name declared twice. -/
example : letI := asciiOnly; ∃ rA rB xs ys, Whole "a = )\nb = [ 1 } ]\nc = int\nc = bool\n".toList ∧
    parseSource 60 (enc "a = )\nb = [ 1 } ]\nc = int\nc = bool\n".toList) = .ok rA ∧ rA.cddl = some xs ∧
    rA.errs.length = 4 ∧ Finished (enc "a = )\nb = [ 1 } ]\nc = int\nc = bool\n".toList) rA.errs ∧
    parseSource 60 (enc "d = [ d ]\ne 1\nf = (\n".toList) = .ok rB ∧ rB.cddl = some ys ∧
    rB.errs.length = 2 ∧ Opens (enc "d = [ d ]\ne 1\nf = (\n".toList) ∧
    ∀ k, rA.final.env.exists? k = true → rB.final.env.exists? k = true → Env.new.exists? k = true := by
  let := asciiOnly
  obtain ⟨rA, h1, h2⟩ := Out.of_check (o := parseSource 60 (enc "a = )\nb = [ 1 } ]\nc = int\nc = bool\n".toList)) (f := fun r =>
    decide (r.errs.length = 4) && r.cddl.isSome && (r.errs.all fun d => match d.msg with
      | .unexpectedPrefix t _ => decide (t ≠ .EOF)
      | .expectedAssign _ => false
      | _ => true) && decide (r.final.env.symbols.map (·.1) = [b!"c"])) (by decide_cbv)
  obtain ⟨rB, h3, h4⟩ := Out.of_check (o := parseSource 60 (enc "d = [ d ]\ne 1\nf = (\n".toList)) (f := fun r =>
    decide (r.errs.length = 2) && r.cddl.isSome && decide (r.final.env.symbols.map (·.1) = [b!"d"]))
    (by decide_cbv)
  simp only [Bool.and_eq_true, decide_eq_true_eq] at h2 h4
  obtain ⟨⟨⟨h2, h5⟩, h6⟩, h7⟩ := h2
  obtain ⟨⟨h8, h9⟩, h10⟩ := h4
  obtain ⟨xs, hx⟩ := Option.isSome_iff_exists.mp h5
  obtain ⟨ys, hy⟩ := Option.isSome_iff_exists.mp h9
  refine ⟨rA, rB, xs, ys, of_wholeCheck (n := 15) (by decide_cbv), h1, hx, h2, finished_of h6, h3, hy, h8, ?_, ?_⟩
  · exact opens_of (by decide_cbv)
  have find : ∀ (e : Env) k w, e.symbols.map (·.1) = [w] → e.exists? k = true → k = w := by
    rintro ⟨s⟩ k w hs hk
    obtain ⟨⟨a, b⟩, rfl, h⟩ := List.map_eq_singleton_iff.mp hs
    simp only [Env.exists?, assocFind] at hk
    split at hk
    · rename_i h'; subst h'; exact h
    · cases hk
  intro k hk hk'
  have := (find _ k _ h7 hk).symm.trans (find _ k _ h10 hk')
  exact absurd this (by decide)

omit [Unicode] in
/-- The hypotheses of `C125_clean_partial` hold for a source with a mistake and one without. -/
example : letI := asciiOnly; ∃ rA rB xs ys, Whole "a = )\n".toList ∧
    parseSource 60 (enc "a = )\n".toList) = .ok rA ∧ rA.cddl = some xs ∧ rA.errs.length = 1 ∧
    Finished (enc "a = )\n".toList) rA.errs ∧ parseSource 60 (enc "d = [ d ]\n".toList) = .ok rB ∧ ReadWell rB ys ∧
    ys.length = 1 ∧ ∀ k, rA.final.env.exists? k = true → rB.final.env.exists? k = true → Env.new.exists? k = true := by
  let := asciiOnly
  obtain ⟨rA, h1, h2⟩ := Out.of_check (o := parseSource 60 (enc "a = )\n".toList)) (f := fun r =>
    decide (r.errs.length = 1) && r.cddl.isSome && (r.errs.all fun d => match d.msg with
      | .unexpectedPrefix t _ => decide (t ≠ .EOF)
      | .expectedAssign _ => false
      | _ => true) && decide (r.final.env.symbols.map (·.1) = [])) (by decide_cbv)
  obtain ⟨rB, h3, h4⟩ := Out.of_check (o := parseSource 60 (enc "d = [ d ]\n".toList)) (f := fun r =>
    decide (r.errs = []) && decide (r.cddl.map List.length = some 1)) (by decide_cbv)
  simp only [Bool.and_eq_true, decide_eq_true_eq] at h2 h4
  obtain ⟨⟨⟨h2, h5⟩, h6⟩, h7⟩ := h2
  obtain ⟨h8, h9⟩ := h4
  obtain ⟨xs, hx⟩ := Option.isSome_iff_exists.mp h5
  obtain ⟨ys, hy, hl⟩ := Option.map_eq_some_iff.mp h9
  refine ⟨rA, rB, xs, ys, of_wholeCheck (n := 3) (by decide_cbv), h1, hx, h2, finished_of h6, h3, ⟨hy, by simp [h8]⟩, hl, ?_⟩
  intro k hk
  simp [Env.exists?, List.map_eq_nil_iff.mp h7, assocFind] at hk

omit [Unicode] in
/-- **C125** is false as stated: behind an open bracket, and behind a name that is the last token, the next rule is
lost. And a source that begins with an operator has two mistakes alone and none behind a rule. -/
theorem C125_refuted : letI := asciiOnly;
    (∃ rB, parseSource 60 (enc "b = int\n".toList) = .ok rB ∧ rB.errs = [] ∧ rB.final.env.exists? b!"b" = true) ∧
    (∃ r rules, Whole "a = [ int\n".toList ∧ parseSource 60 (enc "a = [ int\nb = int\n".toList) = .ok r ∧
      r.cddl = some rules ∧ r.final.env.exists? b!"b" = false) ∧
    (∃ r rules, Whole "a\n".toList ∧ parseSource 60 (enc "a\nb = int\n".toList) = .ok r ∧
      r.cddl = some rules ∧ r.final.env.exists? b!"b" = false) ∧
    ∃ rA rB r ys, Whole "a = int\n".toList ∧ parseSource 60 (enc "a = int\n".toList) = .ok rA ∧ rA.errs = [] ∧
      parseSource 60 (enc "/ bool\n".toList) = .ok rB ∧ rB.cddl = some ys ∧ rB.errs.length = 2 ∧
      parseSource 60 (enc "a = int\n/ bool\n".toList) = .ok r ∧ r.errs = [] := by
  let := asciiOnly
  obtain ⟨rB, h1, h2⟩ := Out.of_check (o := parseSource 60 (enc "b = int\n".toList)) (f := fun r =>
    decide (r.errs = []) && r.final.env.exists? b!"b") (by decide_cbv)
  obtain ⟨r, h3, h4⟩ := Out.of_check (o := parseSource 60 (enc "a = [ int\nb = int\n".toList)) (f := fun r =>
    r.cddl.isSome && !r.final.env.exists? b!"b") (by decide_cbv)
  obtain ⟨s, h5, h6⟩ := Out.of_check (o := parseSource 60 (enc "a\nb = int\n".toList)) (f := fun r =>
    r.cddl.isSome && !r.final.env.exists? b!"b") (by decide_cbv)
  obtain ⟨u, h7, h8⟩ := Out.of_check (o := parseSource 60 (enc "a = int\n".toList)) (f := fun r => decide (r.errs = [])) (by decide_cbv)
  obtain ⟨v, h9, h10⟩ := Out.of_check (o := parseSource 60 (enc "/ bool\n".toList)) (f := fun r =>
    decide (r.errs.length = 2) && r.cddl.isSome) (by decide_cbv)
  obtain ⟨w, h11, h12⟩ := Out.of_check (o := parseSource 60 (enc "a = int\n/ bool\n".toList)) (f := fun r => decide (r.errs = []))
    (by decide_cbv)
  simp only [Bool.and_eq_true, decide_eq_true_eq, Bool.not_eq_true'] at h2 h4 h6 h8 h10 h12
  obtain ⟨zs, hz⟩ := Option.isSome_iff_exists.mp h10.2
  obtain ⟨xs, hx⟩ := Option.isSome_iff_exists.mp h4.1
  obtain ⟨ys, hy⟩ := Option.isSome_iff_exists.mp h6.1
  exact ⟨⟨rB, h1, h2.1, h2.2⟩, ⟨r, xs, of_wholeCheck (n := 4) (by decide_cbv), h3, hx, h4.2⟩,
    ⟨s, ys, of_wholeCheck (n := 1) (by decide_cbv), h5, hy, h6.2⟩,
    u, v, w, zs, of_wholeCheck (n := 3) (by decide_cbv), h7, h8, h9, hz, h10.1, h11, h12⟩

end Cddlc
