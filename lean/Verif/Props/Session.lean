import Verif.Props.Recover
import Verif.Spec.Repl

/-! C126: sources entered one after the other, with mistakes. -/

namespace Cddlc
open Spec PState
variable [Unicode]

/-- The diagnostics of the checks behind the last rule. -/
def lateOf (r : FileResult) : List Diag := r.final.tasks.filterMap (runTask r.final.env)

/-- The diagnostics before. -/
def earlyOf (r : FileResult) : List Diag := r.errs.take (r.errs.length - (lateOf r).length)

theorem early_late {n : Nat} {src : Bytes} {env : Env} {res : FileResult} {rules} (h : parseSource n src env = .ok res)
    (hw : res.cddl = some rules) : res.errs = earlyOf res ++ lateOf res := by
  obtain ⟨p, q, -, -, -, -, -, hqe⟩ := any_loop h hw
  unfold earlyOf lateOf
  rw [hqe]
  simp

omit [Unicode] in
theorem late_kind {r : FileResult} {d : Diag} (h : d ∈ lateOf r) : LateKind d := by
  obtain ⟨tk, _, htk⟩ := List.mem_filterMap.mp h
  exact task_msg htk

omit [Unicode] in
/-- A name that is missing at the end was missing before. -/
theorem late_named {e e' : Env} {tk tk' : Task} {d : Diag} {k : Bytes} (hm : e'.exists? k = true → e.exists? k = true)
    (ht : noPosTask tk = noPosTask tk') (h : runTask e tk = some d) (hk : d.msg = .noSuchIdent k) :
    ∃ d', runTask e' tk' = some d' ∧ d'.msg = .noSuchIdent k := by
  cases tk with
  | «exists» a x =>
    cases tk' <;> simp [noPosTask] at ht
    subst ht
    simp only [runTask] at h ⊢
    split at h <;> cases h
    cases hk
    rename_i hno
    exact ⟨_, if_neg fun h => hno (hm h), rfl⟩
  | identBound tok l y =>
    cases y <;> simp only [runTask, reduceCtorEq] at h
    split at h <;> cases h
    cases hk
  | intBound a x y =>
    cases tk' <;> simp [noPosTask] at ht
    subst ht
    simp only [runTask] at h ⊢
    split at h
    · cases h
      cases hk
      rename_i hno
      refine ⟨_, if_pos ?_, rfl⟩
      cases hx : e'.exists? k with
      | false => rfl
      | true => simp [hm hx] at hno
    · split at h <;> cases h <;> cases hk
  | floatBound a x y =>
    cases tk' <;> simp [noPosTask] at ht
    subst ht
    simp only [runTask] at h ⊢
    split at h
    · cases h
      cases hk
      rename_i hno
      refine ⟨_, if_pos ?_, rfl⟩
      cases hx : e'.exists? k with
      | false => rfl
      | true => simp [hm hx] at hno
    · split at h <;> cases h <;> cases hk

/-- What a text begins with does not depend on what is behind it. -/
theorem opens_front {A B : List Char} (hA : Whole A) (hB : '�' ∉ B) (ho : Opens (enc A)) : Opens (enc (A ++ B)) := by
  obtain ⟨hcl, ⟨t, rfl⟩, c, ⟨ts, L, x, s, L1, hs, hne, he, hle⟩, hcc, hcr⟩ := hA
  have ht : '�' ∉ t := fun h => hcl (by simp [h])
  obtain ⟨L', done, r, hs', -⟩ := join_lex ht hB hs hne he
  intro c0 l h0
  rw [List.append_assoc] at h0
  cases hts : ts ++ [c] with
  | nil => simp at hts
  | cons y ys =>
    rw [hts] at hs hs'
    obtain ⟨l2, h1, -⟩ := scans_split (ts := [y]) hs
    obtain ⟨l3, h2, -⟩ := scans_split (ts := [y]) hs'
    obtain ⟨h3, -⟩ := scans_same h0 h2 rfl
    cases h3
    exact ho _ _ h1

/-- Names stay declared. -/
theorem entered_keeps {n : Nat} {env env' : Env} {xs} (h : Entered n env xs env') (ht : ∀ x ∈ xs, x.2.cddl ≠ none) {k : Bytes}
    (hk : env.exists? k = true) : env'.exists? k = true := by
  induction h with
  | nil => exact hk
  | @cons env src res rest env' hp _ ih =>
    refine ih (fun x hx => ht x (by simp [hx])) ?_
    cases hc : res.cddl with
    | none => exact absurd hc (ht (src, res) (by simp))
    | some ys =>
      obtain ⟨as, h1, h2⟩ := source_adds hp hc
      simp only [Env.exists?] at hk ⊢
      rw [h1, assoc_append]
      cases assocFind k as <;> simp [hk]

theorem entered_names {n : Nat} {env env' : Env} {xs} (h : Entered n env xs env') (ht : ∀ x ∈ xs, x.2.cddl ≠ none) {k : Bytes}
    {x} (hx : x ∈ xs) (hk : x.2.final.env.exists? k = true) : env'.exists? k = true := by
  induction h with
  | nil => cases hx
  | cons hp hr ih =>
    rcases List.mem_cons.mp hx with rfl | hx
    · exact entered_keeps hr (fun x hx => ht x (by simp [hx])) hk
    · exact ih (fun x hx => ht x (by simp [hx])) hx

theorem session_mistakes {n : Nat} {lines : List (List Char)} (hw : ∀ l ∈ lines, Whole l) (hne : lines ≠ []) :
    ∀ {env env' : Env} {xs : List (Bytes × FileResult)}, Entered n env xs env' → xs.map (·.1) = lines.map enc →
      (∀ x ∈ xs.dropLast, Finished x.1 x.2.errs) → (∀ x ∈ xs.tail, Opens x.1) →
    (∀ x ∈ xs, x.2.cddl ≠ none) ∧ (∀ x ∈ xs, x.2.errs = earlyOf x.2 ++ lateOf x.2) ∧
    ∃ m r ws, parseSource m (enc lines.flatten) env = .ok r ∧ r.cddl = some ws ∧
      noPosL ws = noPosL (xs.flatMap fun x => x.2.cddl.getD []) ∧ noPosEnv r.final.env = noPosEnv env' ∧
      (earlyOf r).map dm = (xs.flatMap fun x => earlyOf x.2).map dm ∧
      ∀ tk ∈ r.final.tasks, ∃ x ∈ xs, ∃ tk' ∈ x.2.final.tasks, noPosTask tk = noPosTask tk' := by
  induction lines with
  | nil => exact absurd rfl hne
  | cons l ls ih =>
    intro env env' xs hE hx hf ho
    cases hE with
    | nil => simp at hx
    | @cons _ src res rest _ hp hrest =>
    simp only [List.map_cons, List.cons.injEq] at hx
    obtain ⟨rfl, hx⟩ := hx
    have hl := hw l (by simp)
    have hc := whole_tree hl hp
    cases hc' : res.cddl with
    | none => exact absurd hc' hc
    | some ys =>
    have hel := early_late hp hc'
    cases ls with
    | nil =>
      cases hrest with
      | cons => simp at hx
      | nil =>
      refine ⟨by simpa using hc, by simpa using hel, n, res, ys, by simpa using hp, hc', by simp [hc'], rfl, by simp, fun tk h =>
        ⟨_, List.mem_cons_self, tk, h, rfl⟩⟩
    | cons l2 ls =>
      have hrne : rest ≠ [] := by rintro rfl; simp at hx
      obtain ⟨x2, rest2, rfl⟩ := List.exists_cons_of_ne_nil hrne
      obtain ⟨i0, i1, m, rB, ws, j1, j2, j3, j4, j5, j6⟩ := ih (fun l hl => hw l (by simp [hl])) (by simp) hrest hx
        (fun x hx => hf x (by simp [hx])) (fun x hx => ho x (by simp only [List.tail_cons] at hx ⊢; simp [hx]))
      have hcl : ∀ L : List (List Char), (∀ l ∈ L, Whole l) → '�' ∉ L.flatten := by
        intro L hL hm
        obtain ⟨a, ha, hm⟩ := List.mem_flatten.mp hm
        exact (hL a ha).1 hm
      have hB := hcl (l2 :: ls) fun l hl => hw l (by simp [hl])
      have ho2 : Opens (enc (l2 :: ls).flatten) := by
        rw [List.flatten_cons]
        refine opens_front (hw l2 (by simp)) (hcl ls fun l hl => hw l (by simp [hl])) ?_
        have h1 : x2.1 = enc l2 := by
          simp only [List.map_cons, List.cons.injEq] at hx
          exact hx.1
        rw [← h1]
        exact ho x2 (by simp)
      obtain ⟨t, rfl⟩ := hl.2.1
      have hfin : Finished (enc (t ++ ['\n'])) (earlyOf res) := fun c hc d hm =>
        hf (enc (t ++ ['\n']), res) (by simp) c hc d (by rw [hel]; exact List.mem_append_left _ hm)
      obtain ⟨m', r, zs, es2, bs, bs', h1, h2, h3, h4, h5, h5', h6, h7, h8, -⟩ := join_any hl hB hp hc' hel hfin j1 j2
        (early_late j1 j2) (fun f hf => by
          obtain ⟨l2, h3, _⟩ := scans_split (ts := [f.curTok]) (us := [f.peekTok]) (new_synced f hf).1
          exact ho2 _ _ h3) (.inr fun _ _ => rfl) (fun k h _ => h)
      have hflat : (t ++ ['\n']) ++ (l2 :: ls).flatten = t ++ '\n' :: (l2 :: ls).flatten := by simp
      have her : earlyOf r = earlyOf res ++ es2 := by
        have := early_late h1 h2
        rw [h4] at this
        exact (List.append_cancel_right this).symm
      refine ⟨?_, ?_, m', r, zs, ?_, h2, ?_, ?_, ?_, ?_⟩
      · intro x hx
        rcases List.mem_cons.mp hx with rfl | hx
        · exact hc
        · exact i0 x hx
      · intro x hx
        rcases List.mem_cons.mp hx with rfl | hx
        · exact hel
        · exact i1 x hx
      · rw [List.flatten_cons, hflat]
        exact h1
      · rw [h3, List.flatMap_cons]
        simp only [noPosL_map, List.map_append] at j3 ⊢
        rw [j3, hc']
        rfl
      · rw [← j4]
        simp only [noPosEnv, Env.mk.injEq] at h8 ⊢
        rw [h6, h7, List.map_append, List.map_append, h8]
      · rw [her, List.map_append, h5, j5, ← List.map_append]
        rfl
      · intro tk htk
        have := List.mem_map_of_mem (f := noPosTask) htk
        rw [h5'] at this
        obtain ⟨tk', h9, h10⟩ := List.mem_map.mp this
        rcases List.mem_append.mp h9 with h9 | h9
        · exact ⟨_, List.mem_cons_self, tk', h9, h10.symm⟩
        · obtain ⟨x, hx, tk2, h11, h12⟩ := j6 tk' h9
          exact ⟨x, List.mem_cons_of_mem _ hx, tk2, h11, h10.symm.trans h12⟩

/-- **C126**, as far as it holds: sources, with mistakes or without, are parsed one after the other, each with the names of
those before. Each but the last does not stop where more was expected, and each but the first begins with a name or a
comment. Then the file of all is parsed to the rules of all in order and leaves the same bindings, up to positions. What
is reported while rules are read is what was reported for the sources, in the same order; and the checks at the end find
no name missing that was not reported as missing for a source. -/
theorem C126_session_partial {n : Nat} {lines : List (List Char)} (hw : ∀ l ∈ lines, Whole l) (hne : lines ≠ [])
    {env env' : Env} {xs : List (Bytes × FileResult)} (hE : Entered n env xs env') (hx : xs.map (·.1) = lines.map enc)
    (hf : ∀ x ∈ xs.dropLast, Finished x.1 x.2.errs) (ho : ∀ x ∈ xs.tail, Opens x.1) :
    ∃ (m : Nat) (r : FileResult) (ws : List Node) (early late : List Diag) (parts : List (List Diag × List Diag)),
      parseSource m (enc lines.flatten) env = .ok r ∧ r.cddl = some ws ∧
      noPosL ws = noPosL (xs.flatMap fun x => x.2.cddl.getD []) ∧ noPosEnv r.final.env = noPosEnv env' ∧
      r.errs = early ++ late ∧ xs.map (fun x => x.2.errs) = parts.map (fun y => y.1 ++ y.2) ∧
      early.map (fun d => noPosMsg d.msg) = (parts.flatMap fun y => y.1).map (fun d => noPosMsg d.msg) ∧
      (∀ d ∈ late ++ parts.flatMap fun y => y.2, LateKind d) ∧
      ∀ d ∈ late, ∀ k, d.msg = .noSuchIdent k → ∃ y ∈ parts, ∃ d' ∈ y.2, d'.msg = .noSuchIdent k := by
  obtain ⟨i0, i1, m, r, ws, h1, h2, h3, h4, h5, h6⟩ := session_mistakes hw hne hE hx hf ho
  refine ⟨m, r, ws, earlyOf r, lateOf r, xs.map fun x => (earlyOf x.2, lateOf x.2), h1, h2, h3, h4, early_late h1 h2, ?_, ?_, ?_, ?_⟩
  · rw [List.map_map]
    exact List.map_congr_left i1
  · rw [List.flatMap_map]
    exact h5
  · intro d hd
    rcases List.mem_append.mp hd with hd | hd
    · exact late_kind hd
    · obtain ⟨y, hy, hd⟩ := List.mem_flatMap.mp hd
      obtain ⟨x, _, rfl⟩ := List.mem_map.mp hy
      exact late_kind hd
  · intro d hd k hk
    obtain ⟨tk, htk, hr⟩ := List.mem_filterMap.mp hd
    obtain ⟨x, hx, tk', htk', heq⟩ := h6 tk htk
    obtain ⟨d', hd', hk'⟩ := late_named (e' := x.2.final.env) (fun h => by
      have h7 := entered_names hE i0 hx h
      have h8 := find_alike h4 k
      simp only [Env.exists?] at h7 ⊢
      cases ha : assocFind k r.final.env.symbols with
      | some y => rfl
      | none =>
        rw [ha] at h8
        cases hb : assocFind k env'.symbols with
        | none => rw [hb] at h7; cases h7
        | some y => rw [hb] at h8; cases h8) heq hr hk
    exact ⟨_, List.mem_map_of_mem hx, d', List.mem_filterMap.mpr ⟨tk', htk', hd'⟩, hk'⟩

omit [Unicode] in
/-- The hypotheses of `C126_session_partial` hold for three sources. In the first an entry is missing, in the second a
name is not declared, and in the third a sign is missing and a name is declared again. -/
example : letI := asciiOnly; ∃ r1 r2 r3, Entered 60 Env.new [(enc "a = )\n".toList, r1), (enc "b = [ a ]\n".toList, r2),
      (enc "c 1\nb = int\n".toList, r3)] r3.final.env ∧
    (∀ l ∈ ["a = )\n".toList, "b = [ a ]\n".toList, "c 1\nb = int\n".toList], Whole l) ∧
    Finished (enc "a = )\n".toList) r1.errs ∧ Finished (enc "b = [ a ]\n".toList) r2.errs ∧
    Opens (enc "b = [ a ]\n".toList) ∧ Opens (enc "c 1\nb = int\n".toList) ∧
    r1.errs.length = 1 ∧ r2.errs.length = 1 ∧ r3.errs.length = 2 := by
  let := asciiOnly
  obtain ⟨⟨r1, r2, r3⟩, h1, h2⟩ := Out.of_check (o := do
      let r1 ← parseSource 60 (enc "a = )\n".toList)
      let r2 ← parseSource 60 (enc "b = [ a ]\n".toList) r1.final.env
      let r3 ← parseSource 60 (enc "c 1\nb = int\n".toList) r2.final.env
      .ok (r1, r2, r3)) (f := fun r => ((r.1.errs ++ r.2.1.errs).all fun d => match d.msg with
        | .unexpectedPrefix t _ => decide (t ≠ .EOF)
        | .expectedAssign _ => false
        | _ => true) && decide (r.1.errs.length = 1 ∧ r.2.1.errs.length = 1 ∧ r.2.2.errs.length = 2)) (by decide_cbv)
  obtain ⟨x1, e1, h1⟩ := Out.bind_eq_ok.mp h1
  obtain ⟨x2, e2, h1⟩ := Out.bind_eq_ok.mp h1
  obtain ⟨x3, e3, h1⟩ := Out.bind_eq_ok.mp h1
  cases h1
  rw [Bool.and_eq_true, List.all_append, Bool.and_eq_true, decide_eq_true_eq] at h2
  obtain ⟨⟨h2, h3⟩, h4, h5, h6⟩ := h2
  refine ⟨r1, r2, r3, .cons e1 (.cons e2 (.cons e3 .nil)), ?_, finished_of h2, finished_of h3, opens_of (by decide_cbv),
    opens_of (by decide_cbv), h4, h5, h6⟩
  intro l hl
  simp only [List.mem_cons, List.not_mem_nil, or_false] at hl
  rcases hl with rfl | rfl | rfl
  · exact of_wholeCheck (n := 3) (by decide_cbv)
  · exact of_wholeCheck (n := 5) (by decide_cbv)
  · exact of_wholeCheck (n := 5) (by decide_cbv)

omit [Unicode] in
/-- **C126** is false as stated: entered one after the other, `a = [ int` is a mistake and `b = int` declares `b`; in one
file the bracket is still open, and `b` is not declared. -/
theorem C126_refuted : letI := asciiOnly; ∃ r1 r2 r, Entered 60 Env.new [(enc "a = [ int\n".toList, r1),
      (enc "b = int\n".toList, r2)] r2.final.env ∧
    Whole "a = [ int\n".toList ∧ Whole "b = int\n".toList ∧
    parseSource 60 (enc ("a = [ int\n".toList ++ "b = int\n".toList)) = .ok r ∧
    r2.final.env.exists? b!"b" = true ∧ r.final.env.exists? b!"b" = false := by
  let := asciiOnly
  obtain ⟨⟨r1, r2, r⟩, h1, h2⟩ := Out.of_check (o := do
      let r1 ← parseSource 60 (enc "a = [ int\n".toList)
      let r2 ← parseSource 60 (enc "b = int\n".toList) r1.final.env
      let r ← parseSource 60 (enc ("a = [ int\n".toList ++ "b = int\n".toList))
      .ok (r1, r2, r)) (f := fun r => r.2.1.final.env.exists? b!"b" && !r.2.2.final.env.exists? b!"b") (by decide_cbv)
  obtain ⟨x1, e1, h1⟩ := Out.bind_eq_ok.mp h1
  obtain ⟨x2, e2, h1⟩ := Out.bind_eq_ok.mp h1
  obtain ⟨x3, e3, h1⟩ := Out.bind_eq_ok.mp h1
  cases h1
  simp only [Bool.and_eq_true, Bool.not_eq_true'] at h2
  exact ⟨r1, r2, r, .cons e1 (.cons e2 .nil), of_wholeCheck (n := 4) (by decide_cbv), of_wholeCheck (n := 3) (by decide_cbv), e3,
    h2.1, h2.2⟩

end Cddlc
