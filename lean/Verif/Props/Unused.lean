import Verif.Lemmas.Unused
import Verif.Props.GenJoin
import Verif.Props.Language
import Verif.Props.Main

/-! C118: what is not used can be removed. -/

namespace Cddlc
variable [Unicode]
open Spec PState

/-- **C118**: let a source consist of three parts, each of which alone has no errors but those of the checks at the end, and
let the first and third not declare the same name. If no name that the second declares stands in the first or third, then
without the second part the rules of the others are read as before, with the same messages, in the same order, but for those
about the second part, and every name that the second does not declare has the same value, up to positions. The messages
about the second part are those it has alone if no name that the others declare stands in it. -/
theorem C118_unused {A B C : List Char} (hA : Whole A) (hB : Whole B) (hC : '�' ∉ C) {env : Env}
    {rA rB rC : FileResult} {xs ys zs : List Node} {na nb nc : Nat}
    (pA : parseSource na (enc A) env = .ok rA) (wA : ReadWell rA xs)
    (pB : parseSource nb (enc B) env = .ok rB) (wB : ReadWell rB ys)
    (pC : parseSource nc (enc C) env = .ok rC) (wC : ReadWell rC zs)
    (hd : ∀ k, rA.final.env.exists? k = true → rC.final.env.exists? k = true → env.exists? k = true)
    (hu : ∀ k, rB.final.env.exists? k = true → env.exists? k = false → ∀ pos,
      ¬ Tk (Lexer.new (enc A)) ⟨.IDENT, pos, k⟩ ∧ ¬ Tk (Lexer.new (enc C)) ⟨.IDENT, pos, k⟩) :
    ∃ n r r' ws ws' a b c, parseSource n (enc (A ++ B ++ C)) env = .ok r ∧ parseSource n (enc (A ++ C)) env = .ok r' ∧
      r.cddl = some ws ∧ r'.cddl = some ws' ∧ noPosL ws = noPosL (xs ++ ys ++ zs) ∧ noPosL ws' = noPosL (xs ++ zs) ∧
      r.errs.map (noPosMsg ·.msg) = a ++ b ++ c ∧ r'.errs.map (noPosMsg ·.msg) = a ++ c ∧
      (∀ k, rB.final.env.exists? k = false ∨ env.exists? k = true →
        (assocFind k r.final.env.symbols).map noPos = (assocFind k r'.final.env.symbols).map noPos) ∧
      ((∀ k, rA.final.env.exists? k = true ∨ rC.final.env.exists? k = true → env.exists? k = false → ∀ pos,
        ¬ Tk (Lexer.new (enc B)) ⟨.IDENT, pos, k⟩) → b = rB.errs.map (noPosMsg ·.msg)) := by
  have hAB : ∀ k, rA.final.env.exists? k = true → rB.final.env.exists? k = true → env.exists? k = true := by
    intro k h1 h2
    rcases declared_stands pA h1 with h3 | ⟨pos, h3⟩
    · exact h3
    · cases he : env.exists? k with
      | true => rfl
      | false => exact absurd h3 (hu k h2 he pos).1
  obtain ⟨t, rfl⟩ := hA.2.1
  obtain ⟨n1, r1, ws1, bs, bs', f1, f2, f3, f4, f5, f6, f7, f8, f9⟩ := join_source hA hB.1 pA wA pB wB hAB
  have bsB : ∀ k, assocFind k bs ≠ none → rB.final.env.exists? k = true ∧ env.exists? k = false := by
    intro k hk
    have h1 : assocFind k bs' ≠ none := fun h => by
      have := find_alike f8 k
      rw [h] at this
      exact hk (Option.map_eq_none_iff.mp this)
    constructor
    · rw [Env.exists?, f7, assoc_append]
      cases h : assocFind k bs' with
      | none => exact absurd h h1
      | some x => rfl
    · cases he : env.exists? k with
      | true => exact absurd (f9 k he) h1
      | false => rfl
  have hABC : ∀ k, r1.final.env.exists? k = true → rC.final.env.exists? k = true → env.exists? k = true := by
    intro k h1 h2
    cases hb : assocFind k bs with
    | none =>
      rw [Env.exists?, f6, assoc_append, hb, Option.none_or] at h1
      exact hd k h1 h2
    | some x =>
      obtain ⟨h3, h4⟩ := bsB k (by rw [hb]; simp)
      rcases declared_stands pC h2 with h5 | ⟨pos, h5⟩
      · exact h5
      · exact absurd h5 (hu k h3 h4 pos).2
  obtain ⟨u, rfl⟩ := hB.2.1
  have hW := whole_append hA hB
  rw [show t ++ ['\n'] ++ (u ++ ['\n']) = (t ++ '\n' :: u) ++ ['\n'] by simp] at hW
  rw [show t ++ '\n' :: (u ++ ['\n']) = (t ++ '\n' :: u) ++ ['\n'] by simp] at f1
  obtain ⟨n2, r2, ws2, cs, cs', g1, g2, g3, g4, g5, g6, g7, g8, g9⟩ := join_quiet hW hC f1 ⟨f2, f4⟩ pC (well_quiet pC wC) hABC
  obtain ⟨n3, r3, ws3, es, es', k1, k2, k3, k4, k5, k6, k7, k8, k9⟩ := join_source hA hC pA wA pC wC hd
  have hce : cs' = es' := List.append_cancel_right (g7.symm.trans k7)
  subst hce
  have mapor : ∀ o o' : Option Node, (o.or o').map noPos = (o.map noPos).or (o'.map noPos) := by
    intro o o'; cases o <;> rfl
  have hfind : ∀ k, assocFind k bs = none →
      (assocFind k r2.final.env.symbols).map noPos = (assocFind k r3.final.env.symbols).map noPos := by
    intro k hk
    rw [g6, k6, f6]
    simp only [assoc_append, hk, Option.none_or, mapor, find_alike g8 k, find_alike k8 k]
  have hfindB : ∀ k, rB.final.env.exists? k = false ∨ env.exists? k = true → assocFind k bs = none := by
    intro k hk
    cases hb : assocFind k bs with
    | none => rfl
    | some x =>
      obtain ⟨h1, h2⟩ := bsB k (by rw [hb]; simp)
      rcases hk with hk | hk
      · rw [h1] at hk; cases hk
      · rw [h2] at hk; cases hk
  have hA' : rA.final.tasks.filterMap (runTask r2.final.env) = rA.final.tasks.filterMap (runTask r3.final.env) :=
    filterMap_agree (final_tasks pA) fun k pos hk => find_kind (hfind k (by
      cases hb : assocFind k bs with
      | none => rfl
      | some x =>
        obtain ⟨h1, h2⟩ := bsB k (by rw [hb]; simp)
        exact absurd hk (hu k h1 h2 pos).1))
  have hC' : rC.final.tasks.filterMap (runTask r2.final.env) = rC.final.tasks.filterMap (runTask r3.final.env) :=
    filterMap_agree (final_tasks pC) fun k pos hk => find_kind (hfind k (by
      cases hb : assocFind k bs with
      | none => rfl
      | some x =>
        obtain ⟨h1, h2⟩ := bsB k (by rw [hb]; simp)
        exact absurd hk (hu k h1 h2 pos).2))
  have big : ∀ {m : Nat} {src : Bytes} {x : FileResult}, parseSource m src env = .ok x → m ≤ max n2 n3 →
      parseSource (max n2 n3) src env = .ok x := by
    intro m src x h hm
    rcases parseSource_le hm (src := src) (env := env) with h1 | h1
    · rw [h1] at h; cases h
    · rw [← h1, h]
  have happ : ∀ a b, noPosL (a ++ b) = noPosL a ++ noPosL b := fun a b => by simp [noPosL_map]
  refine ⟨max n2 n3, r2, r3, ws2, ws3, (rA.final.tasks.filterMap (runTask r2.final.env)).map dm,
    (rB.final.tasks.filterMap (runTask r2.final.env)).map dm, (rC.final.tasks.filterMap (runTask r2.final.env)).map dm,
    ?_, ?_, g2, k2, ?_, k3, ?_, ?_, fun k hk => hfind k (hfindB k hk), ?_⟩
  · have := big g1 (Nat.le_max_left _ _)
    simpa using this
  · have := big k1 (Nat.le_max_right _ _)
    simpa using this
  · rw [g3, happ, f3, happ]
    simp only [happ]
  · show r2.errs.map dm = _
    rw [g4, tasks_same (ts' := rA.final.tasks ++ rB.final.tasks ++ rC.final.tasks)
      (by rw [g5, List.map_append, f5, ← List.map_append])]
    simp only [List.filterMap_append, List.map_append]
  · show r3.errs.map dm = _
    rw [k4, tasks_same k5, hA', hC']
    simp only [List.filterMap_append, List.map_append]
  · intro hv
    show _ = rB.errs.map dm
    obtain ⟨_, _, _, _, _, _, hqv, hqt, heb⟩ := well_loop pB wB
    rw [hqv, hqt] at heb
    rw [heb]
    congr 1
    refine filterMap_agree (final_tasks pB) fun k pos hk => find_kind ?_
    have hcs : assocFind k cs' = none := by
      cases hb : assocFind k cs' with
      | none => rfl
      | some x =>
        have h1 : rC.final.env.exists? k = true := by simp [Env.exists?, g7, assoc_append, hb]
        cases he : env.exists? k with
        | true => exact absurd ((g9 k he).symm.trans hb) (by simp)
        | false => exact absurd hk (hv k (.inr h1) he pos)
    rw [g6, f6, f7]
    simp only [assoc_append, mapor, find_alike g8 k, find_alike f8 k, hcs, Option.map_none, Option.none_or]
    congr 2
    cases he : env.exists? k with
    | true =>
      obtain ⟨h1, h2⟩ := (C19_environment pA k).2.1 he
      unfold Env.exists? at h1 he
      unfold Env.get at h2
      cases hx : assocFind k rA.final.env.symbols <;> cases hy : assocFind k env.symbols <;> simp_all
    | false =>
      have h1 : rA.final.env.exists? k = false := by
        cases h : rA.final.env.exists? k with
        | false => rfl
        | true => exact absurd hk (hv k (.inl h) he pos)
      unfold Env.exists? at h1 he
      rw [Option.isSome_eq_false_iff, Option.isNone_iff_eq_none] at h1 he
      rw [h1, he]

/-- **C118**, the code: if code is generated for the three parts, it is generated for the first and third, and consists of
what it was but for some declarations in the middle, which are for the rules of the second part, and their imports. -/
theorem C118_code {A B C : List Char} (hA : Whole A) (hB : Whole B) (hC : '�' ∉ C)
    {rA rB rC : FileResult} {xs ys zs : List Node} {na nb nc : Nat}
    (pA : parseSource na (enc A) = .ok rA) (wA : ReadWell rA xs) (pB : parseSource nb (enc B) = .ok rB) (wB : ReadWell rB ys)
    (pC : parseSource nc (enc C) = .ok rC) (wC : ReadWell rC zs)
    (hd : ∀ k, rA.final.env.exists? k = true → rC.final.env.exists? k = true → False)
    (hu : ∀ k, rB.final.env.exists? k = true → ∀ pos,
      ¬ Tk (Lexer.new (enc A)) ⟨.IDENT, pos, k⟩ ∧ ¬ Tk (Lexer.new (enc C)) ⟨.IDENT, pos, k⟩)
    {lib : GoLib} {n : Nat} {pkg : Bytes} {ws : List Node} {g : Generator} (hg : Generated lib n (enc (A ++ B ++ C)) pkg ws g) :
    ∃ ds es fs is js ks m ws' g', g.file.decls = ds ++ es ++ fs ∧ g.imports = is ++ js ++ ks ∧
      visit lib (.cddl {} ys) (.new pkg) = (⟨pkg, js, ⟨pkg, [], es⟩⟩, .ok ()) ∧
      Generated lib m (enc (A ++ C)) pkg ws' g' ∧ g'.file.decls = ds ++ fs ∧ g'.imports = is ++ ks ∧
      g'.file.name = g.file.name := by
  obtain ⟨m, r, r', ws1, ws', a, b, c, h1, h2, h3, h4, h5, h6, h7, h8, _⟩ :=
    C118_unused hA hB hC pA wA pB wB pC wC (fun k a b => (hd k a b).elim) fun k h _ => hu k h
  obtain ⟨r0, k1, k2, k3, k4⟩ := hg
  obtain rfl := parse_unique k1 h1
  rw [k2] at h3
  cases h3
  have he : r'.errs = [] := by
    rw [k3, List.map_nil] at h7
    have := h7.symm
    simp only [List.append_eq_nil_iff] at this
    rw [this.1.1, this.2, List.append_nil] at h8
    exact List.map_eq_nil_iff.mp h8
  have hcat : visit lib (.cddl {} ws) (.new pkg) =
      (Act.bind (visitList lib xs) fun _ => Act.bind (visitList lib ys) fun _ => visitList lib zs) (.new pkg) := by
    rw [visit, ← visitList_noPos, h5, visitList_noPos, List.append_assoc, visitList_append]
    congr 2
    funext _
    rw [visitList_append]
  obtain ⟨is, ds, o, hx⟩ := framed_visitList lib xs
  obtain ⟨js, es, o', hy⟩ := framed_visitList lib ys
  obtain ⟨ks, fs, o'', hz⟩ := framed_visitList lib zs
  rw [k4] at hcat
  simp only [Act.bind, hx, hy, hz] at hcat
  cases o with
  | panic w => simp at hcat
  | hang => simp at hcat
  | ok u =>
    cases o' with
    | panic w => simp at hcat
    | hang => simp at hcat
    | ok v =>
      simp only [plus_plus, Prod.mk.injEq] at hcat
      obtain ⟨rfl, rfl⟩ := hcat
      refine ⟨ds, es, fs, is, js, ks, m, ws', (Generator.new pkg).plus (is ++ ks) (ds ++ fs), ?_, ?_, ?_, ⟨r', h2, h4, he, ?_⟩,
        ?_, ?_, rfl⟩
      · simp [Generator.plus, Generator.new]
      · simp [Generator.plus, Generator.new]
      · rw [visit, hy]
        simp [Generator.plus, Generator.new]
      · rw [visit, ← visitList_noPos, h6, visitList_noPos, visitList_append]
        simp only [Act.bind, hx, hz, plus_plus]
      · simp [Generator.plus, Generator.new]
      · simp [Generator.plus, Generator.new]

/-! ### Cases -/

theorem absent_of {n : Nat} {src k : Bytes} (h : (match tokensOf n src with
    | some ts => ts.all fun t => t.lit ≠ k
    | none => false) = true) (pos : Pos) : ¬ Tk (Lexer.new src) ⟨.IDENT, pos, k⟩ := by
  split at h
  · rename_i ts ht
    obtain ⟨eof, L, h1, h2, _⟩ := tokensOf_scans ht
    rintro ⟨us, l, hs⟩
    rcases (scans_ended h1 h2 hs).1 _ (List.mem_append_right _ (.head _)) with h3 | h3
    · have := List.all_eq_true.mp h _ h3
      simp at this
    · rw [← h3] at h2; cases h2
  · cases h

set_option maxRecDepth 100000 in
set_option cbv.maxSteps 2000000 in
omit [Unicode] in
/-- The hypotheses of `C118_code` hold, so those of `C118_unused`: `u` uses `a` and is not used. -/
example : letI := asciiOnly; ∃ rA rB rC xs ys zs ws g, Whole "a = int\n".toList ∧ Whole "u = [ x: a ]\n".toList ∧
    '�' ∉ "c = [ y: a ]".toList ∧
    parseSource 60 (enc "a = int\n".toList) = .ok rA ∧ ReadWell rA xs ∧
    parseSource 60 (enc "u = [ x: a ]\n".toList) = .ok rB ∧ ReadWell rB ys ∧
    parseSource 60 (enc "c = [ y: a ]".toList) = .ok rC ∧ ReadWell rC zs ∧
    (∀ k, rA.final.env.exists? k = true → rC.final.env.exists? k = true → False) ∧
    (∀ k, rB.final.env.exists? k = true → ∀ pos, ¬ Tk (Lexer.new (enc "a = int\n".toList)) ⟨.IDENT, pos, k⟩ ∧
      ¬ Tk (Lexer.new (enc "c = [ y: a ]".toList)) ⟨.IDENT, pos, k⟩) ∧
    Generated demoLib 60 (enc ("a = int\n".toList ++ "u = [ x: a ]\n".toList ++ "c = [ y: a ]".toList)) b!"p" ws g ∧
    g.file.decls.length = 6 := by
  let := asciiOnly
  have names : ∀ {n : Nat} {src : Bytes} {e : Nat} {k : Bytes}, ((parseSource n src).check fun r => r.cddl.isSome &&
      decide (r.errs.length = e) && (r.errs.all fun d => onlyDeferred d.msg) && decide (r.final.env.symbols.map (·.1) = [k])) = true →
      ∃ r rules, parseSource n src = .ok r ∧ ReadWell r rules ∧ ∀ j, r.final.env.exists? j = true → j = k := by
    intro n src e k h
    obtain ⟨r, h1, h2⟩ := Out.of_check h
    simp only [Bool.and_eq_true, decide_eq_true_eq, Option.isSome_iff_exists, List.all_eq_true] at h2
    obtain ⟨⟨⟨⟨rules, h3⟩, _⟩, h4⟩, h5⟩ := h2
    refine ⟨r, rules, h1, ⟨h3, h4⟩, fun j hj => ?_⟩
    cases hs : r.final.env.symbols with
    | nil => rw [hs] at h5; cases h5
    | cons x xs =>
      rw [hs] at h5
      simp only [List.map_cons, List.cons.injEq, List.map_eq_nil_iff] at h5
      obtain ⟨rfl, rfl⟩ := h5
      rw [Env.exists?, hs] at hj
      simp only [assocFind] at hj
      by_cases h6 : x.1 = j
      · exact h6.symm
      · simp_all
  obtain ⟨rA, xs, a1, a2, a3⟩ := names (n := 60) (src := enc "a = int\n".toList) (e := 0) (k := b!"a") (by decide_cbv)
  obtain ⟨rB, ys, b1, b2, b3⟩ := names (n := 60) (src := enc "u = [ x: a ]\n".toList) (e := 1) (k := b!"u") (by decide_cbv)
  obtain ⟨rC, zs, c1, c2, c3⟩ := names (n := 60) (src := enc "c = [ y: a ]".toList) (e := 1) (k := b!"c") (by decide_cbv)
  obtain ⟨r, h1, h2⟩ := Out.of_check (o := parseSource 60 (enc ("a = int\n".toList ++ "u = [ x: a ]\n".toList ++ "c = [ y: a ]".toList)))
    (f := fun r => decide (r.errs = []) && (match r.cddl with
      | none => false
      | some ws => match visit demoLib (.cddl {} ws) (.new b!"p") with
        | (g, .ok _) => decide (g.file.decls.length = 6)
        | _ => false)) (by decide_cbv)
  simp only [Bool.and_eq_true, decide_eq_true_eq] at h2
  obtain ⟨h2, h3⟩ := h2
  split at h3
  · cases h3
  · rename_i ws hw
    split at h3
    · rename_i g u hv
      refine ⟨rA, rB, rC, xs, ys, zs, ws, g, of_wholeCheck (n := 3) (by decide_cbv), of_wholeCheck (n := 7) (by decide_cbv), by decide,
        a1, a2, b1, b2, c1, c2, fun k h h' => ?_, fun k h pos => ?_, ⟨r, h1, hw, h2, hv⟩, of_decide_eq_true h3⟩
      · exact absurd ((a3 k h).symm.trans (c3 k h')) (by decide)
      · rw [b3 k h]
        exact ⟨absent_of (n := 3) (by decide_cbv) pos, absent_of (n := 7) (by decide_cbv) pos⟩
    · cases h3

omit [Unicode] in
/-- It is not enough that the tree does not refer to what is removed: in `a = ( b / int )` the tree has no `b`, yet without
`b = int` it is reported. -/
theorem C118_tree_not_enough : letI := asciiOnly;
    (∃ r rules, parseSource 60 b!"b = int\na = ( b / int )" = .ok r ∧ r.cddl = some rules ∧ r.errs = [] ∧
      rules.length = 2 ∧ rules.flatMap refs = []) ∧
    ∃ r, parseSource 60 b!"a = ( b / int )" = .ok r ∧ r.errs.map (·.msg) = [.noSuchIdent b!"b"] := by
  let := asciiOnly
  constructor
  · obtain ⟨r, h1, h2⟩ := Out.of_check (o := parseSource 60 b!"b = int\na = ( b / int )") (f := fun r =>
      decide (r.errs = []) && match r.cddl with
        | some rules => decide (rules.length = 2) && decide (rules.flatMap refs = [])
        | none => false) (by decide_cbv)
    simp only [Bool.and_eq_true, decide_eq_true_eq] at h2
    obtain ⟨h2, h3⟩ := h2
    split at h3
    · rename_i rules hr
      simp only [Bool.and_eq_true, decide_eq_true_eq] at h3
      exact ⟨r, rules, h1, hr, h2, h3⟩
    · cases h3
  · obtain ⟨r, h1, h2⟩ := Out.of_check (o := parseSource 60 b!"a = ( b / int )") (f := fun r =>
      decide (r.errs.map (·.msg) = [.noSuchIdent b!"b"])) (by decide_cbv)
    exact ⟨r, h1, of_decide_eq_true h2⟩

end Cddlc
