import Verif.Lemmas.Join
import Verif.Lemmas.LastLine
import Verif.Props.Repl
import Verif.Lemmas.Check

/-! C106, C107: sources that are put one behind the other. -/

namespace Cddlc
variable [Unicode]
open Spec PState

/-- Bindings that are alike but for positions. -/
theorem find_alike {bs bs' : List (Bytes × Node)} (h : noPosEnv ⟨bs⟩ = noPosEnv ⟨bs'⟩) (k : Bytes) :
    (assocFind k bs).map noPos = (assocFind k bs').map noPos := by
  rw [find_noPos, find_noPos]
  exact congrArg _ h

/-- The error is that the ends of a range are of different kinds. -/
def RangeKinds (d : Diag) : Prop := ∃ tok a b ka kb, d.msg = .boundTypes tok a b ka kb

theorem join_core {A B : List Char} (hA : Whole A) (hB : '\uFFFD' ∉ B) {env : Env} {rA rB : FileResult} {xs ys : List Node}
    {na nb : Nat} (pA : parseSource na (enc A) env = .ok rA) (tA : rA.cddl = some xs) (eA : ∀ d ∈ rA.errs, RangeKinds d)
    (pB : parseSource nb (enc B) rA.final.env = .ok rB) (tB : rB.cddl = some ys) (eB : rB.errs = []) :
    ∃ n r zs, parseSource n (enc (A ++ B)) env = .ok r ∧ r.cddl = some zs ∧ noPosL zs = noPosL (xs ++ ys) ∧
      noPosEnv r.final.env = noPosEnv rB.final.env ∧
      ∀ d ∈ r.errs, ∃ tok a b ka kb, d.msg = .boundTypes tok a b ka kb ∧
        (rA.errs = [] → rA.final.env.exists? a = false ∨ rA.final.env.exists? b = false) := by
  obtain ⟨t, rfl⟩ := hA.2.1
  have wA : ReadWell rA xs := ⟨tA, fun d hd => by obtain ⟨_, _, _, _, _, h⟩ := eA d hd; rw [h]; rfl⟩
  have wB : ReadWell rB ys := ⟨tB, by simp [eB]⟩
  obtain ⟨n, r, zs, bs, bs', h1, h2, h3, h4, h5, h6, h7, h8, h9⟩ := join_source hA hB pA wA pB wB fun k h _ => h
  have henv : noPosEnv r.final.env = noPosEnv rB.final.env := by
    simp only [noPosEnv, h6, h7, List.map_append] at h8 ⊢
    rw [h8]
  rw [List.append_assoc]
  refine ⟨n, r, zs, h1, h2, h3, henv, fun d hd => ?_⟩
  obtain ⟨_, _, _, _, _, _, hqv, hqt, hea⟩ := well_loop pA wA
  obtain ⟨_, _, _, _, _, _, hqv', hqt', heb⟩ := well_loop pB wB
  rw [hqv, hqt] at hea
  rw [hqv', hqt', eB] at heb
  have hsame : runTask r.final.env = runTask rB.final.env := task_env fun k => find_kind (find_alike henv k)
  have hdm := tasks_same (e := r.final.env) h5
  rw [← h4, List.filterMap_append, hsame, ← heb, List.append_nil, ← hsame] at hdm
  have hmem : dm d ∈ r.errs.map dm := List.mem_map_of_mem hd
  rw [hdm] at hmem
  obtain ⟨d', hd', hdd⟩ := List.mem_map.mp hmem
  obtain ⟨tk, htk, hrun⟩ := List.mem_filterMap.mp hd'
  have hpass : ∀ e, runTask rA.final.env tk = some e → RangeKinds e := fun e he =>
    eA e (hea ▸ List.mem_filterMap.mpr ⟨tk, htk, he⟩)
  have hpass0 : rA.errs = [] → runTask rA.final.env tk = none := fun h0 =>
    List.filterMap_eq_nil_iff.mp (hea.symm.trans h0) tk htk
  have hnot : ∀ e : Diag, (match e.msg with | .boundTypes .. => false | _ => true) = true → ¬ RangeKinds e := by
    rintro e h ⟨_, _, _, _, _, h'⟩
    rw [h'] at h
    cases h
  have hfind : ∀ k, rA.final.env.exists? k = true → assocFind k r.final.env.symbols = assocFind k rA.final.env.symbols := by
    intro k hk
    have h10 := find_alike h8 k
    rw [h9 k hk] at h10
    rw [h6, assoc_append, Option.map_eq_none_iff.mp h10, Option.none_or]
  have hex : ∀ k, rA.final.env.exists? k = true → r.final.env.exists? k = true := by
    intro k hk
    have := hfind k hk
    unfold Env.exists? at hk ⊢
    rw [this, hk]
  have hget : ∀ k, rA.final.env.exists? k = true → r.final.env.get k = rA.final.env.get k := by
    intro k hk
    unfold Env.get
    rw [hfind k hk]
  have hmsg : ∀ {tok a b ka kb}, d'.msg = .boundTypes tok a b ka kb → d.msg = .boundTypes tok a b ka kb := by
    intro tok a b ka kb h
    unfold dm at hdd
    rw [h] at hdd
    cases hm : d.msg <;> rw [hm] at hdd <;> simp only [noPosMsg, reduceCtorEq] at hdd
    rw [← hdd]
  cases tk with
  | «exists» k p =>
    simp only [runTask] at hpass hrun
    cases hk : rA.final.env.exists? k with
    | true =>
      rw [if_pos (hex k hk)] at hrun
      cases hrun
    | false => exact absurd (hpass _ (by rw [hk]; rfl)) (hnot _ rfl)
  | identBound tok l to =>
    cases to <;> try (simp only [runTask, reduceCtorEq] at hrun)
    rename_i i
    simp only [runTask] at hpass0
    split at hrun
    · cases hrun
    · rename_i hne
      cases hrun
      refine ⟨_, _, _, _, _, hmsg rfl, fun h0 => ?_⟩
      have hpass := hpass0 h0
      cases ha : rA.final.env.exists? l.name with
      | false => exact .inl rfl
      | true =>
        cases hb : rA.final.env.exists? i.name with
        | false => exact .inr rfl
        | true =>
          rw [hget _ ha, hget _ hb] at hne
          rw [if_neg hne] at hpass
          cases hpass
  | intBound k a b =>
    simp only [runTask] at hpass hrun
    cases hk : rA.final.env.exists? k with
    | false => exact absurd (hpass _ (by rw [hk]; rfl)) (hnot _ rfl)
    | true =>
      rw [hex k hk, hget k hk] at hrun
      rw [hk] at hpass
      exact absurd (hpass _ hrun) (hnot _ (by
        simp only [Bool.not_true, Bool.false_eq_true, if_false] at hrun
        split at hrun <;> cases hrun <;> rfl))
  | floatBound k a b =>
    simp only [runTask] at hpass hrun
    cases hk : rA.final.env.exists? k with
    | false => exact absurd (hpass _ (by rw [hk]; rfl)) (hnot _ rfl)
    | true =>
      rw [hex k hk, hget k hk] at hrun
      rw [hk] at hpass
      exact absurd (hpass _ hrun) (hnot _ (by
        simp only [Bool.not_true, Bool.false_eq_true, if_false] at hrun
        split at hrun <;> cases hrun <;> rfl))

/-- **C106**: if a source is accepted, and another is accepted with the bindings that the first leaves, then
the text of both is parsed to the rules of the first and then those of the second, and leaves the same bindings, up
to positions. All that can be reported is that the ends of a range are of different kinds, and only of ranges with a name
that the first source does not bind. -/
theorem C106_join {A B : List Char} (hA : Whole A) (hB : '\uFFFD' ∉ B) {env : Env} {rA rB : FileResult} {xs ys : List Node}
    {na nb : Nat} (pA : parseSource na (enc A) env = .ok rA) (tA : rA.cddl = some xs) (eA : rA.errs = [])
    (pB : parseSource nb (enc B) rA.final.env = .ok rB) (tB : rB.cddl = some ys) (eB : rB.errs = []) :
    ∃ n r zs, parseSource n (enc (A ++ B)) env = .ok r ∧ r.cddl = some zs ∧ noPosL zs = noPosL (xs ++ ys) ∧
      noPosEnv r.final.env = noPosEnv rB.final.env ∧
      ∀ d ∈ r.errs, ∃ tok a b ka kb, d.msg = .boundTypes tok a b ka kb ∧
        (rA.final.env.exists? a = false ∨ rA.final.env.exists? b = false) := by
  obtain ⟨n, r, zs, h1, h2, h3, h4, h5⟩ := join_core hA hB pA tA (by simp [eA]) pB tB eB
  refine ⟨n, r, zs, h1, h2, h3, h4, fun d hd => ?_⟩
  obtain ⟨tok, a, b, ka, kb, h6, h7⟩ := h5 d hd
  exact ⟨tok, a, b, ka, kb, h6, h7 eA⟩

/-- The lines one behind the other, each with a line break at its end. -/
def asFile (lines : List (List Char)) : List Char := lines.flatMap (· ++ ['\n'])

theorem session_from {n : Nat} {lines : List (List Char)} :
    ∀ {A : List Char} {na : Nat} {env e0 e1 : Env} {rA : FileResult} {zs : List Node} {xs : List (Bytes × FileResult)},
      (∀ l ∈ lines, Whole (l ++ ['\n'])) → Whole A → parseSource na (enc A) env = .ok rA → rA.cddl = some zs →
      (∀ d ∈ rA.errs, RangeKinds d) → noPosEnv rA.final.env = noPosEnv e0 → Entered n e0 xs e1 →
      xs.map (·.1) = lines.map enc → (∀ x ∈ xs, x.2.cddl ≠ none ∧ x.2.errs = []) →
      ∃ m r ws, parseSource m (enc (A ++ asFile lines)) env = .ok r ∧ r.cddl = some ws ∧
        noPosL ws = noPosL (zs ++ xs.flatMap fun x => x.2.cddl.getD []) ∧ noPosEnv r.final.env = noPosEnv e1 ∧
        ∀ d ∈ r.errs, RangeKinds d := by
  induction lines with
  | nil =>
    intro A na env e0 e1 rA zs xs _ _ pA tA eA hv hE hx _
    cases xs with
    | cons => simp at hx
    | nil =>
      cases hE
      exact ⟨na, rA, zs, by simpa [asFile] using pA, tA, by simp, hv, eA⟩
  | cons l ls ih =>
    intro A na env e0 e1 rA zs xs hw hA pA tA eA hv hE hx hacc
    cases hE with
    | nil => simp at hx
    | cons hp hrest =>
      rename_i src res rest
      simp only [List.map_cons, List.cons.injEq] at hx
      obtain ⟨rfl, hx⟩ := hx
      have hl := hw l (by simp)
      have hlb : '\uFFFD' ∉ l := fun h => hl.1 (by simp [h])
      obtain ⟨ht, he⟩ := hacc (enc l, res) (by simp)
      have hend := source_end n hlb (g := []) (by simp) hv.symm
      rw [hp] at hend
      cases hq : parseSource n (enc (l ++ ['\n'])) rA.final.env with
      | panic w => rw [hq] at hend; exact hend.elim
      | hang => rw [hq] at hend; exact hend.elim
      | ok res' =>
      rw [hq] at hend
      obtain ⟨i1, i2, i3⟩ := hend
      cases hc : res.cddl with
      | none => exact absurd hc ht
      | some ys =>
      rw [hc] at i1
      cases hc' : res'.cddl with
      | none => rw [hc'] at i1; cases i1
      | some ys' =>
      rw [hc'] at i1
      simp only [Option.map_some, renameL_id, Option.some.injEq] at i1
      rw [renameEnv_id] at i3
      have he' : res'.errs = [] := by
        simp only at he
        rw [he] at i2
        simpa using i2.symm
      obtain ⟨m, r, ws, j1, j2, j3, j4, j5⟩ := join_core hA hl.1 pA tA eA hq hc' he'
      obtain ⟨m', r', ws', k1, k2, k3, k4, k5⟩ := ih (fun l hl => hw l (by simp [hl])) (whole_append hA hl) j1 j2
        (fun d hd => by obtain ⟨tok, a, b, ka, kb, h, _⟩ := j5 d hd; exact ⟨tok, a, b, ka, kb, h⟩)
        (j4.trans i3.symm) hrest hx fun x hx => hacc x (by simp [hx])
      refine ⟨m', r', ws', ?_, k2, ?_, k4, k5⟩
      · simpa [asFile] using k1
      · rw [k3]
        simp only [List.flatMap_cons, hc, Option.getD_some]
        have happ : ∀ a b, noPosL (a ++ b) = noPosL a ++ noPosL b := fun a b => by simp [noPosL_map]
        rw [happ, j3, happ, happ, happ, ← i1, List.append_assoc]

/-- **C106**, for a whole session: if every line is accepted with the bindings that the lines before it leave, then the file of
these lines is parsed to the rules of all the lines in order, and leaves the same bindings, up to positions. All
that can be reported is that the ends of a range are of different kinds. -/
theorem C106_session {n : Nat} {lines : List (List Char)} (hw : ∀ l ∈ lines, Whole (l ++ ['\n'])) (hne : lines ≠ [])
    {env env' : Env} {xs : List (Bytes × FileResult)} (hE : Entered n env xs env') (hx : xs.map (·.1) = lines.map enc)
    (hacc : ∀ x ∈ xs, x.2.cddl ≠ none ∧ x.2.errs = []) :
    ∃ m r ws, parseSource m (enc (asFile lines)) env = .ok r ∧ r.cddl = some ws ∧
      noPosL ws = noPosL (xs.flatMap fun x => x.2.cddl.getD []) ∧ noPosEnv r.final.env = noPosEnv env' ∧
      ∀ d ∈ r.errs, RangeKinds d := by
  cases lines with
  | nil => exact absurd rfl hne
  | cons l ls =>
    cases hE with
    | nil => simp at hx
    | cons hp hrest =>
      rename_i src res rest
      simp only [List.map_cons, List.cons.injEq] at hx
      obtain ⟨rfl, hx⟩ := hx
      have hl := hw l (by simp)
      have hlb : '\uFFFD' ∉ l := fun h => hl.1 (by simp [h])
      obtain ⟨ht, he⟩ := hacc (enc l, res) (by simp)
      have hend := source_end n hlb (g := []) (by simp) (rfl : noPosEnv env = noPosEnv env)
      rw [hp] at hend
      cases hq : parseSource n (enc (l ++ ['\n'])) env with
      | panic w => rw [hq] at hend; exact hend.elim
      | hang => rw [hq] at hend; exact hend.elim
      | ok res' =>
      rw [hq] at hend
      obtain ⟨i1, i2, i3⟩ := hend
      cases hc : res.cddl with
      | none => exact absurd hc ht
      | some ys =>
      rw [hc] at i1
      cases hc' : res'.cddl with
      | none => rw [hc'] at i1; cases i1
      | some ys' =>
      rw [hc'] at i1
      simp only [Option.map_some, renameL_id, Option.some.injEq] at i1
      rw [renameEnv_id] at i3
      have he' : res'.errs = [] := by
        simp only at he
        rw [he] at i2
        simpa using i2.symm
      obtain ⟨m, r, ws, j1, j2, j3, j4, j5⟩ := session_from (fun l hl => hw l (by simp [hl])) hl hq hc'
        (by simp [he']) i3.symm hrest hx fun x hx => hacc x (by simp [hx])
      refine ⟨m, r, ws, ?_, j2, ?_, j4, j5⟩
      · simpa [asFile] using j1
      · rw [j3]
        simp only [List.flatMap_cons, hc, Option.getD_some]
        have happ : ∀ a b, noPosL (a ++ b) = noPosL a ++ noPosL b := fun a b => by simp [noPosL_map]
        rw [happ, happ, i1]

/-- A text without lexical errors has a tree. -/
theorem whole_tree {A : List Char} (hA : Whole A) {n : Nat} {env : Env} {r : FileResult}
    (h : parseSource n (enc A) env = .ok r) : r.cddl ≠ none := by
  obtain ⟨hb, _, c, ⟨ts, L, x, s, L1, hs, hne, he, hle⟩, _⟩ := hA
  unfold parseSource at h
  obtain ⟨p, hp, h⟩ := Out.bind_eq_ok.mp h
  have hL1 : L1.errors = [] := by
    obtain ⟨_, d, q, hc⟩ := scans_errors (Lexer.clean_new hb) hs
    obtain ⟨y, hy, hyt, _, _, _, hee⟩ := Lexer.clean_scan_ok hc he
    have : y.err = false := by
      cases hd : q.dropWhile ws with
      | nil => rw [hd] at hy; cases hy; rfl
      | cons c u =>
        have hc : c ≠ '\n' := by
          rintro rfl
          have := List.head?_dropWhile_not ws q
          rw [hd] at this
          simp [ws] at this
        rw [hd] at hy
        exact absurd hyt (lexeme_facts hc hy).tok
    rw [hee, hle, this]
    rfl
  have hps := (new_synced p hp).1
  have hall := scans_push hs he
  have hpl : p.lx.errors = [] := by
    obtain ⟨vs, hvs⟩ := scans_det hps hall (by simp)
    rw [← hvs] at hall
    obtain ⟨l2, h3, h4⟩ := scans_split hall
    obtain ⟨_, h5⟩ := scans_same h3 hps rfl
    rw [h5] at h4
    obtain ⟨_, d, q, hc⟩ := scans_errors (Lexer.clean_new hb) hps
    have := (scans_errors hc h4).1
    rw [hL1] at this
    exact List.prefix_nil.mp this
  unfold parseFile at h
  rw [if_neg (by simp [hpl])] at h
  obtain ⟨⟨rs, q⟩, _, h⟩ := Out.bind_eq_ok.mp h
  cases h
  simp

/-- A session of sources in which nothing is printed but prompts. -/
theorem session_quiet {lib : ReplLib} (hf : lib.lexFlag = false) {n : Nat} {lines : List Bytes} {st : ReplState} {out e st'}
    (h : lib.session n st lines = .ok (out, e, st')) (ha : ∀ l ∈ lines, Asks (lib.trim l) .source)
    (ho : ∀ o ∈ out, o = b!">>> ") :
    ∃ xs, Entered n st.env xs st'.env ∧ xs.map (·.1) = lines ∧ ∀ x ∈ xs, x.2.errs = [] := by
  induction lines generalizing st out with
  | nil =>
    cases h
    exact ⟨[], .nil, rfl, by simp⟩
  | cons l ls ih =>
    unfold ReplLib.session at h
    obtain ⟨⟨o, s1⟩, h1, h⟩ := Out.bind_eq_ok.mp h
    have hal := ha l (by simp)
    rcases line_cases lib n st l with ⟨hb, hl⟩ | ⟨hb, hl⟩ | ⟨hb, hl⟩ | ⟨hb, hl⟩ | ⟨_, hl⟩ <;>
      first | exact absurd (asks_unique hal hb) (by simp) | skip
    rw [hl] at h1
    unfold ReplLib.source at h1
    simp only [hf, Bool.false_eq_true, if_false] at h1
    obtain ⟨toks, ht, h1⟩ := Out.bind_eq_ok.mp h1
    cases ht
    obtain ⟨res, hp, h1⟩ := Out.bind_eq_ok.mp h1
    obtain ⟨rules, rfl, rfl⟩ : ∃ rules, o = ([] ++ if res.errs.length ≠ 0 then [errorListString lib.text res.errs ++ b!"\n"] else []) ++ rules ∧
        s1 = some { st with env := res.final.env } := by
      split at h1 <;>
      · obtain ⟨rules, _, h1⟩ := Out.bind_eq_ok.mp h1
        cases h1
        exact ⟨_, rfl, rfl⟩
    obtain ⟨⟨o', e', s'⟩, h2, h⟩ := Out.bind_eq_ok.mp h
    cases h
    obtain ⟨xs, k1, k2, k3⟩ := ih h2 (fun l hl => ha l (by simp [hl])) fun o ho' => ho o (by simp [ho'])
    have hre : res.errs = [] := by
      cases hr : res.errs with
      | nil => rfl
      | cons d ds =>
        have := ho (errorListString lib.text res.errs ++ b!"\n") (by simp [hr])
        have := congrArg List.getLast? this
        simp at this
    refine ⟨(l, res) :: xs, .cons hp k1, by simp [k2], ?_⟩
    intro x hx
    rcases List.mem_cons.mp hx with rfl | hx
    · exact hre
    · exact k3 x hx

/-- **C106**, as seen in the REPL: if sources are entered and nothing is printed but prompts, then the file of the lines is
parsed and leaves the same bindings as the session, up to positions, and all that can be reported is that the ends of
a range are of different kinds. -/
theorem C106_repl {lib : ReplLib} (hf : lib.lexFlag = false) {n : Nat} {lines : List (List Char)} (hne : lines ≠ [])
    (hw : ∀ l ∈ lines, Whole (l ++ ['\n'])) (ha : ∀ l ∈ lines, Asks (lib.trim (enc l)) .source) {out e st}
    (h : repl lib n (lines.map enc) = .ok (out, e, st)) (ho : ∀ o ∈ out, o = b!">>> ") :
    ∃ m r ws, parseSource m (enc (asFile lines)) = .ok r ∧ r.cddl = some ws ∧ noPosEnv r.final.env = noPosEnv st.env ∧
      ∀ d ∈ r.errs, RangeKinds d := by
  obtain ⟨xs, h1, h2, h3⟩ := session_quiet hf h (by simpa using ha) ho
  have htree : ∀ x ∈ xs, x.2.cddl ≠ none := by
    have key : ∀ (env env' : Env) (xs : List (Bytes × FileResult)), Entered n env xs env' →
        (∀ x ∈ xs, ∃ l ∈ lines, x.1 = enc l) → ∀ x ∈ xs, x.2.cddl ≠ none := by
      intro env env' xs hE
      induction hE with
      | nil => simp
      | @cons env0 src res rest env1 hp _ ih =>
        intro hx x hm
        rcases List.mem_cons.mp hm with rfl | hm
        · obtain ⟨l, hl, he⟩ := hx _ List.mem_cons_self
          dsimp only at he ⊢
          have hl' := hw l hl
          have hlb : '\uFFFD' ∉ l := fun h => hl'.1 (by simp [h])
          rw [he] at hp
          have hend := source_end n hlb (g := []) (by simp) (rfl : noPosEnv env0 = noPosEnv env0)
          rw [hp] at hend
          cases hq : parseSource n (enc (l ++ ['\n'])) env0 with
          | panic w => rw [hq] at hend; exact hend.elim
          | hang => rw [hq] at hend; exact hend.elim
          | ok res' =>
          rw [hq] at hend
          have htr := hend.tree
          intro hnone
          rw [hnone] at htr
          exact whole_tree hl' hq (Option.map_eq_none_iff.mp htr.symm)
        · exact ih (fun x hx' => hx x (by simp [hx'])) x hm
    refine key _ _ xs h1 fun x hx => ?_
    have : x.1 ∈ xs.map (·.1) := List.mem_map_of_mem hx
    rw [h2] at this
    obtain ⟨l, hl, he⟩ := List.mem_map.mp this
    exact ⟨l, hl, he.symm⟩
  obtain ⟨m, r, ws, j1, j2, _, j4, j5⟩ := C106_session hw hne h1 h2 fun x hx => ⟨htree x hx, h3 x hx⟩
  exact ⟨m, r, ws, j1, j2, j4, j5⟩

/-- **C108**: what comes of a text does not depend on whether there is a line break at its end, with or without white space
behind it: the same tree, messages and bindings, up to positions, or the same panic. -/
theorem C108_last_line (n : Nat) {cs g : List Char} (h : '\uFFFD' ∉ cs) (hg : ∀ c ∈ g, ws c = true) (env : Env) :
    SameOutcome (parseSource n (enc cs) env) (parseSource n (enc (cs ++ '\n' :: g)) env) := by
  exact renamed_id (source_end n h hg rfl)

/-- **C107**: two sources, each of which alone has no errors but those of the checks at the end, and which do not declare
the same name. Put one behind the other in either order, they are parsed to the rules of the one and then those of
the other, with the same messages but for their order, and every name has the same value, up to positions. -/
theorem C107_order {A B : List Char} (hA : Whole A) (hB : Whole B) {env : Env} {rA rB : FileResult} {xs ys : List Node}
    {na nb : Nat} (pA : parseSource na (enc A) env = .ok rA) (wA : ReadWell rA xs)
    (pB : parseSource nb (enc B) env = .ok rB) (wB : ReadWell rB ys)
    (hd : ∀ k, rA.final.env.exists? k = true → rB.final.env.exists? k = true → env.exists? k = true) :
    ∃ n r r' zs zs', parseSource n (enc (A ++ B)) env = .ok r ∧ parseSource n (enc (B ++ A)) env = .ok r' ∧
      r.cddl = some zs ∧ r'.cddl = some zs' ∧ noPosL zs = noPosL (xs ++ ys) ∧ noPosL zs' = noPosL (ys ++ xs) ∧
      (r.errs.map (noPosMsg ·.msg)).Perm (r'.errs.map (noPosMsg ·.msg)) ∧
      ∀ k, (assocFind k r.final.env.symbols).map noPos = (assocFind k r'.final.env.symbols).map noPos := by
  obtain ⟨t, rfl⟩ := hA.2.1
  obtain ⟨u, rfl⟩ := hB.2.1
  obtain ⟨n, r, zs, bs, bs', h1, h2, h3, h4, h5, h6, h7, h8, h9⟩ := join_source hA hB.1 pA wA pB wB hd
  obtain ⟨n', r', zs', cs, cs', g1, g2, g3, g4, g5, g6, g7, g8, g9⟩ :=
    join_source hB hA.1 pB wB pA wA fun k h h' => hd k h' h
  have hfind : ∀ k, (assocFind k r.final.env.symbols).map noPos = (assocFind k r'.final.env.symbols).map noPos := by
    intro k
    have a1 := find_alike h8 k
    have a2 := find_alike g8 k
    rw [h6, g6, h7, g7]
    simp only [assoc_append]
    have key : assocFind k bs' = none ∨ assocFind k cs' = none := by
      cases e1 : assocFind k bs' with
      | none => exact .inl rfl
      | some x =>
        cases e2 : assocFind k cs' with
        | none => exact .inr rfl
        | some y =>
          have := hd k (by simp [Env.exists?, g7, assoc_append, e2]) (by simp [Env.exists?, h7, assoc_append, e1])
          rw [h9 k this] at e1
          cases e1
    have mapor : ∀ o o' : Option Node, (o.or o').map noPos = (o.map noPos).or (o'.map noPos) := by
      intro o o'; cases o <;> rfl
    simp only [mapor, a1, a2]
    rcases key with h | h <;> rw [h]
    · cases Option.map noPos (assocFind k cs') <;> rfl
    · cases Option.map noPos (assocFind k bs') <;> rfl
  have hrun : runTask r.final.env = runTask r'.final.env := task_env fun k => find_kind (hfind k)
  have hperm : (r.errs.map dm).Perm (r'.errs.map dm) := by
    rw [h4, g4, tasks_same h5, tasks_same g5, ← hrun]
    exact (List.Perm.filterMap _ List.perm_append_comm).map _
  have big : ∀ {m : Nat} {src : Bytes} {x : FileResult}, parseSource m src env = .ok x → m ≤ max n n' →
      parseSource (max n n') src env = .ok x := by
    intro m src x h hm
    rcases parseSource_le hm (src := src) (env := env) with h1 | h1
    · rw [h1] at h; cases h
    · rw [← h1, h]
  refine ⟨max n n', r, r', zs, zs', ?_, ?_, h2, g2, h3, g3, hperm, hfind⟩
  · have := big h1 (Nat.le_max_left _ _)
    rwa [List.append_assoc]
  · have := big g1 (Nat.le_max_right _ _)
    rwa [List.append_assoc]

/-! ### Cases -/

/-- A test for `Whole`. -/
def wholeCheck (n : Nat) (cs : List Char) : Bool :=
  decide ('�' ∉ cs) && decide (cs.getLast? = some '\n') &&
  match scanList n (Lexer.new (enc cs)) with
  | some (ts, l) =>
    (ts.all fun t => t.tok ≠ .EOF) && decide (l.errors = []) &&
    (match ts.getLast? with | some c => c.tok ≠ .COMMENT && c.tok ≠ .REGEXP | none => false) &&
    (match l.scan with | .ok (t, _) => decide (t = .EOF) | _ => false)
  | none => false

theorem of_wholeCheck {n : Nat} {cs : List Char} (h : wholeCheck n cs = true) : Whole cs := by
  unfold wholeCheck at h
  simp only [Bool.and_eq_true, decide_eq_true_eq] at h
  obtain ⟨⟨h1, h2⟩, h⟩ := h
  split at h
  · rename_i ts l hs
    simp only [Bool.and_eq_true, decide_eq_true_eq] at h
    obtain ⟨⟨⟨h3, h4⟩, h5⟩, h6⟩ := h
    split at h5
    · rename_i c hc
      simp only [Bool.and_eq_true, decide_eq_true_eq] at h5
      split at h6
      · rename_i t y hsc
        obtain ⟨x, s, l'⟩ := y
        simp only [decide_eq_true_eq] at h6
        subst h6
        obtain ⟨us, rfl⟩ := List.getLast?_eq_some_iff.mp hc
        refine ⟨h1, List.getLast?_eq_some_iff.mp h2, c, ⟨us, l, x, s, l', scanList_scans hs, ?_, hsc, h4⟩, h5.1, h5.2⟩
        intro t ht
        simpa using List.all_eq_true.mp h3 t ht
      · cases h6
    · cases h5
  · cases h

/-- The hypotheses of `C106_join` hold for a source and another that uses its names. -/
example : letI := asciiOnly; ∃ rA rB xs ys, Whole "a = int\nb = [ a ]\n".toList ∧ '�' ∉ "c = { k: b }".toList ∧
    parseSource 60 (enc "a = int\nb = [ a ]\n".toList) = .ok rA ∧ rA.cddl = some xs ∧ rA.errs = [] ∧
    parseSource 60 (enc "c = { k: b }".toList) rA.final.env = .ok rB ∧ rB.cddl = some ys ∧ rB.errs = [] ∧
    (xs.length, ys.length) = (2, 1) := by
  let := asciiOnly
  obtain ⟨rA, h1, h2⟩ := Out.of_check (o := parseSource 60 (enc "a = int\nb = [ a ]\n".toList)) (f := fun r =>
    decide (r.errs = []) && decide (r.cddl.map List.length = some 2) && (parseSource 60 (enc "c = { k: b }".toList) r.final.env).check fun r =>
      decide (r.errs = []) && decide (r.cddl.map List.length = some 1)) (by decide_cbv)
  simp only [Bool.and_eq_true, decide_eq_true_eq] at h2
  obtain ⟨⟨h2, h3⟩, h4⟩ := h2
  obtain ⟨rB, h5, h6⟩ := Out.of_check h4
  simp only [Bool.and_eq_true, decide_eq_true_eq] at h6
  obtain ⟨xs, h7, h8⟩ := Option.map_eq_some_iff.mp h3
  obtain ⟨ys, h9, h10⟩ := Option.map_eq_some_iff.mp h6.2
  exact ⟨rA, rB, xs, ys, of_wholeCheck (n := 8) (by decide_cbv), by decide, h1, h7, h2, h5, h9, h6.1, by rw [h8, h10]⟩

omit [Unicode] in
/-- The first source must not end in a comment: `a = int ; x` and `b = int` are accepted one after the other, but the text of both
is not. -/
theorem C106_comment_needed : letI := asciiOnly;
    ∃ rA rB, parseSource 60 (enc "a = int ; x\n".toList) = .ok rA ∧ rA.errs = [] ∧ rA.cddl ≠ none ∧
      parseSource 60 (enc "b = int\n".toList) rA.final.env = .ok rB ∧ rB.errs = [] ∧ rB.cddl ≠ none ∧
      ∃ r, parseSource 60 (enc "a = int ; x\nb = int\n".toList) = .ok r ∧ r.errs ≠ [] ∧ r.final.env.exists? b!"b" = false := by
  let := asciiOnly
  obtain ⟨rA, h1, h2⟩ := Out.of_check (o := parseSource 60 (enc "a = int ; x\n".toList)) (f := fun r =>
    decide (r.errs = []) && r.cddl.isSome && (parseSource 60 (enc "b = int\n".toList) r.final.env).check fun r =>
      decide (r.errs = []) && r.cddl.isSome) (by decide_cbv)
  simp only [Bool.and_eq_true, decide_eq_true_eq] at h2
  obtain ⟨rB, h5, h6⟩ := Out.of_check h2.2
  simp only [Bool.and_eq_true, decide_eq_true_eq] at h6
  obtain ⟨r, h7, h8⟩ := Out.of_check (o := parseSource 60 (enc "a = int ; x\nb = int\n".toList)) (f := fun r =>
    decide (r.errs ≠ []) && !r.final.env.exists? b!"b") (by decide_cbv)
  simp only [Bool.and_eq_true, decide_eq_true_eq, Bool.not_eq_true'] at h8
  exact ⟨rA, rB, h1, h2.1.1, fun h => by simp [h] at h2, h5, h6.1, fun h => by simp [h] at h6, r, h7, h8⟩

omit [Unicode] in
/-- The report on ranges does occur: the ends are sockets that are bound by the second source only. -/
theorem C106_range_reported : letI := asciiOnly;
    ∃ rA rB, Whole "a = $x .. $y\n".toList ∧ parseSource 60 (enc "a = $x .. $y\n".toList) = .ok rA ∧ rA.errs = [] ∧ rA.cddl ≠ none ∧
      parseSource 60 (enc "$x = 1\n$y = \"s\"\n".toList) rA.final.env = .ok rB ∧ rB.errs = [] ∧ rB.cddl ≠ none ∧
      ∃ r, parseSource 60 (enc "a = $x .. $y\n$x = 1\n$y = \"s\"\n".toList) = .ok r ∧ r.errs ≠ [] := by
  let := asciiOnly
  obtain ⟨rA, h1, h2⟩ := Out.of_check (o := parseSource 60 (enc "a = $x .. $y\n".toList)) (f := fun r =>
    decide (r.errs = []) && r.cddl.isSome && (parseSource 60 (enc "$x = 1\n$y = \"s\"\n".toList) r.final.env).check fun r =>
      decide (r.errs = []) && r.cddl.isSome) (by decide_cbv)
  simp only [Bool.and_eq_true, decide_eq_true_eq] at h2
  obtain ⟨rB, h5, h6⟩ := Out.of_check h2.2
  simp only [Bool.and_eq_true, decide_eq_true_eq] at h6
  obtain ⟨r, h7, h8⟩ := Out.of_check (o := parseSource 60 (enc "a = $x .. $y\n$x = 1\n$y = \"s\"\n".toList)) (f := fun r =>
    decide (r.errs ≠ [])) (by decide_cbv)
  exact ⟨rA, rB, of_wholeCheck (n := 5) (by decide_cbv), h1, h2.1.1, fun h => by simp [h] at h2, h5, h6.1,
    fun h => by simp [h] at h6, r, h7, by simpa using h8⟩

/-- A session of three lines in which nothing is printed but prompts. -/
example : letI := asciiOnly; ∀ lib : ReplLib, lib.trim = id → lib.lexFlag = false →
    (∀ l ∈ ["a = int".toList, "b = [ a ]".toList, "c = { k: b }".toList], Whole (l ++ ['\n']) ∧ Asks (lib.trim (enc l)) .source) ∧
    ∃ st, repl lib 60 (["a = int".toList, "b = [ a ]".toList, "c = { k: b }".toList].map enc) =
      .ok ([b!">>> ", b!">>> ", b!">>> ", b!">>> "], .noInput, st) ∧ st.env.exists? b!"c" = true := by
  let := asciiOnly
  intro lib ht hf
  refine ⟨?_, ?_⟩
  · intro l hl
    rw [ht]
    simp only [List.mem_cons, List.not_mem_nil, or_false] at hl
    rcases hl with rfl | rfl | rfl
    · exact ⟨of_wholeCheck (n := 3) (by decide_cbv), by decide⟩
    · exact ⟨of_wholeCheck (n := 5) (by decide_cbv), by decide⟩
    · exact ⟨of_wholeCheck (n := 7) (by decide_cbv), by decide⟩
  · obtain ⟨r1, h1, h2⟩ := Out.of_check (o := parseSource 60 (enc "a = int".toList)) (f := fun r =>
      decide (r.errs = []) && (parseSource 60 (enc "b = [ a ]".toList) r.final.env).check fun r =>
      decide (r.errs = []) && (parseSource 60 (enc "c = { k: b }".toList) r.final.env).check fun r =>
      decide (r.errs = []) && r.final.env.exists? b!"c") (by decide_cbv)
    simp only [Bool.and_eq_true, decide_eq_true_eq] at h2
    obtain ⟨h2, h3⟩ := h2
    obtain ⟨r2, h4, h5⟩ := Out.of_check h3
    simp only [Bool.and_eq_true, decide_eq_true_eq] at h5
    obtain ⟨h5, h6⟩ := h5
    obtain ⟨r3, h7, h8⟩ := Out.of_check h6
    simp only [Bool.and_eq_true, decide_eq_true_eq] at h8
    refine ⟨⟨false, r3.final.env⟩, ?_, h8.2⟩
    have hline : ∀ (env : Env) (l : Bytes) (r : FileResult), Asks l .source → parseSource 60 l env = .ok r → r.errs = [] →
        lib.line 60 ⟨false, env⟩ l = .ok ([], some ⟨false, r.final.env⟩) := by
      intro env l r ha hp he
      have hal : Asks (lib.trim l) .source := by rw [ht]; exact ha
      rcases line_cases lib 60 ⟨false, env⟩ l with ⟨hb, hl⟩ | ⟨hb, hl⟩ | ⟨hb, hl⟩ | ⟨hb, hl⟩ | ⟨_, hl⟩ <;>
        first | exact absurd (asks_unique hal hb) (by simp) | skip
      rw [hl]
      unfold ReplLib.source
      simp [hf, hp, he, Out.bind_def, Out.bind]
    have e1 := hline .new _ r1 (by decide) h1 h2
    have e2 := hline r1.final.env _ r2 (by decide) h4 h5
    have e3 := hline r2.final.env _ r3 (by decide) h7 h8.1
    simp only [repl, List.map_cons, List.map_nil, ReplLib.session]
    simp only [e1, Out.bind_def, Out.bind, e2, e3]
    rfl

/-- The hypotheses of `C107_order` hold for two sources of which each uses a name of the other. -/
example : letI := asciiOnly; ∃ rA rB xs ys, Whole "a = [ b ]\n".toList ∧ Whole "b = int\nc = { k: a }\n".toList ∧
    parseSource 60 (enc "a = [ b ]\n".toList) = .ok rA ∧ ReadWell rA xs ∧ rA.errs ≠ [] ∧
    parseSource 60 (enc "b = int\nc = { k: a }\n".toList) = .ok rB ∧ ReadWell rB ys ∧ rB.errs ≠ [] ∧
    ∀ k, rA.final.env.exists? k = true → rB.final.env.exists? k = true → Env.new.exists? k = true := by
  let := asciiOnly
  obtain ⟨rA, h1, h2⟩ := Out.of_check (o := parseSource 60 (enc "a = [ b ]\n".toList)) (f := fun r =>
    r.cddl.isSome && decide (r.errs ≠ []) && (r.errs.all fun d => onlyDeferred d.msg) && decide (r.final.env.symbols.map (·.1) = [b!"a"])) (by decide_cbv)
  obtain ⟨rB, h3, h4⟩ := Out.of_check (o := parseSource 60 (enc "b = int\nc = { k: a }\n".toList)) (f := fun r =>
    r.cddl.isSome && decide (r.errs ≠ []) && (r.errs.all fun d => onlyDeferred d.msg) && decide (r.final.env.symbols.map (·.1) = [b!"c", b!"b"])) (by decide_cbv)
  simp only [Bool.and_eq_true, decide_eq_true_eq, List.all_eq_true] at h2 h4
  obtain ⟨⟨⟨a1, a2⟩, a3⟩, a4⟩ := h2
  obtain ⟨⟨⟨b1, b2⟩, b3⟩, b4⟩ := h4
  obtain ⟨xs, hxs⟩ := Option.isSome_iff_exists.mp a1
  obtain ⟨ys, hys⟩ := Option.isSome_iff_exists.mp b1
  refine ⟨rA, rB, xs, ys, of_wholeCheck (n := 5) (by decide_cbv), of_wholeCheck (n := 10) (by decide_cbv), h1, ⟨hxs, a3⟩, a2, h3,
    ⟨hys, b3⟩, b2, ?_⟩
  have keys : ∀ (bs : List (Bytes × Node)) k, (assocFind k bs).isSome = true → k ∈ bs.map (·.1) := by
    intro bs k h
    induction bs with
    | nil => cases h
    | cons x bs ih =>
      obtain ⟨a, v⟩ := x
      unfold assocFind at h
      split at h
      · rename_i ha; simp [ha]
      · simp only [List.map_cons, List.mem_cons]
        exact .inr (ih h)
  intro k ha hb
  have ha := keys _ k ha
  have hb := keys _ k hb
  rw [a4] at ha
  rw [b4] at hb
  simp only [List.mem_singleton] at ha
  subst ha
  exact absurd hb (by decide)

/-- A text without a line break at its end, and the same text with one. -/
example : letI := asciiOnly; (∃ r, parseSource 60 (enc "a = b ; x".toList) = .ok r ∧ r.cddl ≠ none ∧ r.errs ≠ []) ∧ '�' ∉ "a = b ; x".toList := by
  let := asciiOnly
  obtain ⟨r, h1, h2⟩ := Out.of_check (o := parseSource 60 (enc "a = b ; x".toList)) (f := fun r =>
    r.cddl.isSome && decide (r.errs ≠ [])) (by decide_cbv)
  simp only [Bool.and_eq_true, decide_eq_true_eq] at h2
  exact ⟨⟨r, h1, fun h => by simp [h] at h2, h2.2⟩, by decide⟩

omit [Unicode] in
/-- The line break is needed: a space at the end of a comment is in the comment. -/
theorem C108_space_needed : letI := asciiOnly;
    ¬ SameOutcome (parseSource 60 (enc "; x".toList)) (parseSource 60 (enc "; x ".toList)) := by
  let := asciiOnly
  let text : Option (List Node) → Bytes := fun o => match o with
    | some [.comment c] => c.text
    | _ => []
  obtain ⟨r, h1, h2⟩ := Out.of_check (o := parseSource 60 (enc "; x".toList)) (f := fun r =>
    decide (text (r.cddl.map noPosL) = b!" x")) (by decide_cbv)
  obtain ⟨r', h3, h4⟩ := Out.of_check (o := parseSource 60 (enc "; x ".toList)) (f := fun r =>
    decide (text (r.cddl.map noPosL) = b!" x ")) (by decide_cbv)
  rw [h1, h3]
  intro h
  have := congrArg text h.tree
  rw [of_decide_eq_true h2, of_decide_eq_true h4] at this
  revert this
  decide

end Cddlc
