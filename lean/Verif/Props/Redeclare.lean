import Verif.Lemmas.RedeclareSound
import Verif.Props.Language

/-! C114: what becomes of names that are declared more than once; C16 for the files of the grammar. -/

namespace Cddlc
open Spec PState
variable [Unicode]

/-- The parser on a file of the grammar. -/
theorem grammatical {src : Bytes} {ts eof L} {env : Env} {rules ds cs}
    (hs : Scans (Lexer.new src) (ts ++ [eof]) L) (he : eof.tok = .EOF) (hr : Rules eof ts rules ds cs) :
    ∃ N, ∀ n, N ≤ n →
      (∀ d ∈ repeats env.symbols ds, ∃ pos, d.2.start = .ok pos) ∧ (∃ res, parseSource n src env = .ok res ∧ res.cddl = some rules ∧
        res.errs.map (noPosMsg ·.msg) = (repeats env.symbols ds).map (Msg.existing ·.1 0 0) ++
          cs.filterMap (Check.failure (declaredKind (env.symbols ++ ds))) ∧
        ∀ k, assocFind k res.final.env.symbols = ((env.symbols ++ ds).find? (·.1 = k)).map (·.2)) ∨
      (∃ d ∈ repeats env.symbols ds, ¬ ∃ pos, d.2.start = .ok pos) ∧ ∃ w, parseSource n src env = .panic w := by
  obtain ⟨p, h1, h2, h3, h4, h5, h6⟩ := new_start hs he env (ts.length + 2)
  have h6 : p.lx.errors = [] := h6 (rules_begin hr)
  have hok : ∀ t ∈ ts, TokOK t := fun t ht =>
    ⟨scans_spelled hs t (by simp [ht]), Lexer.ident_ne hs t (by simp [ht])⟩
  have hb : Binds p.env env.symbols := by
    intro k
    rw [h2, assocFind_find]
  obtain ⟨N, hN⟩ := rules_repeats he hr
  refine ⟨N, fun n hn => ?_⟩
  rcases hN n hn n hn [] p _ env.symbols h5 (by omega) hok hb with
    ⟨i0, q, i1, ⟨errs, i2, i2'⟩, ⟨new, i3, i4⟩, i5⟩ | ⟨i1, w, i2⟩
  · refine .inl ⟨i0, ⟨some rules, q.runTasks.errors, q.runTasks⟩, ?_, rfl, ?_, i5⟩
    · unfold parseSource
      rw [h1]
      show PState.parseFile n p = _
      unfold parseFile
      rw [if_neg (by simp [h6]), i1]
      simp [Out.bind_def, Out.bind]
    · rw [h4, List.nil_append] at i3
      rw [h3, List.nil_append] at i2
      show (q.errors ++ q.tasks.filterMap (runTask q.env)).map _ = _
      rw [List.map_append, i2, i2', tasks_checksOf (kind := declaredKind (env.symbols ++ ds)) ?_, i3, i4]
      intro k
      unfold declaredKind Env.exists? Env.get
      rw [i5 k]
      cases (env.symbols ++ ds).find? (·.1 = k) <;> simp
  · refine .inr ⟨i1, w, ?_⟩
    unfold parseSource
    rw [h1]
    show PState.parseFile n p = _
    unfold parseFile
    rw [if_neg (by simp [h6]), i2]
    rfl

/-- **C114**: in a file of the grammar, whatever names it declares and whatever is declared before, the first declaration of
a name wins; there is one diagnostic for each further one, in order, in front of those of the checks; and the tree
has all the rules. This holds if what the names were declared as first has a start. -/
theorem C114_redeclared {src : Bytes} {ts eof L} {env : Env} {rules ds cs}
    (hs : Scans (Lexer.new src) (ts ++ [eof]) L) (he : eof.tok = .EOF) (hr : Rules eof ts rules ds cs)
    (hd : ∀ d ∈ repeats env.symbols ds, ∃ pos, d.2.start = .ok pos) :
    ∃ N, ∀ n, N ≤ n → ∃ res, parseSource n src env = .ok res ∧ res.cddl = some rules ∧
      res.errs.map (noPosMsg ·.msg) = (repeats env.symbols ds).map (Msg.existing ·.1 0 0) ++
        cs.filterMap (Check.failure (declaredKind (env.symbols ++ ds))) ∧
      ∀ k, assocFind k res.final.env.symbols = ((env.symbols ++ ds).find? (·.1 = k)).map (·.2) := by
  obtain ⟨N, h⟩ := grammatical hs he hr
  refine ⟨N, fun n hn => ?_⟩
  rcases h n hn with ⟨_, h⟩ | ⟨⟨d, h1, h2⟩, _⟩
  · exact h
  · exact absurd (hd d h1) h2

omit [Unicode] in
theorem repeats_mem {ds : List (Bytes × Node)} : ∀ {seen d}, d ∈ repeats seen ds → ∃ b ∈ seen ++ ds, b.2 = d.2 := by
  induction ds with
  | nil => nofun
  | cons a ds ih =>
    intro seen d h
    rw [repeats] at h
    rcases List.mem_append.mp h with h | h
    · split at h
      · rename_i b hb
        obtain rfl : d = _ := by simpa using h
        exact ⟨b, List.mem_append_left _ (List.mem_of_find?_eq_some hb), rfl⟩
      · cases h
    · obtain ⟨b, h1, h2⟩ := ih h
      exact ⟨b, by simpa using h1, h2⟩

/-- **C16**, exactly, for the files of the grammar: `ParseFile` panics if and only if a name is declared again that was
declared first as a comparison or as a range without ends, or as a choice or `.bits` that begins with one. -/
theorem C16_grammatical_partial {src : Bytes} {ts eof L} {rules ds cs}
    (hs : Scans (Lexer.new src) (ts ++ [eof]) L) (he : eof.tok = .EOF) (hr : Rules eof ts rules ds cs) :
    ((∃ n w, parseSource n src = .panic w) ↔ ∃ d ∈ repeats [] ds, headless d.2 = true) ∧
    ((∃ n res, parseSource n src = .ok res) ↔ ∀ d ∈ repeats [] ds, headless d.2 = false) := by
  obtain ⟨N, h⟩ := grammatical (env := .new) hs he hr
  have st : ∀ d ∈ repeats [] ds, (headless d.2 = false ↔ ∃ pos, d.2.start = .ok pos) := by
    intro d hd
    obtain ⟨b, h1, h2⟩ := repeats_mem hd
    rw [← h2]
    exact (rules_start hr b (by simpa using h1)).2
  have raise : ∀ {n o}, parseSource n src = o → o ≠ .hang → parseSource (n + N) src = o := by
    intro n o h1 h2
    rcases parseSource_le (src := src) (env := Env.new) (Nat.le_add_right n N) with he | he
    · exact absurd (h1.symm.trans he) h2
    · rw [← he, h1]
  have key := h N (Nat.le_refl _)
  constructor
  · constructor
    · rintro ⟨n, w, hw⟩
      rcases h (n + N) (by omega) with ⟨_, res, h1, _⟩ | ⟨⟨d, hd, h1⟩, _⟩
      · rw [raise hw nofun] at h1
        cases h1
      · exact ⟨d, hd, by rw [← st d hd] at h1; simpa using h1⟩
    · rintro ⟨d, hd, h1⟩
      rcases key with ⟨h2, _⟩ | ⟨_, w, h2⟩
      · have := (st d hd).mpr (h2 d hd)
        rw [h1] at this
        cases this
      · exact ⟨N, w, h2⟩
  · constructor
    · rintro ⟨n, res, hw⟩ d hd
      rcases h (n + N) (by omega) with ⟨h2, _⟩ | ⟨_, w, h1⟩
      · exact (st d hd).mpr (h2 d hd)
      · rw [raise hw nofun] at h1
        cases h1
    · intro h1
      rcases key with ⟨_, res, h2, _⟩ | ⟨⟨d, hd, h2⟩, _⟩
      · exact ⟨N, res, h2⟩
      · exact absurd ((st d hd).mp (h1 d hd)) h2

/-- A source that is read with no other diagnostics than those of repeated names and of checks is a file of the grammar. -/
theorem again_sound {n : Nat} {src : Bytes} {ts eof L} {env : Env} {res : FileResult} {rules}
    (hs : Scans (Lexer.new src) (ts ++ [eof]) L) (he : eof.tok = .EOF)
    (hc : ∀ t ∈ ts, t.tok ≠ .EOF) (h : parseSource n src env = .ok res) (ht : res.cddl = some rules)
    (hw : ∀ d ∈ res.errs, semantic d.msg = true) :
    ∃ ds cs, Rules eof ts rules ds cs ∧ ∀ d ∈ repeats env.symbols ds, ∃ pos, d.2.start = .ok pos := by
  unfold parseSource at h
  cases hp : PState.new (Lexer.new src) env with
  | panic w => rw [hp] at h; cases h
  | hang => rw [hp] at h; cases h
  | ok p =>
    rw [hp] at h
    dsimp only [Out.bind_def, Out.bind] at h
    unfold parseFile at h
    split at h
    · cases h; cases ht
    · cases hq : loopOut (fileStep n) n ([], p) with
      | panic w => rw [hq] at h; cases h
      | hang => rw [hq] at h; cases h
      | ok x =>
        obtain ⟨rs, q⟩ := x
        rw [hq] at h
        cases h
        cases ht
        obtain ⟨rs', hrun, hrs⟩ := fileLoop_run n [] p _ hq
        obtain ⟨k1, k2, k3, k4⟩ := new_synced p hp
        have hS : Sound (Lexer.new src) p :=
          ⟨⟨⟨[], k1⟩, by rw [k4]; exact fun d hd => (List.not_mem_nil hd).elim, new_spells src⟩,
            by rw [k3]; exact fun d hd => (List.not_mem_nil hd).elim⟩
        have hsound : Sound (Lexer.new src) q := run_sound hrun hS
        have hB : Binds p.env env.symbols := by
          intro k
          rw [k2, assocFind_find]
        obtain ⟨i2, us, ds, cs, rs, ⟨⟨vs, i1, hvs⟩, i0, i3, -, -, i4, -⟩, i5⟩ :=
          loop_again (new_spells src) (ends_of hs he hc) n ⟨_, k1⟩ hS hB hq fun d hd => by
            have h1 := hsound.immediate d hd
            have h2 := hw d (List.mem_append_left _ hd)
            revert h1 h2
            cases d.msg <;> simp [semantic, again, onlyDeferred]
        simp only [List.nil_append] at i5
        obtain rfl := whole_tokens hs he hc hp i1 hvs i0 i2
        subst i5
        exact ⟨ds, cs, i3, i4⟩

/-- **C114**, exactly: a source is read with the tree `rules` and with no other diagnostics than those of names
declared again, of names that are not declared, and of ends of ranges that do not fit, if and only if its tokens form a file of the
grammar with that tree, every name declared again has a start, and no check finds anything else. -/
theorem C114_language {src : Bytes} {ts eof L} {env : Env} {rules}
    (hs : Scans (Lexer.new src) (ts ++ [eof]) L) (he : eof.tok = .EOF) (hc : ∀ t ∈ ts, t.tok ≠ .EOF) :
    (∃ n res, parseSource n src env = .ok res ∧ res.cddl = some rules ∧ ∀ d ∈ res.errs, semantic d.msg = true) ↔
      ∃ ds cs, Rules eof ts rules ds cs ∧ (∀ d ∈ repeats env.symbols ds, ∃ pos, d.2.start = .ok pos) ∧
        ∀ m ∈ cs.filterMap (Check.failure (declaredKind (env.symbols ++ ds))), semantic m = true := by
  have key : ∀ m, semantic (noPosMsg m) = semantic m := by
    intro m
    cases m <;> rfl
  constructor
  · rintro ⟨n, res, h1, h2, h3⟩
    obtain ⟨ds, cs, k1, k2⟩ := again_sound hs he hc h1 h2 h3
    refine ⟨ds, cs, k1, k2, fun m hm => ?_⟩
    obtain ⟨N, h⟩ := C114_redeclared hs he k1 k2
    obtain ⟨res', h4, -, h5, -⟩ := h N (Nat.le_refl _)
    obtain rfl := parse_unique h1 h4
    have : m ∈ res.errs.map (noPosMsg ·.msg) := by rw [h5]; exact List.mem_append_right _ hm
    obtain ⟨d, hd, rfl⟩ := List.mem_map.mp this
    rw [key]
    exact h3 d hd
  · rintro ⟨ds, cs, k1, k2, k3⟩
    obtain ⟨N, h⟩ := C114_redeclared hs he k1 k2
    obtain ⟨res, h1, h2, h3, -⟩ := h N (Nat.le_refl _)
    refine ⟨N, res, h1, h2, fun d hd => ?_⟩
    have : noPosMsg d.msg ∈ res.errs.map (noPosMsg ·.msg) := List.mem_map_of_mem hd
    rw [h3] at this
    rw [← key]
    rcases List.mem_append.mp this with h | h
    · obtain ⟨e, _, h⟩ := List.mem_map.mp h
      rw [← h]
      rfl
    · exact k3 _ h

/-- There are as many diagnostics of repeated names as there are repeated names. -/
theorem repeats_count {n : Nat} {src : Bytes} {ts eof L} {env : Env} {res rules ds cs}
    (hs : Scans (Lexer.new src) (ts ++ [eof]) L) (he : eof.tok = .EOF) (h1 : parseSource n src env = .ok res)
    (hr : Rules eof ts rules ds cs) (hd : ∀ d ∈ repeats env.symbols ds, ∃ pos, d.2.start = .ok pos) :
    (repeats env.symbols ds).length = (res.errs.filter (again ·.msg)).length := by
  obtain ⟨N, h⟩ := C114_redeclared hs he hr hd
  obtain ⟨res', h4, -, h5, -⟩ := h N (Nat.le_refl _)
  obtain rfl := parse_unique h1 h4
  have fails : ∀ m ∈ cs.filterMap (Check.failure (declaredKind (env.symbols ++ ds))), again m = false := by
    intro m hm
    obtain ⟨c, -, hc⟩ := List.mem_filterMap.mp hm
    cases c <;> simp only [Check.failure] at hc <;> repeat (first | (split at hc) | (cases hc; rfl) | cases hc)
  have hn : ∀ m, again (noPosMsg m) = again m := by
    intro m
    cases m <;> rfl
  have hr : ∀ ds : List (Bytes × Node), (ds.map (Msg.existing ·.1 0 0)).filter again = ds.map (Msg.existing ·.1 0 0) := by
    intro ds
    rw [List.filter_eq_self]
    intro m hm
    obtain ⟨d, -, rfl⟩ := List.mem_map.mp hm
    rfl
  have hz : (cs.filterMap (Check.failure (declaredKind (env.symbols ++ ds)))).filter again = [] :=
    List.filter_eq_nil_iff.mpr fun m hm => by rw [fails m hm]; decide
  have := congrArg (fun ms => (ms.filter again).length) h5
  rw [List.filter_append, hz, hr, List.append_nil, List.filter_map, List.length_map, List.length_map] at this
  rw [← this]
  congr 2
  funext d
  exact hn d.msg

/-! ### Examples -/

omit [Unicode] in
/-- Two rules for one name: the tree has both, one diagnostic. -/
example : letI := asciiOnly; ∃ N, ∀ n, N ≤ n → ∃ res, parseSource n b!"a = tstr a = int" = .ok res ∧
    res.errs.map (noPosMsg ·.msg) = [.existing b!"a" 0 0] ∧
    (assocFind b!"a" res.final.env.symbols).map (·.kind) = some .tstr := by
  let := asciiOnly
  have hs := scanList_scans (n := 7) (l := Lexer.new b!"a = tstr a = int") (ts := [_, _, _, _, _, _] ++ [_]) rfl
  have hr := Rules.declare (eof := ⟨.EOF, ⟨16, 1, 17, []⟩, []⟩) (n := ⟨.IDENT, ⟨0, 1, 1, []⟩, b!"a"⟩) (a := ⟨.ASSIGN, ⟨2, 1, 3, []⟩, b!"="⟩)
    rfl rfl (.only (.single (t := ⟨.TSTR, ⟨4, 1, 5, []⟩, b!"tstr"⟩) (.text (.inl rfl))) (by decide) (by decide))
    (.none fun h => absurd h.1 (by decide))
    (Rules.declare (n := ⟨.IDENT, ⟨9, 1, 10, []⟩, b!"a"⟩) (a := ⟨.ASSIGN, ⟨11, 1, 12, []⟩, b!"="⟩) rfl rfl
      (.only (.single (t := ⟨.INT, ⟨13, 1, 14, []⟩, b!"int"⟩) (.int rfl rfl)) (by decide) (by decide))
      (.none (us := []) fun h => nomatch h.1) .nil)
  obtain ⟨N, h⟩ := C114_redeclared (env := .new) hs rfl hr (by simp [repeats, Env.new, Node.start])
  refine ⟨N, fun n hn => ?_⟩
  obtain ⟨res, h1, -, h2, h3⟩ := h n hn
  exact ⟨res, h1, h2, by rw [h3]; rfl⟩

set_option maxRecDepth 100000 in
set_option cbv.maxSteps 2000000 in
omit [Unicode] in
/-- A name declared three times, one not declared, and a range over two types: `C114_language` gives the derivation. -/
example : letI := asciiOnly; ∃ ts eof L rules ds cs,
    Scans (Lexer.new b!"a = [* b] / 1\na = 1..a a = {x: tstr} ; last\n") (ts ++ [eof]) L ∧ eof.tok = .EOF ∧ Rules eof ts rules ds cs ∧
    rules.length = 3 ∧ (repeats [] ds).length = 2 := by
  let := asciiOnly
  obtain ⟨res, rules, h1, h2, h3⟩ := of_parses (n := 60) (src := b!"a = [* b] / 1\na = 1..a a = {x: tstr} ; last\n")
    (f := fun rules es => es.all (semantic ·.msg) && decide (rules.length = 3) && decide (es.length = 4 ∧ (es.filter (again ·.msg)).length = 2)) (by decide_cbv)
  simp only [Bool.and_eq_true, List.all_eq_true, decide_eq_true_eq] at h3
  have ht : ((tokensOf 21 b!"a = [* b] / 1\na = 1..a a = {x: tstr} ; last\n").isSome) = true := by
    decide_cbv
  obtain ⟨ts, ht⟩ := Option.isSome_iff_exists.mp ht
  obtain ⟨eof, L, k1, k2, k3⟩ := tokensOf_scans ht
  obtain ⟨ds, cs, k, k4, k5⟩ := (C114_language k1 k2 k3).mp ⟨60, res, h1, h2, h3.1.1⟩
  exact ⟨ts, eof, L, rules, ds, cs, k1, k2, k, h3.1.2, (repeats_count k1 k2 h1 k k4).trans h3.2.2⟩

set_option maxRecDepth 100000 in
omit [Unicode] in
/-- The same with a comparison first. -/
example : letI := asciiOnly; ∃ n w, parseSource n b!"a = int .lt 5 a = int" = .panic w := by
  let := asciiOnly
  have hs := scanList_scans (n := 9) (l := Lexer.new b!"a = int .lt 5 a = int") (ts := [_, _, _, _, _, _, _, _] ++ [_]) rfl
  have hr := Rules.declare (eof := ⟨.EOF, ⟨21, 1, 22, []⟩, []⟩) (n := ⟨.IDENT, ⟨0, 1, 1, []⟩, b!"a"⟩) (a := ⟨.ASSIGN, ⟨2, 1, 3, []⟩, b!"="⟩)
    rfl rfl (.joined (op := ⟨.LT, ⟨8, 1, 9, []⟩, b!".lt"⟩) (.single (t := ⟨.INT, ⟨4, 1, 5, []⟩, b!"int"⟩) (.int rfl rfl))
      (.only (.single (t := ⟨.INT, ⟨12, 1, 13, []⟩, b!"5"⟩) (.number (v := 5) rfl (by decide) rfl)) (by decide) (by decide))
      (.compare (by decide) (by decide)) fun _ h => absurd h.1 (by decide))
    (.none fun h => absurd h.1 (by decide))
    (Rules.declare (n := ⟨.IDENT, ⟨14, 1, 15, []⟩, b!"a"⟩) (a := ⟨.ASSIGN, ⟨16, 1, 17, []⟩, b!"="⟩) rfl rfl
      (.only (.single (t := ⟨.INT, ⟨18, 1, 19, []⟩, b!"int"⟩) (.int rfl rfl)) (by decide) (by decide))
      (.none (us := []) fun h => nomatch h.1) .nil)
  exact (C16_grammatical_partial hs rfl hr).1.mpr ⟨(b!"a", .comparator ⟨8, 1, 9, []⟩ .LT b!".lt" (.typedNil .intType) (.intLit ⟨12, 1, 13, []⟩ .INT 5)), by simp [repeats], rfl⟩

end Cddlc
