import Verif.Props.Reorder

/-! C129: parts of a file with mistakes, some of them removed. -/

namespace Cddlc
open Spec PState
variable [Unicode]

omit [Unicode] in
theorem sub_dropLast {α : Type} {a b : List α} (h : a.Sublist b) : a.dropLast.Sublist b.dropLast := by
  have h1 := (List.reverse_sublist.mpr h).tail
  rw [List.tail_reverse, List.tail_reverse] at h1
  exact List.reverse_sublist.mp h1

omit [Unicode] in
theorem sub_flatMap {α β : Type} {a b : List α} (f : α → List β) (h : a.Sublist b) : (a.flatMap f).Sublist (b.flatMap f) := by
  induction h with
  | slnil => exact .refl _
  | cons x _ ih => rw [List.flatMap_cons]; exact ih.trans (List.sublist_append_right _ _)
  | cons_cons x _ ih => rw [List.flatMap_cons, List.flatMap_cons]; exact ih.append_left _

omit [Unicode] in
theorem named_missing {e : Env} {tk : Task} {d : Diag} {k : Bytes} (h1 : runTask e tk = some d) (h2 : d.msg = .noSuchIdent k) :
    e.exists? k = false := by
  cases tk with
  | «exists» a x =>
    simp only [runTask] at h1
    split at h1 <;> cases h1
    cases h2
    rename_i hno
    exact Bool.eq_false_iff.mpr hno
  | identBound tok l y =>
    cases y <;> simp only [runTask, reduceCtorEq] at h1
    split at h1 <;> cases h1
    cases h2
  | intBound a x y =>
    simp only [runTask] at h1
    split at h1
    · cases h1; cases h2; rename_i hno; simpa using hno
    · split at h1 <;> cases h1 <;> cases h2
  | floatBound a x y =>
    simp only [runTask] at h1
    split at h1
    · cases h1; cases h2; rename_i hno; simpa using hno
    · split at h1 <;> cases h1 <;> cases h2

/-- Some of the parts are parts. -/
theorem parts_fewer {env : Env} {texts texts' : List (List Char)} {xs ys : List (Bytes × FileResult)} (h : Parts env texts xs)
    (hs : ys.Sublist xs) (ht : texts'.Sublist texts) (hne : texts' ≠ []) (he : ys.map (·.1) = texts'.map enc) : Parts env texts' ys where
  whole := fun t hm => h.whole t (ht.subset hm)
  some := hne
  sources := he
  parsed := fun x hm => h.parsed x (hs.subset hm)
  finished := fun x hm => h.finished x ((sub_dropLast hs).subset hm)
  opens := fun x hm => h.opens x (hs.tail.subset hm)
  apart := h.apart.sublist hs

/-- **C129**, as far as it holds: with some of the parts removed, the rules are those of the others, in order and up to
positions, and what is reported while they are read is what is reported for the others. Names that are still bound are
bound to the same, and those that are not are declared in a part removed. A name reported as undeclared was so before, or is
declared in a part removed; and if no name is lost, nothing is reported by the checks behind the last rule that was not
before. -/
theorem C129_remove_partial {env : Env} {texts texts' : List (List Char)} {xs ys : List (Bytes × FileResult)}
    (h : Parts env texts xs) (hs : ys.Sublist xs) (ht : texts'.Sublist texts) (hne : texts' ≠ []) (he : ys.map (·.1) = texts'.map enc) :
    ∃ m m' r r' ws ws' early early' late late',
      parseSource m (enc texts.flatten) env = .ok r ∧ parseSource m' (enc texts'.flatten) env = .ok r' ∧
      r.cddl = some ws ∧ r'.cddl = some ws' ∧ (noPosL ws').Sublist (noPosL ws) ∧
      noPosL ws' = noPosL (ys.flatMap fun y => y.2.cddl.getD []) ∧
      r.errs = early ++ late ∧ r'.errs = early' ++ late' ∧ (∀ d ∈ late ++ late', LateKind d) ∧
      (early'.map fun d => noPosMsg d.msg).Sublist (early.map fun d => noPosMsg d.msg) ∧
      (∀ k, r'.final.env.exists? k = true →
        (assocFind k r'.final.env.symbols).map noPos = (assocFind k r.final.env.symbols).map noPos) ∧
      (∀ k, r.final.env.exists? k = true → r'.final.env.exists? k = false → ∃ x ∈ xs, x ∉ ys ∧ x.2.final.env.exists? k = true) ∧
      (∀ k, (∃ d ∈ late', d.msg = .noSuchIdent k) →
        (∃ d ∈ late, d.msg = .noSuchIdent k) ∨ ∃ x ∈ xs, x ∉ ys ∧ x.2.final.env.exists? k = true) ∧
      ((∀ k, r.final.env.exists? k = true → r'.final.env.exists? k = true) →
        (late'.map fun d => noPosMsg d.msg).Sublist (late.map fun d => noPosMsg d.msg)) := by
  have h' := parts_fewer h hs ht hne he
  obtain ⟨-, m, r, ws, h1, h2, h3, h4, h5, h6, h7⟩ := parts_mistakes h.whole h.some h.sources h.parsed h.finished h.opens h.apart
  obtain ⟨-, m', r', ws', h1', h2', h3', h4', h5', h6', h7'⟩ := parts_mistakes h'.whole h'.some h'.sources h'.parsed h'.finished h'.opens h'.apart
  have hy : ∀ x ∈ ys, ∀ k, env.exists? k = true → x.2.final.env.exists? k = true := by
    intro x hx k hk
    obtain ⟨n, hpx⟩ := h'.parsed x hx
    obtain ⟨t, ht, hxe⟩ : ∃ t ∈ texts', enc t = x.1 := by
      have := List.mem_map_of_mem (f := fun x : Bytes × FileResult => x.1) hx
      rw [he] at this
      exact List.mem_map.mp this
    rw [← hxe] at hpx
    cases hc : x.2.cddl with
    | none => exact absurd hc (whole_tree (h'.whole t ht) hpx)
    | some vs =>
      obtain ⟨cs, hcs, hcn⟩ := source_adds hpx hc
      simp only [Env.exists?] at hk ⊢
      rw [hcs, assoc_append, hcn k hk]
      exact hk
  obtain ⟨x0, hx0⟩ : ∃ x, x ∈ ys := by
    cases ys with
    | nil => simp at he; exact absurd he hne
    | cons x _ => exact ⟨x, by simp⟩
  have some_of : ∀ {e e' : Env} {k : Bytes}, (assocFind k e.symbols).map noPos = (assocFind k e'.symbols).map noPos →
      e.exists? k = e'.exists? k := by
    intro e e' k h
    simp only [Env.exists?]
    rw [← Option.isSome_map (f := noPos), h, Option.isSome_map]
  have hin : ∀ k, r'.final.env.exists? k = true → ∃ y ∈ ys, y.2.final.env.exists? k = true := by
    intro k hk
    rcases h6' k hk with h | h
    · exact ⟨x0, hx0, hy x0 hx0 k h⟩
    · exact h
  have hnames : ∀ k, r'.final.env.exists? k = true →
      (assocFind k r'.final.env.symbols).map noPos = (assocFind k r.final.env.symbols).map noPos := by
    intro k hk
    obtain ⟨y, hm, hk⟩ := hin k hk
    rw [h5 y (hs.subset hm) k hk, h5' y hm k hk]
  have hlost : ∀ k, r.final.env.exists? k = true → r'.final.env.exists? k = false →
      ∃ x ∈ xs, x ∉ ys ∧ x.2.final.env.exists? k = true := by
    intro k hk hk'
    have key : ∀ y ∈ ys, y.2.final.env.exists? k = true → False := by
      intro y hm hyk
      have := some_of (h5' y hm k hyk)
      rw [hyk, hk'] at this
      cases this
    rcases h6 k hk with h | ⟨x, hm, h⟩
    · exact absurd (hy x0 hx0 k h) fun h => key x0 hx0 h
    · exact ⟨x, hm, fun hmy => key x hmy h, h⟩
  refine ⟨m, m', r, r', ws, ws', earlyOf r, earlyOf r', lateOf r, lateOf r', h1, h1', h2, h2', ?_, h3', early_late h1 h2,
    early_late h1' h2', ?_, ?_, hnames, hlost, ?_, ?_⟩
  · rw [h3, h3', noPosL_map, noPosL_map]
    exact (sub_flatMap _ hs).map _
  · intro d hd
    rcases List.mem_append.mp hd with hd | hd <;> exact late_kind hd
  · change ((earlyOf r').map dm).Sublist ((earlyOf r).map dm)
    rw [h4, h4']
    exact (sub_flatMap _ hs).map _
  · rintro k ⟨d, hd, hdk⟩
    obtain ⟨tk, htk, hrun⟩ := List.mem_filterMap.mp hd
    have hno := named_missing hrun hdk
    have := List.mem_map_of_mem (f := noPosTask) htk
    rw [h7'] at this
    have := ((sub_flatMap (fun x : Bytes × FileResult => x.2.final.tasks) hs).map noPosTask).subset this
    rw [← h7] at this
    obtain ⟨tk', htk', heq⟩ := List.mem_map.mp this
    cases hk : r.final.env.exists? k with
    | true => exact .inr (hlost k hk hno)
    | false =>
      obtain ⟨d', hd', hk'⟩ := late_named (e' := r.final.env) (fun h => by rw [hk] at h; cases h) heq.symm hrun hdk
      exact .inl ⟨d', List.mem_filterMap.mpr ⟨tk', htk', hd'⟩, hk'⟩
  · intro hall
    have henv : runTask r.final.env = runTask r'.final.env := by
      apply task_env
      intro k
      have hk : r.final.env.exists? k = r'.final.env.exists? k := by
        cases hk : r'.final.env.exists? k with
        | true => rw [← some_of (hnames k hk), hk]
        | false =>
          cases hr : r.final.env.exists? k with
          | false => rfl
          | true => rw [hall k hr] at hk; cases hk
      refine ⟨hk, ?_⟩
      cases hk' : r'.final.env.exists? k with
      | true =>
        have := hnames k hk'
        simp only [Env.get]
        cases ha : assocFind k r'.final.env.symbols <;> cases hb : assocFind k r.final.env.symbols <;> rw [ha, hb] at this <;>
          simp at this
        dsimp only
        rw [← noPos_kind, ← this, noPos_kind]
      | false =>
        rw [hk'] at hk
        simp only [Env.exists?, Option.isSome_eq_false_iff, Option.isNone_iff_eq_none] at hk hk'
        simp only [Env.get, hk, hk']
    change ((lateOf r').map dm).Sublist ((lateOf r).map dm)
    rw [late_dm, late_dm, h7, h7', henv]
    exact ((sub_flatMap _ hs).map _).filterMap _

omit [Unicode] in
/-- The hypotheses of `C129_remove_partial` hold where, of three parts, that with the mistake is removed. -/
example : letI := asciiOnly; ∃ r1 r2 r3,
    Parts Env.new ["a = [ b, c ]\n".toList, "d = )\n".toList, "b = int\n".toList]
      [(enc "a = [ b, c ]\n".toList, r1), (enc "d = )\n".toList, r2), (enc "b = int\n".toList, r3)] ∧
    [(enc "a = [ b, c ]\n".toList, r1), (enc "b = int\n".toList, r3)].Sublist
      [(enc "a = [ b, c ]\n".toList, r1), (enc "d = )\n".toList, r2), (enc "b = int\n".toList, r3)] ∧
    ["a = [ b, c ]\n".toList, "b = int\n".toList].Sublist ["a = [ b, c ]\n".toList, "d = )\n".toList, "b = int\n".toList] ∧
    r2.errs.length = 1 := by
  let := asciiOnly
  obtain ⟨⟨r1, r2, r3⟩, h1, h2⟩ := Out.of_check (o := do
      let r1 ← parseSource 60 (enc "a = [ b, c ]\n".toList)
      let r2 ← parseSource 60 (enc "d = )\n".toList)
      let r3 ← parseSource 60 (enc "b = int\n".toList)
      .ok (r1, r2, r3)) (f := fun r => ((r.1.errs ++ r.2.1.errs).all fun d => match d.msg with
        | .unexpectedPrefix t _ => decide (t ≠ .EOF)
        | .expectedAssign _ => false
        | _ => true) && decide (r.2.1.errs.length = 1 ∧
          r.1.final.env.symbols.map (·.1) = [b!"a"] ∧ r.2.1.final.env.symbols.map (·.1) = [] ∧ r.2.2.final.env.symbols.map (·.1) = [b!"b"]))
    (by decide_cbv)
  obtain ⟨x1, e1, h1⟩ := Out.bind_eq_ok.mp h1
  obtain ⟨x2, e2, h1⟩ := Out.bind_eq_ok.mp h1
  obtain ⟨x3, e3, h1⟩ := Out.bind_eq_ok.mp h1
  cases h1
  rw [Bool.and_eq_true, List.all_append, Bool.and_eq_true, decide_eq_true_eq] at h2
  obtain ⟨⟨f1, f2⟩, h5, k1, k2, k3⟩ := h2
  dsimp only at f1 f2 h5 k1 k2 k3
  exact ⟨r1, r2, r3,
    three_parts (of_wholeCheck (n := 7) (by decide_cbv)) (of_wholeCheck (n := 3) (by decide_cbv)) (of_wholeCheck (n := 3) (by decide_cbv))
      e1 e2 e3 (finished_of f1) (finished_of f2) (opens_of (by decide_cbv)) (opens_of (by decide_cbv))
      (apart_of (by rw [k1, k2]; rfl)) (apart_of (by rw [k1, k3]; rfl)) (apart_of (by rw [k2]; rfl)),
    .cons_cons _ (.cons _ (.refl _)), .cons_cons _ (.cons _ (.refl _)), h5⟩

omit [Unicode] in
/-- **C129** is false as stated: with a part removed that ends in an open bracket, the name behind it is declared. -/
theorem C129_refuted : letI := asciiOnly; ∃ r r',
    (∀ t ∈ ["a = [ int\n".toList, "b = int\n".toList], Whole t) ∧
    parseSource 60 (enc ["a = [ int\n".toList, "b = int\n".toList].flatten) = .ok r ∧
    parseSource 60 (enc ["b = int\n".toList].flatten) = .ok r' ∧
    r.final.env.exists? b!"b" = false ∧ r'.final.env.exists? b!"b" = true := by
  let := asciiOnly
  obtain ⟨⟨r, r'⟩, h1, h2⟩ := Out.of_check (o := do
      let r ← parseSource 60 (enc ["a = [ int\n".toList, "b = int\n".toList].flatten)
      let r' ← parseSource 60 (enc ["b = int\n".toList].flatten)
      .ok (r, r')) (f := fun r => !r.1.final.env.exists? b!"b" && r.2.final.env.exists? b!"b") (by decide_cbv)
  obtain ⟨x1, e1, h1⟩ := Out.bind_eq_ok.mp h1
  obtain ⟨x2, e2, h1⟩ := Out.bind_eq_ok.mp h1
  cases h1
  simp only [Bool.and_eq_true, Bool.not_eq_true'] at h2
  refine ⟨r, r', ?_, e1, e2, h2.1, h2.2⟩
  intro t ht
  simp only [List.mem_cons, List.not_mem_nil, or_false] at ht
  rcases ht with rfl | rfl
  · exact of_wholeCheck (n := 4) (by decide_cbv)
  · exact of_wholeCheck (n := 3) (by decide_cbv)

end Cddlc
