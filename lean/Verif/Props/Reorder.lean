import Verif.Props.Mend

/-! C128: parts of a file with mistakes, in another order. -/

namespace Cddlc
open Spec PState
variable [Unicode]

omit [Unicode] in
theorem task_place (e : Env) (tk : Task) : (runTask e tk).map dm = (runTask e (noPosTask tk)).map dm := by
  cases tk with
  | «exists» a x => simp only [runTask, noPosTask]; split <;> rfl
  | identBound tok l y =>
    cases y <;> simp only [runTask, noPosTask, noPos]
    split <;> rfl
  | intBound a x y =>
    simp only [runTask, noPosTask]
    split
    · rfl
    · split <;> rfl
  | floatBound a x y =>
    simp only [runTask, noPosTask]
    split
    · rfl
    · split <;> rfl

theorem late_dm (r : FileResult) :
    (lateOf r).map dm = (r.final.tasks.map noPosTask).filterMap fun tk => (runTask r.final.env tk).map dm := by
  rw [lateOf, List.map_filterMap, List.filterMap_map]
  congr 1
  funext tk
  exact task_place _ tk

/-- **C128**, as far as it holds: if the parts of one file are the parts of another in any other order, then the rules of
the one are those of the other in another order, up to positions, all names are bound to the same, and as many times as
something is reported for the one it is reported for the other. -/
theorem C128_order_partial {env : Env} {texts texts' : List (List Char)} {xs ys : List (Bytes × FileResult)}
    (h : Parts env texts xs) (h' : Parts env texts' ys) (hp : xs.Perm ys) :
    ∃ m m' r r' ws ws', parseSource m (enc texts.flatten) env = .ok r ∧ parseSource m' (enc texts'.flatten) env = .ok r' ∧
      r.cddl = some ws ∧ r'.cddl = some ws' ∧ (noPosL ws).Perm (noPosL ws') ∧
      (r.errs.map fun d => noPosMsg d.msg).Perm (r'.errs.map fun d => noPosMsg d.msg) ∧
      ∀ k, (assocFind k r.final.env.symbols).map noPos = (assocFind k r'.final.env.symbols).map noPos := by
  obtain ⟨i1, m, r, ws, h1, h2, h3, h4, h5, h6, h7⟩ := parts_mistakes h.whole h.some h.sources h.parsed h.finished h.opens h.apart
  obtain ⟨-, m', r', ws', h1', h2', h3', h4', h5', h6', h7'⟩ := parts_mistakes h'.whole h'.some h'.sources h'.parsed h'.finished h'.opens h'.apart
  have hx : ∀ x ∈ xs, ∀ k, env.exists? k = true → x.2.final.env.exists? k = true := by
    intro x hx k hk
    obtain ⟨n, hpx⟩ := h.parsed x hx
    obtain ⟨t, ht, hxe⟩ : ∃ t ∈ texts, enc t = x.1 := by
      have := List.mem_map_of_mem (f := fun x : Bytes × FileResult => x.1) hx
      rw [h.sources] at this
      exact List.mem_map.mp this
    rw [← hxe] at hpx
    cases hc : x.2.cddl with
    | none => exact absurd hc (whole_tree (h.whole t ht) hpx)
    | some vs =>
      obtain ⟨cs, hcs, hcn⟩ := source_adds hpx hc
      simp only [Env.exists?] at hk ⊢
      rw [hcs, assoc_append, hcn k hk]
      exact hk
  obtain ⟨x0, hx0⟩ : ∃ x, x ∈ xs := by
    cases xs with
    | nil => have := h.sources; simp at this; exact absurd this h.some
    | cons x _ => exact ⟨x, by simp⟩
  have hnames : ∀ k, (assocFind k r.final.env.symbols).map noPos = (assocFind k r'.final.env.symbols).map noPos := by
    intro k
    by_cases hk : ∃ x ∈ xs, x.2.final.env.exists? k = true
    · obtain ⟨x, hm, hk⟩ := hk
      rw [h5 x hm k hk, h5' x (hp.mem_iff.mp hm) k hk]
    · have n1 : assocFind k r.final.env.symbols = none := by
        cases ha : assocFind k r.final.env.symbols with
        | none => rfl
        | some y =>
          rcases h6 k (by simp [Env.exists?, ha]) with h | h
          · exact absurd ⟨x0, hx0, hx x0 hx0 k h⟩ hk
          · exact absurd h hk
      have n2 : assocFind k r'.final.env.symbols = none := by
        cases ha : assocFind k r'.final.env.symbols with
        | none => rfl
        | some y =>
          rcases h6' k (by simp [Env.exists?, ha]) with h | ⟨x, hm, h⟩
          · exact absurd ⟨x0, hx0, hx x0 hx0 k h⟩ hk
          · exact absurd ⟨x, hp.mem_iff.mpr hm, h⟩ hk
      rw [n1, n2]
  have henv : runTask r.final.env = runTask r'.final.env := by
    apply task_env
    intro k
    have := hnames k
    simp only [Env.exists?, Env.get]
    cases ha : assocFind k r.final.env.symbols <;> cases hb : assocFind k r'.final.env.symbols <;> rw [ha, hb] at this <;>
      simp at this
    · exact ⟨rfl, rfl⟩
    · refine ⟨rfl, ?_⟩
      dsimp only
      rw [← noPos_kind, this, noPos_kind]
  have e1 := early_late h1 h2
  have e2 := early_late h1' h2'
  refine ⟨m, m', r, r', ws, ws', h1, h1', h2, h2', ?_, ?_, hnames⟩
  · rw [h3, h3', noPosL_map, noPosL_map]
    exact (hp.flatMap_right _).map _
  · change (r.errs.map dm).Perm (r'.errs.map dm)
    rw [e1, e2, List.map_append, List.map_append, h4, h4', late_dm, late_dm, h7, h7', henv]
    exact ((hp.flatMap_right _).map _).append (((hp.flatMap_right _).map _).filterMap _)

omit [Unicode] in
/-- The hypotheses of `C128_order_partial` hold for a rule that refers to names of another and to one that is not declared,
a mistake, and the rule that is referred to, in two orders. -/
example : letI := asciiOnly; ∃ r1 r2 r3,
    Parts Env.new ["a = [ b, c ]\n".toList, "d = )\n".toList, "b = int\n".toList]
      [(enc "a = [ b, c ]\n".toList, r1), (enc "d = )\n".toList, r2), (enc "b = int\n".toList, r3)] ∧
    Parts Env.new ["b = int\n".toList, "a = [ b, c ]\n".toList, "d = )\n".toList]
      [(enc "b = int\n".toList, r3), (enc "a = [ b, c ]\n".toList, r1), (enc "d = )\n".toList, r2)] ∧
    r1.errs.length = 2 ∧ r2.errs.length = 1 := by
  let := asciiOnly
  obtain ⟨⟨r1, r2, r3⟩, h1, h2⟩ := Out.of_check (o := do
      let r1 ← parseSource 60 (enc "a = [ b, c ]\n".toList)
      let r2 ← parseSource 60 (enc "d = )\n".toList)
      let r3 ← parseSource 60 (enc "b = int\n".toList)
      .ok (r1, r2, r3)) (f := fun r => ((r.1.errs ++ (r.2.1.errs ++ r.2.2.errs)).all fun d => match d.msg with
        | .unexpectedPrefix t _ => decide (t ≠ .EOF)
        | .expectedAssign _ => false
        | _ => true) && decide (r.1.errs.length = 2 ∧ r.2.1.errs.length = 1 ∧
          r.1.final.env.symbols.map (·.1) = [b!"a"] ∧ r.2.1.final.env.symbols.map (·.1) = [] ∧ r.2.2.final.env.symbols.map (·.1) = [b!"b"]))
    (by decide_cbv)
  obtain ⟨x1, e1, h1⟩ := Out.bind_eq_ok.mp h1
  obtain ⟨x2, e2, h1⟩ := Out.bind_eq_ok.mp h1
  obtain ⟨x3, e3, h1⟩ := Out.bind_eq_ok.mp h1
  cases h1
  rw [Bool.and_eq_true, List.all_append, List.all_append, Bool.and_eq_true, Bool.and_eq_true, decide_eq_true_eq] at h2
  obtain ⟨⟨f1, f2, f3⟩, h4, h5, k1, k2, k3⟩ := h2
  dsimp only at f1 f2 f3 h4 h5 k1 k2 k3
  have w1 : Whole "a = [ b, c ]\n".toList := of_wholeCheck (n := 7) (by decide_cbv)
  have w2 : Whole "d = )\n".toList := of_wholeCheck (n := 3) (by decide_cbv)
  have w3 : Whole "b = int\n".toList := of_wholeCheck (n := 3) (by decide_cbv)
  have o1 : Opens (enc "a = [ b, c ]\n".toList) := opens_of (by decide_cbv)
  have o2 : Opens (enc "d = )\n".toList) := opens_of (by decide_cbv)
  have o3 : Opens (enc "b = int\n".toList) := opens_of (by decide_cbv)
  refine ⟨r1, r2, r3,
    three_parts w1 w2 w3 e1 e2 e3 (finished_of f1) (finished_of f2) o2 o3 (apart_of (by rw [k1, k2]; rfl)) (apart_of (by rw [k1, k3]; rfl))
      (apart_of (by rw [k2]; rfl)),
    three_parts w3 w1 w2 e3 e1 e2 (finished_of f3) (finished_of f1) o1 o2 (apart_of (by rw [k3, k1]; rfl)) (apart_of (by rw [k3, k2]; rfl))
      (apart_of (by rw [k1, k2]; rfl)), h4, h5⟩

omit [Unicode] in
/-- **C128** is false as stated: behind a bracket left open a name is not declared, and in front of it it is. -/
theorem C128_refuted : letI := asciiOnly; ∃ r r',
    (∀ t ∈ ["a = [ int\n".toList, "b = int\n".toList], Whole t) ∧
    parseSource 60 (enc ["a = [ int\n".toList, "b = int\n".toList].flatten) = .ok r ∧
    parseSource 60 (enc ["b = int\n".toList, "a = [ int\n".toList].flatten) = .ok r' ∧
    r.final.env.exists? b!"b" = false ∧ r'.final.env.exists? b!"b" = true := by
  let := asciiOnly
  obtain ⟨⟨r, r'⟩, h1, h2⟩ := Out.of_check (o := do
      let r ← parseSource 60 (enc ["a = [ int\n".toList, "b = int\n".toList].flatten)
      let r' ← parseSource 60 (enc ["b = int\n".toList, "a = [ int\n".toList].flatten)
      .ok (r, r')) (f := fun r => !r.1.final.env.exists? b!"b" && r.2.final.env.exists? b!"b") (by decide_cbv)
  obtain ⟨x1, e1, h1⟩ := Out.bind_eq_ok.mp h1
  obtain ⟨x2, e2, h1⟩ := Out.bind_eq_ok.mp h1
  cases h1
  simp only [Bool.and_eq_true, Bool.not_eq_true'] at h2
  refine ⟨r, r', ?_, e1, e2, h2.1, h2.2⟩
  intro t ht
  simp only [List.mem_cons, List.not_mem_nil, or_false] at ht
  rcases ht with rfl | rfl
  · exact of_wholeCheck (n := 4) (by decide_cbv)
  · exact of_wholeCheck (n := 3) (by decide_cbv)

end Cddlc
