import Verif.Props.Round
import Verif.Props.Layout
import Verif.Props.Codegen

/-! The order of rules does not matter (C83). -/

namespace Cddlc
open Spec

/-! ### Errors -/

theorem kindOf_perm {rs rs' : List SRule} (hp : rs'.Perm rs)
    (hd : ((rs.filter (·.assign = .eq)).map fun r => enc r.name).Nodup) (k : Bytes) : kindOf rs' k = kindOf rs k := by
  unfold kindOf
  congr 1
  induction hp with
  | nil => rfl
  | cons r _ ih =>
    rw [List.find?_cons, List.find?_cons]
    split
    · rfl
    · refine ih ?_
      rw [List.filter_cons] at hd
      split at hd
      · exact (List.nodup_cons.1 hd).2
      · exact hd
  | swap a b l =>
    rw [List.find?_cons, List.find?_cons, List.find?_cons, List.find?_cons]
    by_cases ha : a.assign = .eq ∧ enc a.name = k
    · by_cases hb : b.assign = .eq ∧ enc b.name = k
      · rw [List.filter_cons_of_pos (by simpa using ha.1), List.filter_cons_of_pos (by simpa using hb.1)] at hd
        simp only [List.map_cons, List.nodup_cons, List.mem_cons, ha.2, hb.2, true_or, not_true, false_and] at hd
      · simp only [ha, hb, decide_false]
    · by_cases hb : b.assign = .eq ∧ enc b.name = k
      · simp only [ha, hb, decide_false]
      · simp only [ha, hb, decide_false]
  | trans h1 h2 ih1 ih2 =>
    exact (ih1 (((h2.filter _).map _).nodup_iff.2 hd)).trans (ih2 hd)

/-- Whether a schema has errors does not depend on the order of its rules. -/
theorem errors_perm {s s' : Schema} (hp : s'.rules.Perm s.rules) : s'.errors = [] ↔ s.errors = [] := by
  rw [errors_nil, errors_nil, ((hp.filter _).map _).nodup_iff]
  refine and_congr_right fun hd => ?_
  rw [funext (kindOf_perm hp hd)]
  exact ⟨fun h r hr => h r (hp.mem_iff.2 hr), fun h r hr => h r (hp.mem_iff.1 hr)⟩

/-! ### Trees -/

theorem nodes_rules (b : Bool) (s : Schema) : (s.nodes b).filter (·.kind = .rule) = s.rules.map (·.node b) := by
  have hc : ∀ cs, (commentNodes cs).filter (·.kind = .rule) = [] := by
    intro cs
    unfold commentNodes
    split <;> rfl
  unfold Schema.nodes
  rw [List.filter_append, hc, List.append_nil]
  induction s.rules with
  | nil => rfl
  | cons r rs ih =>
    rw [List.flatMap_cons, List.filter_append, List.filter_append, hc, ih]; rfl

section
variable [Unicode]

/-- **C83** (trees): two texts of a schema with its rules in any order are both parsed, either with
errors or both without; the rules in the trees are the same up to their order. -/
theorem C83_order {s s' : Schema} (hs : s.WF) (hs' : s'.WF) (hp : s'.rules.Perm s.rules) {src src' : Bytes}
    (hw : s.WrittenAs src) (hw' : s'.WrittenAs src') :
    ∃ N, ∀ n, N ≤ n → ∃ rules rules' res res', parseSource n src = .ok res ∧ parseSource n src' = .ok res' ∧
      res.cddl = some rules ∧ res'.cddl = some rules' ∧ (res'.errs = [] ↔ res.errs = []) ∧
      (noPosL (rules'.filter (·.kind = .rule))).Perm (noPosL (rules.filter (·.kind = .rule))) := by
  obtain ⟨N, h⟩ := C23_schema_read_back hs hw
  obtain ⟨N', h'⟩ := C23_schema_read_back hs' hw'
  refine ⟨max N N', fun n hn => ?_⟩
  obtain ⟨rules, res, h1, h2, h3, h4⟩ := h n (Nat.le_trans (Nat.le_max_left ..) hn)
  obtain ⟨rules', res', h1', h2', h3', h4'⟩ := h' n (Nat.le_trans (Nat.le_max_right ..) hn)
  refine ⟨rules, rules', res, res', h1, h1', h2, h2', ?_, ?_⟩
  · rw [← List.map_eq_nil_iff (l := res'.errs), h4', errors_perm hp, ← h4, List.map_eq_nil_iff]
  · rw [noPosL_filter (fun k => decide (k = .rule)), noPosL_filter (fun k => decide (k = .rule)), h3, h3', nodes_rules, nodes_rules]
    exact hp.map _

omit [Unicode] in
/-- A schema without errors is supported in any order. -/
theorem wf_perm {s s' : Schema} (hs : s.WF) (hp : s'.rules.Perm s.rules) (he : s.errors = []) : s'.WF := by
  intro r hr
  obtain ⟨h1, h2, _⟩ := hs r (hp.mem_iff.1 hr)
  have he' := (errors_perm hp).2 he
  unfold Schema.errors at he'
  rw [List.append_eq_nil_iff, List.map_eq_nil_iff] at he'
  exact ⟨h1, h2, fun _ => by rw [he'.1]; exact List.not_mem_nil⟩

/-- The example schema and the same with the rules in reverse. -/
example : (⟨demoS.rules.reverse, []⟩ : Schema).rules.Perm demoS.rules ∧ (⟨demoS.rules.reverse, []⟩ : Schema).rules ≠ demoS.rules ∧
    (⟨demoS.rules.reverse, []⟩ : Schema).WF :=
  ⟨List.reverse_perm _, by
    have : (⟨demoS.rules.reverse, []⟩ : Schema).rules.map (·.name) ≠ demoS.rules.map (·.name) := by decide +kernel
    exact fun h => this (by rw [h]), wf_perm demoS_wf (List.reverse_perm _) (by decide +kernel)⟩

/-! ### Code -/

variable {lib : GoLib}

/-- What a top-level node makes a new generator into. -/
def madeOf (lib : GoLib) (r : Node) : Generator := (visit lib r (.new [])).1

theorem visitList_made (hU : NoReplacement) {rules : List Node} (ht : TopLevel rules) {g g' : Generator}
    (h : visitList lib rules g = (g', .ok ())) :
    g' = { g with
      imports := g.imports ++ rules.flatMap (fun r => (madeOf lib r).imports)
      file := { g.file with decls := g.file.decls ++ rules.flatMap fun r => (madeOf lib r).file.decls } } := by
  induction rules generalizing g with
  | nil => rw [visitList] at h; cases h; simp
  | cons r rest ih =>
    have hs : ∀ g, visitList lib (r :: rest) g = Act.bind (visit lib r) (fun _ => visitList lib rest) g :=
      fun g => by rw [visitList]
    rw [hs] at h
    have ih := fun {g} => ih (fun x hx => ht x (List.mem_cons_of_mem _ hx)) (g := g)
    by_cases hk : r.kind = .rule
    · have hr := (ht r (List.mem_cons_self ..)).2
      cases r <;> first | (cases hk; done) | skip
      case typedNil k => cases hk; exact absurd rfl hr
      rename_i p i v c
      have hv : ∀ g, visit lib (.rule p i v c) g = visitRule lib i v g := fun g => by rw [visit]
      rcases visitRule_cases hU lib i v with ⟨n, e, h1, h2, h3, h4, h5⟩ | ⟨h1, h2⟩
      · rw [Act.bind_ok ((hv g).trans (h5 g))] at h
        have hd : madeOf lib (.rule p i v c) = ((Generator.new []).sized (sizeControls v)).declaring [ruleDecl i v.kind n e,
            validMethod lib i n ((checks v).map .expr ++ [.ret [b!"nil"]])] := by
          unfold madeOf
          rw [hv, h5]
        rw [ih h, List.flatMap_cons, List.flatMap_cons, hd]
        simp [Generator.declaring, Generator.sized, Generator.new]
      · have := Act.bind_panic (a := visit lib (.rule p i v c)) (f := fun _ => visitList lib rest) (s := g)
          (by rw [hv]; exact h2 g)
        rw [h] at this; cases this
    · have hv := fun g => visit_skip (lib := lib) hk (ht r (List.mem_cons_self ..)).1 g
      rw [Act.bind_ok (hv g)] at h
      rw [ih h, List.flatMap_cons, List.flatMap_cons, show madeOf lib r = .new [] by unfold madeOf; rw [hv]]
      rfl

theorem visit_rules {α : Type} (f : Generator → List α) (hf : f (.new []) = []) {rules : List Node} (ht : TopLevel rules) :
    rules.flatMap (fun r => f (madeOf lib r)) =
      (noPosL (rules.filter (·.kind = .rule))).flatMap (fun r => f (madeOf lib r)) := by
  have hn : ∀ r, madeOf lib (noPos r) = madeOf lib r := fun r => by unfold madeOf; rw [visit_noPos]
  rw [noPosL_map, List.flatMap_map]
  simp only [hn]
  induction rules with
  | nil => rfl
  | cons r rest ih =>
    have ih := ih fun x hx => ht x (List.mem_cons_of_mem _ hx)
    by_cases hk : r.kind = .rule
    · rw [List.filter_cons_of_pos (by simpa using hk), List.flatMap_cons, List.flatMap_cons, ih]
    · rw [List.filter_cons_of_neg (by simpa using hk), List.flatMap_cons, ih]
      have : madeOf lib r = .new [] := by
        unfold madeOf
        rw [visit_skip hk (ht r (List.mem_cons_self ..)).1]
      rw [this, hf, List.nil_append]

/-- **C83** (code): if the rules of two sources are the same up to their order and positions, and code is
generated for one, then it is for the other: the same declarations, up to their order, and the same
imports. -/
theorem C83_code (hU : NoReplacement) {n n' : Nat} {src src' pkg : Bytes} {rules rules' : List Node} {g : Generator}
    (h : Generated lib n src pkg rules g) {res' : PState.FileResult} (h1 : parseSource n' src' = .ok res')
    (h2 : res'.cddl = some rules') (h3 : res'.errs = [])
    (hp : (noPosL (rules'.filter (·.kind = .rule))).Perm (noPosL (rules.filter (·.kind = .rule)))) :
    ∃ g', Generated lib n' src' pkg rules' g' ∧ g'.file.decls.Perm g.file.decls ∧ g'.imports = g.imports ∧
      g'.file.name = g.file.name := by
  have ht' := parsed_topLevel h1 h2
  have hi := (C44_imports hU h).2
  have hf := C39_generated hU h
  obtain ⟨res, k1, k2, k3, k4⟩ := h
  have ht := parsed_topLevel k1 k2
  rw [visit] at k4
  have hm := visitList_made hU ht k4
  rcases visitList_cases hU lib rules' ht' with ⟨ds, h4, h5⟩ | ⟨_, ⟨p, i, v, c, h4, h5⟩, _⟩
  · have h6 := h5 (.new pkg)
    refine ⟨_, ⟨res', h1, h2, h3, by rw [visit]; exact h6⟩, ?_⟩
    have hm' := visitList_made hU ht' h6
    rw [hm'] at *
    have hpi : (rules'.flatMap (fun r => (madeOf lib r).imports)).Perm (rules.flatMap (fun r => (madeOf lib r).imports)) := by
      rw [visit_rules _ rfl ht, visit_rules _ rfl ht']
      exact hp.flatMap_right _
    refine ⟨?_, ?_, ?_⟩
    · rw [hm]
      show (([] ++ _ : List GoDecl)).Perm ([] ++ _)
      rw [List.nil_append, List.nil_append, visit_rules (fun g => g.file.decls) rfl ht,
        visit_rules (fun g => g.file.decls) rfl ht']
      exact hp.flatMap_right _
    · rw [hm] at hi ⊢
      simp only [Generator.new, List.nil_append] at hi ⊢
      rw [hi] at hpi ⊢
      exact List.perm_replicate.1 hpi
    · rw [hm]
  · -- the rule without Go code is in the other source, too
    have hmem : noPos (.rule p i v c) ∈ noPosL (rules'.filter (·.kind = .rule)) := by
      rw [noPosL_map]
      exact List.mem_map.2 ⟨_, List.mem_filter.2 ⟨h4, rfl⟩, rfl⟩
    rw [hp.mem_iff, noPosL_map] at hmem
    obtain ⟨r, hr, he⟩ := List.mem_map.1 hmem
    obtain ⟨hr, hk⟩ := List.mem_filter.1 hr
    have : ∃ p' i' v' c', r = .rule p' i' v' c' := by
      cases r <;> first | (cases he; done) | exact ⟨_, _, _, _, rfl⟩
    obtain ⟨p', i', v', c', rfl⟩ := this
    obtain ⟨a, b, hd, _, _⟩ := fileDecls_rule hf hr
    have hv : visit lib (.rule p i v c) (.new []) = visit lib (.rule p' i' v' c') (.new []) := by
      rw [← visit_noPos lib (.rule p i v c), ← he, visit_noPos]
    rw [visit, visit] at hv
    rcases visitRule_cases hU lib i v with ⟨_, _, j1, j2, _⟩ | ⟨_, j2⟩
    · exact absurd ⟨_, _, j1, j2⟩ h5
    rcases visitRule_cases hU lib i' v' with ⟨_, _, _, _, _, _, j4⟩ | ⟨j3, _⟩
    · have := j2 (.new [])
      rw [hv, j4] at this
      cases this
    · cases hd with
      | mk j5 j6 => exact absurd ⟨_, _, j5, j6⟩ j3

/-- **C83** (schemas): code is generated for a schema exactly if it is for the same schema with its rules
in another order, and then it consists of the same declarations. -/
theorem C83_schema_code (hU : NoReplacement) {s s' : Schema} (hs : s.WF) (hp : s'.rules.Perm s.rules)
    {src src' : Bytes} (hw : s.WrittenAs src) (hw' : s'.WrittenAs src') {n : Nat} {pkg : Bytes} {rules : List Node}
    {g : Generator} (h : Generated lib n src pkg rules g) :
    ∃ n' rules' g', Generated lib n' src' pkg rules' g' ∧ g'.file.decls.Perm g.file.decls ∧ g'.imports = g.imports ∧
      g'.file.name = g.file.name := by
  have hs' : s'.WF := by
    refine wf_perm hs hp ?_
    obtain ⟨N, hN⟩ := C23_schema_read_back hs hw
    obtain ⟨_, res, h1, _, _, h2⟩ := hN (max N n) (Nat.le_max_left ..)
    obtain ⟨res0, k1, _, k3, _⟩ := h
    have := parseSource_le (Nat.le_max_right N n) (src := src) (env := .new)
    rw [k1, h1] at this
    rcases this with h | h <;> cases h
    rw [← h2, k3]; rfl
  obtain ⟨N, hN⟩ := C83_order hs hs' hp hw hw'
  obtain ⟨rules1, rules', res, res', h1, h2, h3, h4, h5, h6⟩ := hN (max N n) (Nat.le_max_left ..)
  obtain ⟨res0, k1, k2, k3, k4⟩ := id h
  have : res0 = res := by
    have := parseSource_le (Nat.le_max_right N n) (src := src) (env := .new)
    rw [k1, h1] at this
    rcases this with h | h <;> cases h
    rfl
  subst this
  rw [k2] at h3; cases h3
  obtain ⟨g', j1, j2⟩ := C83_code hU h h2 h4 (h5.2 k3) h6
  exact ⟨_, rules', g', j1, j2⟩

end

/-- Both orders of two rules. -/
example : letI := asciiOnly
    ∃ rules g rules' g', Generated demoLib 30 b!"a = (x: b)\nb = int" b!"p" rules g ∧
      Generated demoLib 30 b!"b = int\na = (x: b)" b!"p" rules' g' ∧
      (g.file.decls.filterMap declared).map (·.1) = [b!"A", b!"B"] ∧
      (g'.file.decls.filterMap declared).map (·.1) = [b!"B", b!"A"] := by
  letI := asciiOnly
  obtain ⟨rules, g, h1, h2⟩ := of_generates (src := b!"a = (x: b)\nb = int") (f := fun ds =>
    (ds.filterMap declared).map (·.1) = [b!"A", b!"B"]) (by decide_cbv)
  obtain ⟨rules', g', h1', h2'⟩ := of_generates (src := b!"b = int\na = (x: b)") (f := fun ds =>
    (ds.filterMap declared).map (·.1) = [b!"B", b!"A"]) (by decide_cbv)
  exact ⟨rules, g, rules', g', h1, h1', of_decide_eq_true h2, of_decide_eq_true h2'⟩

end Cddlc
