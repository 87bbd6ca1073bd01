import Verif.Lemmas.Compile
import Verif.Props.Generate

/-! C113: which generated files the Go compiler accepts. -/

namespace Cddlc
open Spec

section
variable [Unicode] (hU : NoReplacement) {lib : GoLib}

/-- The import of the validators. -/
def validatorsImport : GoImport := ⟨none, b!"\"github.com/HannesKimara/cddlc/runtime/validators\""⟩

/-- What stands before the declarations of the rules. -/
def importDecls (resets : Bool) (k : Nat) : List GoDecl :=
  if resets = false ∧ 0 < k then [.imports (.replicate k validatorsImport)] else []

omit [Unicode] in
theorem importDecls_imports {resets : Bool} {k : Nat} : ∀ d ∈ importDecls resets k, ∃ specs, d = .imports specs := by
  intro d hd
  unfold importDecls at hd
  split at hd
  · exact ⟨_, List.mem_singleton.mp hd⟩
  · cases hd

omit [Unicode] in
theorem importDecls_specs (resets : Bool) (k : Nat) : importSpecs (importDecls resets k) =
    if resets then [] else .replicate k validatorsImport := by
  unfold importDecls importSpecs
  cases resets with
  | true => simp
  | false =>
    cases k with
    | zero => simp
    | succ k => simp

include hU in
theorem string_decls {n : Nat} {src pkg : Bytes} {rules : List Node} {g : Generator} (h : Generated lib n src pkg rules g)
    (resets : Bool) : (g.string resets).file.name = pkg ∧
    (g.string resets).file.decls = importDecls resets ((rules.filterMap valueOf).map sizeControls).sum ++ g.file.decls := by
  have hi := C44_imports hU h
  have hn : g.file.name = pkg := by
    obtain ⟨res, h1, h2, _, h4⟩ := h
    obtain ⟨ds, _, _, h5, _⟩ := C39_declarations hU (parsed_topLevel h1 h2) h4
    exact h5
  have hno := no_imports (C39_generated hU h)
  generalize ((rules.filterMap valueOf).map sizeControls).sum = k at hi ⊢
  unfold Generator.string importDecls
  cases resets with
  | true =>
    have : sortImports true { g.file with imports := g.file.imports ++ g.imports } = { g.file with imports := [] } := by
      unfold sortImports
      rw [if_pos rfl]
      congr 1
      rw [List.flatMap_eq_nil_iff]
      intro d hd
      cases d <;> first | rfl | exact absurd rfl (hno _ hd _)
    rw [this]
    simp [hn]
  | false =>
    rw [hi.1, hi.2]
    cases k with
    | zero => simp [sortImports, hn]
    | succ k => simp [sortImports, hn, validatorsImport]

/-! ### Imports are not seen -/

omit [Unicode] in
theorem pre_filterMap {α : Type} (f : GoDecl → Option α) (hf : ∀ specs, f (.imports specs) = none) {pre ds : List GoDecl}
    (hp : ∀ d ∈ pre, ∃ specs, d = .imports specs) : (pre ++ ds).filterMap f = ds.filterMap f := by
  rw [List.filterMap_append]
  have : pre.filterMap f = [] := List.filterMap_eq_nil_iff.mpr fun d hd => by
    obtain ⟨specs, rfl⟩ := hp d hd; exact hf _
  rw [this, List.nil_append]

omit [Unicode] in
theorem pre_mem {pre ds : List GoDecl} (hp : ∀ d ∈ pre, ∃ specs, d = .imports specs) {d : GoDecl}
    (hd : ∀ specs, d ≠ .imports specs) : d ∈ pre ++ ds ↔ d ∈ ds := by
  rw [List.mem_append, or_iff_right fun h => ?_]
  obtain ⟨specs, rfl⟩ := hp d h
  exact hd _ rfl

include hU in
/-- **C113**, what holds: if camel case gives every name a capital letter in front, the Go compiler accepts the file exactly
if the package name is an identifier and not blank; no two rules have the same Go name; no rule is a literal or has null, a
literal as a type or an occurrence directly in a group or array; no group or array has two entries with the same Go name; no
rule is a group or array with an entry named `Valid`; the small-letter name of each rule is an identifier other than `nil`;
no rule is part of itself; and there is no size control, or only one, which is the value of a rule named `self`. If the
imports are lost, size controls within the values of rules are allowed and none as the value of a rule. -/
theorem C113_compiles_partial {n : Nat} {src pkg : Bytes} {rules : List Node} {g : Generator}
    (h : Generated lib n src pkg rules g) (hcap : ∀ r ∈ rules, ∀ i ∈ identsOf r, Capital lib i) (resets : Bool) :
    Compiles (g.string resets).file ↔ SchemaCompiles lib resets pkg rules := by
  obtain ⟨hname, hdecls⟩ := string_decls hU h resets
  have hf := C39_generated hU h
  have hp := @importDecls_imports resets ((rules.filterMap valueOf).map sizeControls).sum
  have hspecs := importDecls_specs resets ((rules.filterMap valueOf).map sizeControls).sum
  have hrec := @C81_recursive _ hU lib _ _ _ _ _ h
  have hfin := @C81_finite_partial _ hU lib _ _ _ _ _ h
  generalize hN : ((rules.filterMap valueOf).map sizeControls).sum = N at hdecls hp hspecs
  generalize hD : (g.string resets).file.decls = D at hdecls
  generalize hpre : importDecls resets N = pre at hdecls hp hspecs
  generalize g.file.decls = ds at hf hdecls hrec hfin
  -- names
  have capRule : ∀ {p i v c}, Node.rule p i v c ∈ rules → Capital lib i := fun {p i v c} hr =>
    hcap _ hr i (List.mem_filterMap.mpr ⟨_, List.mem_cons_self .., rfl⟩)
  have capRef : ∀ p i v c, Node.rule p i v c ∈ rules → ∀ j ∈ refs v, Capital lib j := fun p i v c hr j hj =>
    hcap _ hr j (List.mem_filterMap.mpr ⟨.ident j, List.mem_cons_of_mem _ (mem_refs.mp hj), rfl⟩)
  have capKey : ∀ {p i v c}, Node.rule p i v c ∈ rules → ∀ {q j w d}, Node.entry q j w d ∈ subs v → Capital lib j :=
    fun {p i v c} hr {q j w d} hj =>
      hcap _ hr j (List.mem_filterMap.mpr ⟨.entry q j w d, List.mem_cons_of_mem _ hj, rfl⟩)
  -- declarations
  have htop : topNames D = topNames ds := by
    unfold topNames
    rw [hdecls, pre_filterMap declared (fun _ => rfl) hp]
  have hmeth : D.filterMap methodKey = (topNames ds).map fun n => (n, b!"Valid") := by
    rw [hdecls, pre_filterMap methodKey (fun _ => rfl) hp, method_keys hf]
  have memT : ∀ {doc m e}, GoDecl.type doc m e ∈ D ↔ GoDecl.type doc m e ∈ ds := fun {_ _ _} => by
    rw [hdecls]; exact pre_mem hp fun _ h => by cases h
  have memV : ∀ {doc m e}, GoDecl.var doc m e ∈ D ↔ GoDecl.var doc m e ∈ ds := fun {_ _ _} => by
    rw [hdecls]; exact pre_mem hp fun _ h => by cases h
  have memM : ∀ {a b c d e f}, GoDecl.method a b c d e f ∈ D ↔ GoDecl.method a b c d e f ∈ ds := fun {_ _ _ _ _ _} => by
    rw [hdecls]; exact pre_mem hp fun _ h => by cases h
  have himp : importSpecs D = if resets then [] else .replicate N validatorsImport := by
    rw [← hspecs, hdecls]
    unfold importSpecs
    rw [List.flatMap_append]
    refine (congrArg _ ?_).trans (List.append_nil _)
    rw [List.flatMap_eq_nil_iff]
    intro d hd
    cases d <;> first | rfl | exact absurd rfl (no_imports hf _ hd _)
  have himpN : (importSpecs D).filterMap importName = if resets then [] else .replicate N b!"validators" := by
    rw [himp]
    cases resets with
    | true => rfl
    | false =>
      show (List.replicate N validatorsImport).filterMap importName = .replicate N b!"validators"
      rw [List.filterMap_replicate_of_some (b := b!"validators") (by decide)]
  have hrecD : InvalidRecursive D ↔ InvalidRecursive ds := by
    have : Contains D = Contains ds := by
      funext a b; unfold Contains; simp only [memT]
    unfold InvalidRecursive
    rw [this]
  have topRule : ∀ {m}, m ∈ topNames ds → ∃ p i v c, Node.rule p i v c ∈ rules ∧ Named lib i m := by
    intro m hm
    obtain ⟨d, hd, ty, hdm⟩ := mem_top.mp hm
    obtain ⟨p, i, v, c, a, b, hr, h1, h2⟩ := fileDecls_mem hf hd
    refine ⟨p, i, v, c, hr, ?_⟩
    cases h1 with
    | mk h1 _ h3 =>
      rcases h2 with rfl | rfl
      · rcases h3 with ⟨rfl, _⟩ | ⟨rfl, _⟩ <;> cases hdm <;> exact h1
      · cases hdm
  have topWords : ∀ {m}, m ∈ topNames ds → m ∉ universeTypes ++ goTypes ++ goConsts ++
      [b!"_", b!"init", b!"main", b!"validators", b!"self", b!"error", b!"nil"] := by
    intro m hm
    obtain ⟨p, i, v, c, hr, hn⟩ := topRule hm
    exact capital_not hU (capRule hr) hn
  have notBlank : ∀ {m}, m ∈ topNames ds → m ≠ b!"_" := by
    rintro m hm rfl; exact topWords hm (by decide)
  have typeTop : ∀ {doc m e}, GoDecl.type doc m e ∈ ds → m ∈ topNames ds := fun {_ _ _} hm => mem_top.mpr ⟨_, hm, _, rfl⟩
  have varTop : ∀ {doc m e}, GoDecl.var doc m e ∈ ds → m ∈ topNames ds := fun {_ _ _} hm => mem_top.mpr ⟨_, hm, _, rfl⟩
  have hfilter : (topNames ds).filter (· ≠ b!"_") = topNames ds :=
    List.filter_eq_self.mpr fun m hm => by simpa using notBlank hm
  have hnames : (topNames ds).Nodup ↔ (ruleIdents rules).Pairwise fun i j => ∀ m, Named lib i m → ¬ Named lib j m := by
    rw [← hfilter, named_nodup hU (top_named hf)]
    constructor
    · refine fun hpw => List.Pairwise.imp_of_mem (fun {i j} hi _ h4 m h5 h6 => ?_) hpw
      obtain ⟨r, hr, hri⟩ := List.mem_filterMap.mp hi
      cases r <;> cases hri
      refine capital_not hU (capRule hr) h5 ?_
      rw [h4 m h5 h6]
      decide
    · exact fun hpw => hpw.imp fun h4 m h5 h6 => absurd h6 (h4 m h5)
  have selfTop : b!"self" ∉ topNames ds := fun hm => topWords hm (by decide)
  have nilTop : b!"nil" ∉ topNames ds := fun hm => topWords hm (by decide)
  have errorTop : b!"error" ∉ topNames ds := fun hm => topWords hm (by decide)
  have valTop : b!"validators" ∉ topNames ds := fun hm => topWords hm (by decide)
  have hconst : ∀ m, TypeName D m → m ∉ goConsts := by
    rintro m ⟨_, ⟨doc, e, hm⟩ | ⟨_, hm⟩⟩ hc
    · refine topWords (typeTop (memT.mp hm)) ?_
      simp only [List.mem_append]
      exact Or.inl (Or.inr hc)
    · revert hc
      have : ∀ x ∈ universeTypes, x ∉ goConsts := by decide
      exact this m hm
  have hconst' : ∀ {p i v c}, Node.rule p i v c ∈ rules → ∀ j ∈ refs v, ∀ m, Named lib j m → m ∉ goConsts := by
    intro p i v c hr j hj m hm hc
    refine capital_not hU (capRef _ _ _ _ hr j hj) hm ?_
    simp only [List.mem_append]
    exact Or.inl (Or.inr hc)
  constructor
  · intro hc
    have hnd : (topNames ds).Nodup := by
      have := hc.distinct
      rw [hD, htop, hfilter] at this
      exact this
    have hbodies := hc.bodies
    have htypes := hc.types
    rw [hD] at hbodies htypes
    -- a rule, its type and its method
    have hrule : ∀ {p i v c}, Node.rule p i v c ∈ rules → ¬ IsLiteral v ∧ ∃ doc doc' m e, Named lib i m ∧ Denotes lib v e ∧
        GoDecl.type doc m e ∈ ds ∧ MethodOk D (if resets then [] else .replicate N b!"validators") (lib.toLower i.name) m b!"Valid"
          [b!"error"] ((checks v).map .expr ++ [.ret [b!"nil"]]) ∧
        GoDecl.method doc' (lib.toLower i.name) m b!"Valid" [b!"error"] ((checks v).map .expr ++ [.ret [b!"nil"]]) ∈ ds := by
      intro p i v c hr
      obtain ⟨a, b, h1, h2, h3⟩ := fileDecls_rule hf hr
      cases h1 with
      | @mk doc doc' m e h4 h5 h6 =>
        have hm := hbodies _ _ _ _ _ _ (memM.mpr h3)
        rw [himpN] at hm
        rcases h6 with ⟨rfl, _⟩ | ⟨rfl, h7⟩
        · obtain ⟨_, doc2, e2, h8⟩ := hm.base
          have h8 := memT.mp h8
          exfalso
          have e1 : (m, false) ∈ ds.filterMap declared := List.mem_filterMap.mpr ⟨_, h2, rfl⟩
          have e2 : (m, true) ∈ ds.filterMap declared := List.mem_filterMap.mpr ⟨_, h8, rfl⟩
          unfold topNames at hnd
          generalize ds.filterMap declared = l at hnd e1 e2
          clear * - hnd e1 e2
          induction l with
          | nil => cases e1
          | cons x l ih =>
            rw [List.map_cons, List.nodup_cons] at hnd
            rcases List.mem_cons.mp e1 with e1 | e1 <;> rcases List.mem_cons.mp e2 with e2 | e2
            · rw [← e1] at e2; cases e2
            · exact hnd.1 (List.mem_map.mpr ⟨_, e2, by rw [← e1]⟩)
            · exact hnd.1 (List.mem_map.mpr ⟨_, e1, by rw [← e2]⟩)
            · exact ih hnd.2 e1 e2
        · exact ⟨h7, doc, doc', m, e, h4, h5, h2, hm, h3⟩
    refine ⟨?_, hnames.mp hnd, ?_, ?_, ?_⟩
    · have := hc.package
      rw [hname] at this
      exact this
    · intro p i v c hr
      obtain ⟨h1, doc, doc', m, e, hn, hd, ht, hm, _⟩ := hrule hr
      have hty := of_goType hconst (htypes _ _ _ (memT.mpr ht))
      refine ⟨h1, (denotes_isType hd (hconst' hr)).mpr hty.1, (denotes_distinct hU hd).mp hty.2, ?_, hm.names.1, ?_⟩
      · intro x hx k hk hv
        have hs : ∃ fs, e = .struct fs := by
          cases hd <;> first | exact ⟨_, rfl⟩ | (cases hx; done) | skip
          all_goals
            rename_i hkind
            exfalso
            cases v <;> first | (cases hx; done) | cases hkind
        obtain ⟨fs, rfl⟩ := hs
        exact hm.fields fs (.declared (memT.mpr ht) .struct) ((denotes_fieldNames hU hd _ (by decide)).mpr ⟨x, hx, k, hk, hv⟩)
      · have : StmtOk D _ (lib.toLower i.name) [b!"error"] (.ret [b!"nil"]) := hm.statements _ (by simp)
        cases this with
        | cons h2 => exact h2
    · intro a ha
      have := hc.finite
      rw [hD, hrecD] at this
      exact this (hrec ha)
    · have sizeRule : ∀ {p i v c}, Node.rule p i v c ∈ rules → v.kind = .size → resets = false ∧ lib.toLower i.name = b!"self" := by
        intro p i v c hr hk
        obtain ⟨h1, doc, doc', m, e, hn, hd, ht, hm, _⟩ := hrule hr
        rcases checks_cases hd with ⟨h2, _⟩ | ⟨q, t, r, u, s, ty, _, h3⟩
        · exact absurd hk h2
        · have : CallOk D _ (lib.toLower i.name) ⟨b!"validators", b!"CheckSize", [b!"self", decInt s]⟩ :=
            hm.statements (.expr _) (by rw [h3]; simp)
          obtain ⟨_, _, h4, _, a, w, h5, _, _, h6⟩ := this
          refine ⟨?_, ?_⟩
          · cases resets with
            | true => cases h4
            | false => rfl
          · rw [← (List.cons.inj h5).1] at h6
            rcases h6 with h6 | ⟨doc, e, h6⟩
            · exact h6.symm
            · exact absurd (varTop (memV.mp h6)) selfTop
      rw [hN]
      cases resets with
      | true =>
        intro p i v c hr hk
        exact absurd (sizeRule hr hk).1 (by decide)
      | false =>
        have honce := hc.once
        have hused := hc.used
        rw [hD, himpN] at honce hused
        match N, honce, hused with
        | 0, _, _ => exact Or.inl rfl
        | 1, _, hused =>
          refine Or.inr ⟨rfl, ?_⟩
          obtain ⟨_, doc, recv, type, name, results, body, c, h1, h2, h3, _⟩ := hused b!"validators" (List.mem_cons_self ..)
          obtain ⟨p, i, v, c', d, e, hr, _, hd, _, _, rfl, _⟩ := method_rule hf (memM.mp h1)
          refine ⟨p, i, v, c', hr, ?_⟩
          rcases checks_cases hd with ⟨_, h4⟩ | ⟨q, t, r, u, s, ty, h4, _⟩
          · rw [h4] at h2; simp at h2
          · have hk : v.kind = .size := by rw [h4]; rfl
            exact ⟨hk, (sizeRule hr hk).2⟩
        | k + 2, honce, _ =>
          exfalso
          exact (List.nodup_cons.mp (show (b!"validators" :: b!"validators" :: List.replicate k b!"validators").Nodup from honce)).1
            (List.mem_cons_self ..)
  · intro hc
    have hnd := hnames.mpr hc.names
    have hrule : ∀ {p i v c m}, Node.rule p i v c ∈ rules → Named lib i m → ∃ doc e, Denotes lib v e ∧ GoDecl.type doc m e ∈ ds := by
      intro p i v c m hr hn
      obtain ⟨a, b, h1, h2, h3⟩ := fileDecls_rule hf hr
      cases h1 with
      | @mk doc doc' m' e h4 h5 h6 =>
        cases named_unique hU hn h4
        rcases h6 with ⟨_, h6⟩ | ⟨rfl, _⟩
        · exact absurd h6 (hc.each _ _ _ _ hr).noLiteral
        · exact ⟨doc, e, h5, h2⟩
    have refName : ∀ {p i v c}, Node.rule p i v c ∈ rules → ∀ {j}, j ∈ refs v → ∃ q k w d, Node.rule q k w d ∈ rules ∧
        ∀ m, Named lib j m → Named lib k m := by
      intro p i v c hr j hj
      obtain ⟨q, ⟨q', k⟩, w, d, h1, h2⟩ := ref_rule h hr hj (capRef _ _ _ _ hr j hj).1
      refine ⟨q, _, w, d, h1, fun m hm => ?_⟩
      obtain ⟨r, x⟩ := j
      cases h2
      exact named_pos hm
    have sameName : ∀ {p i v c q j w d m}, Node.rule p i v c ∈ rules → Node.rule q j w d ∈ rules → Named lib i m →
        Named lib j m → i = j := by
      intro p i v c q j w d m h1 h2 h3 h4
      have e1 : i ∈ ruleIdents rules := List.mem_filterMap.mpr ⟨_, h1, rfl⟩
      have e2 : j ∈ ruleIdents rules := List.mem_filterMap.mpr ⟨_, h2, rfl⟩
      have hpw := hc.names
      generalize ruleIdents rules = l at e1 e2 hpw
      clear * - e1 e2 hpw h3 h4
      induction l with
      | nil => cases e1
      | cons x l ih =>
        rw [List.pairwise_cons] at hpw
        rcases List.mem_cons.mp e1 with e1 | e1 <;> rcases List.mem_cons.mp e2 with e2 | e2
        · rw [e1, e2]
        · exact absurd h4 (hpw.1 j e2 m (e1 ▸ h3))
        · exact absurd h3 (hpw.1 i e1 m (e2 ▸ h4))
        · exact ih e1 e2 hpw.2
    have hsize : ∀ {p i v c}, Node.rule p i v c ∈ rules → v.kind = .size → resets = false ∧ N = 1 ∧ lib.toLower i.name = b!"self" := by
      intro p i v c hr hk
      have hs := hc.sizes
      rw [hN] at hs
      cases resets with
      | true => exact absurd hk (hs _ _ _ _ hr)
      | false =>
        rw [sum_sizes] at hN
        rcases hs with hs | ⟨hs, q, j, w, d, h1, h2, h3⟩
        · exfalso
          have le : ∀ {l : List Node} {y}, y ∈ l → sizesOf y ≤ (l.map sizesOf).sum := by
            intro l y hy
            induction l with
            | nil => cases hy
            | cons z l ih =>
              rw [List.map_cons, List.sum_cons]
              rcases List.mem_cons.mp hy with rfl | hy
              · omega
              · have := ih hy; omega
          have h5 : sizesOf (.rule p i v c) ≤ _ := le hr
          have h6 : 0 < sizesOf (.rule p i v c) := size_pos hk
          omega
        · refine ⟨rfl, hs, ?_⟩
          have : Node.rule p i v c = .rule q j w d := sum_one sizesOf (by omega) hr h1 (size_pos hk) (size_pos h2)
          cases this
          exact h3
    constructor
    · rw [hname]; exact hc.package
    · exact ⟨pre, ds, by rw [hD, hdecls], hp, no_imports hf⟩
    · intro s hs
      rw [hD, himp] at hs
      cases resets with
      | true => cases hs
      | false =>
        rw [List.eq_of_mem_replicate hs]
        decide
    · rw [hD, himpN]
      cases resets with
      | true => exact List.nodup_nil
      | false =>
        have hs := hc.sizes
        rw [hN] at hs
        rcases hs with hs | ⟨hs, _⟩ <;> rw [hs] <;> decide
    · rw [hD, himpN, htop]
      intro m hm
      cases resets with
      | true => cases hm
      | false =>
        cases List.eq_of_mem_replicate hm
        refine ⟨valTop, ?_⟩
        have hs := hc.sizes
        rw [hN] at hs
        rcases hs with hs | ⟨hs, p, i, v, c, hr, hk, hl⟩
        · rw [hs] at hm; cases hm
        · obtain ⟨a, b, h1, h2, h3⟩ := fileDecls_rule hf hr
          cases h1 with
          | @mk doc doc' m e h4 h5 h6 =>
            rcases checks_cases h5 with ⟨h7, _⟩ | ⟨q, t, r, u, s, ty, _, h7⟩
            · exact absurd hk h7
            · refine ⟨doc', _, _, _, _, _, ⟨b!"validators", b!"CheckSize", [b!"self", decInt s]⟩, memM.mpr h3, ?_, ?_, ?_⟩
              · rw [h7]; simp
              · rfl
              · rw [hl]; decide
    · rw [hD, htop, hfilter]; exact hnd
    · rw [hD, htop]
      intro m hm
      obtain ⟨p, i, v, c, hr, hn⟩ := topRule hm
      refine ⟨(capital_named hU (capRule hr) hn).1, ?_, ?_⟩
      · rintro rfl; exact topWords hm (by decide)
      · rintro rfl; exact absurd (by decide) (topWords hm)
    · rw [hD, hmeth]
      have := hnd
      unfold List.Nodup at this ⊢
      rw [List.pairwise_map]
      exact this.imp fun h1 h2 => h1 (by cases h2; rfl)
    · rw [hD]
      intro doc m e hm
      obtain ⟨p, i, v, c, hr, hn, hd⟩ := type_rule hf (memT.mp hm)
      have hr' := hc.each _ _ _ _ hr
      refine goType_of ((denotes_isType hd (hconst' hr)).mp hr'.types) ((denotes_distinct hU hd).mpr hr'.fields)
        (denotes_namesOk ((goIdent_ascii hU (s := b!"_") (by decide)).mpr ⟨by decide, by decide, _, _, rfl, by decide⟩) hd fun _ j _ _ hj m hm => (capital_named hU (capKey hr hj) hm).1) ?_
      intro k hk hkc
      rcases denotes_uses hd k hk with h1 | h1 | ⟨j, hj, h1⟩
      · have h2 : k ∈ universeTypes := by
          have : ∀ x ∈ goTypes, x ∈ universeTypes := by decide
          exact this k h1
        have h3 : k ∉ topNames ds := fun h4 => topWords h4 (by simp only [List.mem_append]; exact Or.inl (Or.inl (Or.inl h2)))
        refine ⟨?_, Or.inr ⟨by rw [htop]; exact h3, h2⟩⟩
        rintro rfl
        revert h2
        decide
      · exact absurd h1 hkc
      · obtain ⟨q, l, w, d, h2, h3⟩ := refName hr hj
        obtain ⟨doc', e', _, h4⟩ := hrule h2 (h3 _ h1)
        exact ⟨notBlank (typeTop h4), Or.inl ⟨doc', e', memT.mpr h4⟩⟩
    · rw [hD, hrecD]
      refine hfin ?_ ?_ hc.finite
      · rintro i j m ⟨p, v, c, hr⟩ ⟨q, i', v', c', hr', hj⟩ hi hj'
        rcases hj with rfl | hj
        · rw [sameName hr hr' hi hj']
        · have hjr : j ∈ refs v' := by
            obtain ⟨a, b, h1, _⟩ := fileDecls_rule hf hr'
            cases h1 with
            | mk _ h1 => exact mem_refs.mpr (denotes_parts h1 j hj)
          obtain ⟨q, ⟨q', k⟩, w, d, h1, h2⟩ := ref_rule h hr' hjr (capRef _ _ _ _ hr' j hjr).1
          obtain ⟨r, x⟩ := j
          cases h2
          rw [sameName hr h1 hi (named_pos hj')]
      · intro p i v c hr m hm
        have := capital_not hU (capRule hr) hm
        simp only [List.mem_append, not_or] at this
        exact ⟨this.1.1.2, this.1.2⟩
    · rw [hD]
      intro doc m e hm
      exfalso
      obtain ⟨p, i, v, c, a, b, hr, h1, h2⟩ := fileDecls_mem hf (memV.mp hm)
      cases h1 with
      | mk _ _ h3 =>
        rcases h2 with rfl | h2
        · rcases h3 with ⟨_, h3⟩ | ⟨h3, _⟩
          · exact (hc.each _ _ _ _ hr).noLiteral h3
          · cases h3
        · cases h2
    · rw [hD, himpN]
      intro doc recv type name results body hm
      obtain ⟨p, i, v, c, a, b, hr, h1, h2⟩ := fileDecls_mem hf (memM.mp hm)
      have hr' := hc.each _ _ _ _ hr
      cases h1 with
      | @mk doc1 doc2 m e h4 h5 h6 =>
        rcases h2 with rfl | h2
        · rcases h6 with ⟨h6, _⟩ | ⟨h6, _⟩ <;> cases h6
        · cases h2
          obtain ⟨doc3, e', h7, h8⟩ := hrule hr h4
          have hund : ∀ {u}, Underlying D (.ident type) u → ¬ IsInterface u ∧ ∀ fs, u = .struct fs →
              ∃ p i v c, Node.rule p i v c ∈ rules ∧ Denotes lib v (.struct fs) := by
            intro u hu
            cases hu with
            | declared h9 h10 =>
              obtain ⟨p', i', v', c', hr2, _, hd2⟩ := type_rule hf (memT.mp h9)
              exact underlying_cases hU hf (fun _ _ _ => memT.mp) capRef h10 ⟨p', i', v', c', hr2, hd2⟩
            | predeclared h9 _ =>
              rw [htop] at h9
              exact absurd (typeTop h8) h9
          refine ⟨⟨hr'.receiver.1, (goIdent_ascii hU (s := b!"Valid") (by decide)).mpr ⟨by decide, by decide, _, _, rfl, by decide⟩⟩, ⟨notBlank (typeTop h8), doc3, e', memT.mpr h8⟩,
            fun u hu => (hund hu).1, ?_, ?_, ?_, ⟨_, _, rfl⟩⟩
          · intro fs hu hv
            obtain ⟨p', i', v', c', hr2, hd2⟩ := (hund hu).2 fs rfl
            obtain ⟨x, hx, k, hk, hn⟩ := (denotes_fieldNames hU hd2 _ (by decide)).mp hv
            exact (hc.each _ _ _ _ hr2).noValid x hx k hk hn
          · intro t ht
            cases List.mem_singleton.mp ht
            exact ⟨by decide, Or.inr ⟨by rw [htop]; exact errorTop, by decide⟩⟩
          · intro s hs
            rcases List.mem_append.mp hs with hs | hs
            · rcases checks_cases h5 with ⟨_, h9⟩ | ⟨q, t, r, u, s', ty, h9, h10⟩
              · rw [h9] at hs; cases hs
              · rw [h10] at hs
                cases List.mem_singleton.mp hs
                have hk : v.kind = .size := by rw [h9]; rfl
                obtain ⟨e1, e2, e3⟩ := hsize hr hk
                have hb := size_bound h hr h9
                refine ⟨rfl, rfl, ?_, ?_, b!"self", s'.toNat, ?_, ?_, by decide, Or.inl e3.symm⟩
                · rw [e1, e2]; simp
                · rw [e3]; show b!"validators" ≠ b!"self"; decide
                · rw [Int.toNat_of_nonneg hb.1]
                · omega
            · cases List.mem_singleton.mp hs
              refine .cons hr'.receiver.2 (by rw [htop]; exact nilTop) (.predeclared (by rw [htop]; exact errorTop) (by decide))
                (Or.inl (Or.inl rfl)) .nil

end

/-- The hypotheses are met, and the file is accepted, for an array with an entry of a type that has a size control and is
named `self`. -/
example : letI := asciiOnly
    ∃ rules g, Generated demoLib 30 b!"a = [x: self]\nself = tstr .size 4" b!"p" rules g ∧
      (∀ r ∈ rules, ∀ i ∈ identsOf r, Capital demoLib i) ∧ SchemaCompiles demoLib false b!"p" rules ∧
      Compiles (g.string false).file := by
  let _ := asciiOnly
  obtain ⟨res, rules, h1, h2, h3⟩ := of_parses (n := 30) (src := b!"a = [x: self]\nself = tstr .size 4") (f := fun rules errs =>
    errs.isEmpty && match rules with
      | [.rule p ⟨q, x⟩ (.array p1 [.entry p2 ⟨q2, y⟩ (.ident ⟨q3, z⟩) c2]) c,
          .rule p' ⟨q', w⟩ (.size p3 t3 (.intLit p4 t4 v) (.tstr t5)) c'] =>
        decide (x = b!"a" ∧ y = b!"x" ∧ z = b!"self" ∧ w = b!"self") &&
        match visitList demoLib rules (.new b!"p") with
        | (_, .ok _) => true
        | _ => false
      | _ => false) (by decide_cbv)
  simp only [Bool.and_eq_true, List.isEmpty_iff] at h3
  obtain ⟨h3, h4⟩ := h3
  split at h4
  · rename_i p q x p1 p2 q2 y q3 z c2 c p' q' w p3 t3 p4 t4 v t5 c'
    simp only [Bool.and_eq_true, decide_eq_true_eq] at h4
    obtain ⟨⟨rfl, rfl, rfl, rfl⟩, h4⟩ := h4
    split at h4
    · rename_i g u hv
      have hg : Generated demoLib 30 b!"a = [x: self]\nself = tstr .size 4" b!"p" _ g :=
        ⟨res, h1, h2, h3, by cases u; rw [visit]; exact hv⟩
      have hA : ∀ {q m}, Named demoLib ⟨q, b!"a"⟩ m → m = b!"A" := fun {q m} h =>
        named_unique asciiOnly_noReplacement h
          (.asIs rfl (goIdent_word asciiOnly_noReplacement (by decide) (by decide) (by decide)))
      have hX : ∀ {q m}, Named demoLib ⟨q, b!"x"⟩ m → m = b!"X" := fun {q m} h =>
        named_unique asciiOnly_noReplacement h
          (.asIs rfl (goIdent_word asciiOnly_noReplacement (by decide) (by decide) (by decide)))
      have hS : ∀ {q m}, Named demoLib ⟨q, b!"self"⟩ m → m = b!"Self" := fun {q m} h =>
        named_unique asciiOnly_noReplacement h
          (.asIs rfl (goIdent_word asciiOnly_noReplacement (by decide) (by decide) (by decide)))
      have word : ∀ {s : Bytes}, (∀ c ∈ s, c.toNat < 128) → s ∉ goKeywords → (∀ c ∈ s, wordByte c = true) →
          (∃ c t, s = c :: t ∧ (c.toNat < 48 ∨ 57 < c.toNat)) → GoIdent s := fun h1 h2 h3 h4 =>
        (goIdent_ascii asciiOnly_noReplacement h1).mpr ⟨h2, h3, h4⟩
      have lA : demoLib.toLower b!"a" = b!"a" := by decide
      have lS : demoLib.toLower b!"self" = b!"self" := by decide
      have rA : GoIdent (demoLib.toLower b!"a") ∧ demoLib.toLower b!"a" ≠ b!"nil" := by
        rw [lA]; exact ⟨word (by decide) (by decide) (by decide) ⟨_, _, rfl, by decide⟩, by decide⟩
      have rS : GoIdent (demoLib.toLower b!"self") ∧ demoLib.toLower b!"self" ≠ b!"nil" := by
        rw [lS]; exact ⟨word (by decide) (by decide) (by decide) ⟨_, _, rfl, by decide⟩, by decide⟩
      have hcap : ∀ r ∈ [Node.rule p ⟨q, b!"a"⟩ (.array p1 [.entry p2 ⟨q2, b!"x"⟩ (.ident ⟨q3, b!"self"⟩) c2]) c,
          .rule p' ⟨q', b!"self"⟩ (.size p3 t3 (.intLit p4 t4 v) (.tstr t5)) c'], ∀ i ∈ identsOf r, Capital demoLib i := by
        intro r hr i hi
        have : i.name = b!"a" ∨ i.name = b!"x" ∨ i.name = b!"self" := by
          simp only [List.mem_cons, List.not_mem_nil, or_false] at hr
          rcases hr with rfl | rfl
          · simp [identsOf, subs, subsList] at hi
            rcases hi with rfl | rfl | rfl <;> simp
          · simp [identsOf, subs] at hi
            subst hi; simp
        obtain ⟨qi, ni⟩ := i
        rcases this with rfl | rfl | rfl <;> refine ⟨fun h => absurd h (by simp), fun c t ht => ?_⟩
        · cases (show b!"A" = c :: t from ht); decide
        · cases (show b!"X" = c :: t from ht); decide
        · cases (show b!"Self" = c :: t from ht); decide
      have hsc : SchemaCompiles demoLib false b!"p" [Node.rule p ⟨q, b!"a"⟩ (.array p1 [.entry p2 ⟨q2, b!"x"⟩ (.ident ⟨q3, b!"self"⟩) c2]) c,
            .rule p' ⟨q', b!"self"⟩ (.size p3 t3 (.intLit p4 t4 v) (.tstr t5)) c'] := by
        refine ⟨⟨word (by decide) (by decide) (by decide) ⟨_, _, rfl, by decide⟩, by decide⟩, ?_, ?_, ?_, Or.inr ⟨?_, ?_⟩⟩
        · simp only [ruleIdents, List.filterMap_cons, List.filterMap_nil, List.pairwise_cons, List.mem_singleton, forall_eq,
            List.not_mem_nil, false_implies, implies_true, List.Pairwise.nil, and_true]
          intro m h5 h6
          exact absurd ((hA h5).symm.trans (hS h6)) (by decide)
        · intro p i v c hr
          simp only [List.mem_cons, List.not_mem_nil, or_false, Node.rule.injEq] at hr
          rcases hr with ⟨rfl, rfl, rfl, rfl⟩ | ⟨rfl, rfl, rfl, rfl⟩
          · refine ⟨by simp [IsLiteral, Node.kind], rfl, ?_, ?_, rA⟩
            · intro x hx p es he
              simp only [subs, subsList, List.append_nil, List.mem_cons, List.not_mem_nil, or_false] at hx
              rcases hx with rfl | rfl | rfl <;> rcases he with he | he <;> cases he
              exact List.pairwise_singleton ..
            · intro x hx k hk hn
              cases List.mem_singleton.mp hx
              cases hk
              exact absurd (hX hn) (by decide)
          · refine ⟨by simp [IsLiteral, Node.kind], rfl, ?_, ?_, rS⟩
            · intro x hx p es he
              simp only [subs, List.mem_cons, List.mem_append, List.not_mem_nil, or_false] at hx
              rcases hx with rfl | rfl | rfl <;> rcases he with he | he <;> cases he
            · intro x hx
              cases hx
        · have part : ∀ a b, HasPart [Node.rule p ⟨q, b!"a"⟩ (.array p1 [.entry p2 ⟨q2, b!"x"⟩ (.ident ⟨q3, b!"self"⟩) c2]) c,
              .rule p' ⟨q', b!"self"⟩ (.size p3 t3 (.intLit p4 t4 v) (.tstr t5)) c'] a b → a = b!"a" ∧ b = b!"self" := by
            rintro a b ⟨p, i, v, c, hm, rfl, j, hj, rfl⟩
            simp only [List.mem_cons, List.not_mem_nil, or_false, Node.rule.injEq] at hm
            rcases hm with ⟨rfl, rfl, rfl, rfl⟩ | ⟨rfl, rfl, rfl, rfl⟩
            · simp only [Spec.parts, Spec.partsIn, List.append_nil, List.mem_singleton] at hj
              subst hj
              exact ⟨rfl, rfl⟩
            · cases hj
          intro a h
          obtain ⟨b, hb⟩ := transGen_first h
          have h5 := (part _ _ hb).1
          have h6 : a = b!"self" := by
            cases h with
            | single h => exact (part _ _ h).2
            | tail _ h => exact (part _ _ h).2
          exact absurd (h5.symm.trans h6) (by decide)
        · simp [valueOf, sizeControls, subs, subsList, Node.kind]
        · exact ⟨_, _, _, _, .tail _ (.head _), rfl, lS⟩
      exact ⟨_, g, hg, hcap, hsc, (C113_compiles_partial asciiOnly_noReplacement hg hcap false).mpr hsc⟩
    · cases h4
  · cases h4

section
variable [Unicode] (hU : NoReplacement) {lib : GoLib}

include hU in
/-- **C113**, whatever the names are like: if the Go compiler accepts the file, the package name is an identifier and not
blank, no two rules have the same Go name, and every rule is no literal, has no entry named `Valid` if it is a group or array,
and a name that is in small letters an identifier other than `nil`. -/
theorem C113_needed_partial {n : Nat} {src pkg : Bytes} {rules : List Node} {g : Generator}
    (h : Generated lib n src pkg rules g) {resets : Bool} (hc : Compiles (g.string resets).file) :
    (GoIdent pkg ∧ pkg ≠ b!"_") ∧
    ((ruleIdents rules).Pairwise fun i j => ∀ m, Named lib i m → ¬ Named lib j m) ∧
    ∀ p i v c, Node.rule p i v c ∈ rules → ¬ IsLiteral v ∧
      (∀ x ∈ entriesOf v, ∀ k, key x = some k → ¬ Named lib k b!"Valid") ∧
      GoIdent (lib.toLower i.name) ∧ lib.toLower i.name ≠ b!"nil" := by
  obtain ⟨hname, hdecls⟩ := string_decls hU h resets
  have hf := C39_generated hU h
  have hp := @importDecls_imports resets ((rules.filterMap valueOf).map sizeControls).sum
  generalize importDecls resets ((rules.filterMap valueOf).map sizeControls).sum = pre at hdecls hp
  have hdist := hc.distinct
  have hbodies := hc.bodies
  generalize (importSpecs (g.string resets).file.decls).filterMap importName = imps at hbodies
  generalize hD : (g.string resets).file.decls = D at hdecls hdist hbodies
  generalize g.file.decls = ds at hf hdecls
  have htop : topNames D = topNames ds := by
    unfold topNames
    rw [hdecls, pre_filterMap declared (fun _ => rfl) hp]
  rw [htop] at hdist
  have memT : ∀ {doc m e}, GoDecl.type doc m e ∈ D ↔ GoDecl.type doc m e ∈ ds := fun {_ _ _} => by
    rw [hdecls]; exact pre_mem hp fun _ h => by cases h
  have memM : ∀ {a b c d e f}, GoDecl.method a b c d e f ∈ D ↔ GoDecl.method a b c d e f ∈ ds := fun {_ _ _ _ _ _} => by
    rw [hdecls]; exact pre_mem hp fun _ h => by cases h
  have hrule : ∀ {p i v c}, Node.rule p i v c ∈ rules → ¬ IsLiteral v ∧ ∃ doc m e, Named lib i m ∧ m ≠ b!"_" ∧ Denotes lib v e ∧
      GoDecl.type doc m e ∈ ds ∧ MethodOk D imps (lib.toLower i.name) m b!"Valid"
        [b!"error"] ((checks v).map .expr ++ [.ret [b!"nil"]]) := by
    intro p i v c hr
    obtain ⟨a, b, h1, h2, h3⟩ := fileDecls_rule hf hr
    cases h1 with
    | @mk doc doc' m e h4 h5 h6 =>
      have hm := hbodies _ _ _ _ _ _ (memM.mpr h3)
      obtain ⟨hne, doc2, e2, h8⟩ := hm.base
      rcases h6 with ⟨rfl, _⟩ | ⟨rfl, h7⟩
      · have h8 := memT.mp h8
        exfalso
        have e1 : (m, false) ∈ ds.filterMap declared := List.mem_filterMap.mpr ⟨_, h2, rfl⟩
        have e2 : (m, true) ∈ ds.filterMap declared := List.mem_filterMap.mpr ⟨_, h8, rfl⟩
        unfold topNames at hdist
        generalize ds.filterMap declared = l at hdist e1 e2
        clear * - hdist e1 e2 hne
        induction l with
        | nil => cases e1
        | cons x l ih =>
          rw [List.map_cons] at hdist
          have tail : ((l.map (·.1)).filter (· ≠ b!"_")).Nodup := by
            rw [List.filter_cons] at hdist
            split at hdist
            · exact (List.nodup_cons.mp hdist).2
            · exact hdist
          have clash : ∀ y : Bytes × Bool, y ∈ l → y.1 = m → x.1 = m → False := by
            intro y hy hy1 hx
            rw [List.filter_cons, if_pos (by rw [hx]; simpa using hne)] at hdist
            refine (List.nodup_cons.mp hdist).1 (List.mem_filter.mpr ⟨?_, by rw [hx]; simpa using hne⟩)
            exact List.mem_map.mpr ⟨y, hy, by rw [hy1, hx]⟩
          rcases List.mem_cons.mp e1 with e1 | e1 <;> rcases List.mem_cons.mp e2 with e2 | e2
          · rw [← e1] at e2; cases e2
          · exact clash _ e2 rfl (by rw [← e1])
          · exact clash _ e1 rfl (by rw [← e2])
          · exact ih tail e1 e2
      · exact ⟨h7, doc, m, e, h4, hne, h5, h2, hm⟩
  refine ⟨hname ▸ hc.package, ?_, ?_⟩
  · rw [named_nodup hU (top_named hf)] at hdist
    refine List.Pairwise.imp_of_mem (fun {i j} hi _ h4 m h5 h6 => ?_) hdist
    obtain ⟨r, hr, hri⟩ := List.mem_filterMap.mp hi
    cases r <;> cases hri
    obtain ⟨_, _, m', _, h7, h8, _⟩ := hrule hr
    exact h8 (named_unique hU h7 h5 ▸ h4 m h5 h6)
  · intro p i v c hr
    obtain ⟨h1, doc, m, e, hn, _, hd, ht, hm⟩ := hrule hr
    refine ⟨h1, ?_, hm.names.1, ?_⟩
    · intro x hx k hk hv
      have hs : ∃ fs, e = .struct fs := by
        cases hd <;> first | exact ⟨_, rfl⟩ | (cases hx; done) | skip
        all_goals
          rename_i hkind
          exfalso
          cases v <;> first | (cases hx; done) | cases hkind
      obtain ⟨fs, rfl⟩ := hs
      exact hm.fields fs (.declared (memT.mpr ht) .struct) ((denotes_fieldNames hU hd _ (by decide)).mpr ⟨x, hx, k, hk, hv⟩)
    · have : StmtOk D _ (lib.toLower i.name) [b!"error"] (.ret [b!"nil"]) := hm.statements _ (by simp)
      cases this with
      | cons h2 => exact h2

include hU in
/-- **C113**, for names of ASCII characters: no file with a rule for a socket or plug, or for a name with a hyphen, a full
stop or an at sign, is accepted. -/
theorem C113_words_partial {n : Nat} {src pkg : Bytes} {rules : List Node} {g : Generator}
    (h : Generated lib n src pkg rules g) {resets : Bool} (hc : Compiles (g.string resets).file)
    {p : Pos} {i : Ident} {v : Node} {c : Option Comment} (hr : Node.rule p i v c ∈ rules) (ha : ∀ c ∈ i.name, c.toNat < 128) :
    ∀ c ∈ [36, 45, 46, 64], c ∉ i.name := by
  have h1 := ((C113_needed_partial hU h hc).2.2 p i v c hr).2.2.1
  obtain ⟨h4, h5, _⟩ := toLower_word (lib := lib) ha
  have h6 := h5.mp ((goIdent_ascii hU h4).mp h1).2.1
  intro c hc hm
  have h7 := h6 c hm
  simp only [List.mem_cons, List.not_mem_nil, or_false] at hc
  rcases hc with rfl | rfl | rfl | rfl <;> exact absurd h7 (by decide)

end

/-- A rule for a socket: code is generated, and not accepted. -/
example : letI := asciiOnly
    ∃ rules g, Generated demoLib 30 b!"$a = int" b!"p" rules g ∧ ∀ resets, ¬ Compiles (g.string resets).file := by
  let _ := asciiOnly
  obtain ⟨rules, g, h1, h2⟩ := of_generates (src := b!"$a = int") (f := fun ds => match ds with
    | [.type .., .method _ r _ _ _ _] => decide (r = b!"$a")
    | _ => false) (by decide_cbv)
  refine ⟨rules, g, h1, fun resets hc => ?_⟩
  split at h2
  · rename_i hd
    obtain rfl := of_decide_eq_true h2
    obtain ⟨p, i, v, c, _, _, hr, _, _, _, h3, _⟩ :=
      method_rule (C39_generated asciiOnly_noReplacement h1) (hd ▸ List.Mem.tail _ (.head _))
    have := ((C113_needed_partial asciiOnly_noReplacement h1 hc).2.2 p i v c hr).2.2.1
    rw [← h3] at this
    exact absurd ((goIdent_ascii asciiOnly_noReplacement (by decide)).mp this).2.1 (by decide)
  · cases h2

/-- **C113** fails: of these schemas, which are accepted without diagnostics and generated, the first has a receiver that
is not an identifier, the second a method on a variable, the third a struct with a field and a method of the same name, and
the fourth a variable `self` that is not declared. -/
theorem C113_refuted : letI := asciiOnly
    ∀ src ∈ [b!"foo-bar = int", b!"a = 1", b!"a = [valid: int]", b!"a = uint .size 4"],
      ∃ rules g, Generated demoLib 30 src b!"p" rules g ∧ ∀ resets, ¬ Compiles (g.string resets).file := by
  let _ := asciiOnly
  intro src hs
  simp only [List.mem_cons, List.not_mem_nil, or_false] at hs
  rcases hs with rfl | rfl | rfl | rfl
  · obtain ⟨rules, g, h1, h2⟩ := of_generates (src := b!"foo-bar = int") (f := fun ds => match ds with
      | [.type .., .method _ r _ _ _ _] => decide (r = b!"foo-bar")
      | _ => false) (by decide_cbv)
    refine ⟨rules, g, h1, fun resets hc => ?_⟩
    have hd := (string_decls asciiOnly_noReplacement h1 resets).2
    split at h2
    · rename_i hd2
      obtain rfl := of_decide_eq_true h2
      have := (hc.bodies _ _ _ _ _ _ (by rw [hd, hd2]; exact List.mem_append_right _ (.tail _ (.head _)))).names.1
      exact absurd ((goIdent_ascii asciiOnly_noReplacement (by decide)).mp this).2.1 (by decide)
    · cases h2
  · obtain ⟨rules, g, h1, h2⟩ := of_generates (src := b!"a = 1") (f := fun ds => match ds with
      | [.var .., .method ..] => true
      | _ => false) (by decide_cbv)
    refine ⟨rules, g, h1, fun resets hc => ?_⟩
    have hd := (string_decls asciiOnly_noReplacement h1 resets).2
    split at h2
    · rename_i hd2
      obtain ⟨_, doc, e, hb⟩ := (hc.bodies _ _ _ _ _ _ (by rw [hd, hd2]; exact List.mem_append_right _ (.tail _ (.head _)))).base
      rw [hd, hd2, pre_mem importDecls_imports (by intro _ h; cases h)] at hb
      simp at hb
    · cases h2
  · obtain ⟨rules, g, h1, h2⟩ := of_generates (src := b!"a = [valid: int]") (f := fun ds => match ds with
      | [.type _ n (.struct [.mk [_] _ _, .mk [x] _ _]), .method _ _ t m _ _] =>
        decide (n = t ∧ x = b!"Valid" ∧ m = b!"Valid")
      | _ => false) (by decide_cbv)
    refine ⟨rules, g, h1, fun resets hc => ?_⟩
    have hd := (string_decls asciiOnly_noReplacement h1 resets).2
    split at h2
    · rename_i hd2
      obtain ⟨rfl, rfl, rfl⟩ := of_decide_eq_true h2
      refine (hc.bodies _ _ _ _ _ _ (by rw [hd, hd2]; exact List.mem_append_right _ (.tail _ (.head _)))).fields _
        (.declared (by rw [hd, hd2]; exact List.mem_append_right _ (.head _)) .struct) ?_
      simp [fieldNames]
    · cases h2
  · obtain ⟨rules, g, h1, h2⟩ := of_generates (src := b!"a = uint .size 4") (f := fun ds => match ds with
      | [.type .., .method _ r _ _ _ [.expr c, _]] => decide (r = b!"a" ∧ c.args[0]? = some b!"self")
      | _ => false) (by decide_cbv)
    refine ⟨rules, g, h1, fun resets hc => ?_⟩
    have hd := (string_decls asciiOnly_noReplacement h1 resets).2
    split at h2
    · rename_i hd2
      obtain ⟨rfl, h3⟩ := of_decide_eq_true h2
      have := (hc.bodies _ _ _ _ _ _ (by rw [hd, hd2]; exact List.mem_append_right _ (.tail _ (.head _)))).statements _ (.head _)
      obtain ⟨_, _, _, _, a, v, h4, _, _, h5⟩ := this
      rw [h4] at h3
      cases h3
      rcases h5 with h5 | ⟨doc, e, h5⟩
      · exact absurd h5 (by decide)
      · rw [hd, hd2, pre_mem importDecls_imports (by intro _ h; cases h)] at h5
        simp at h5
    · cases h2

end Cddlc
