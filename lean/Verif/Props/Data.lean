import Verif.Lemmas.Data
import Verif.Lemmas.JsonText

/-! C117: the data that generated types hold. -/

namespace Cddlc
open Spec

section
variable [Unicode] (hU : NoReplacement) {lib : GoLib}

/-- Names in capital letters or made of digits are exported. -/
theorem upper_exported {i : Ident} {m : Bytes} (hu : UpperName lib i) (h : Named lib i m) : exported m = true := by
  obtain ⟨h0, c, t, h1, h2⟩ := hu
  have hfm : ∀ f, Formatted lib i f → f = c :: t := by
    intro f hf
    unfold Formatted at hf
    rw [if_neg h0] at hf
    exact hf.trans h1
  cases h with
  | key => rfl
  | asIs h3 h4 =>
    rw [hfm _ h3] at h4 ⊢
    rcases h2 with h2 | h2
    · exact decide_eq_true h2
    · exfalso
      obtain ⟨_, ch, cs, h5, h6, _⟩ := h4
      have h7 : ch.toNat = c.toNat := encChar_head (r := t) (by
        have := UInt8.le_iff_toNat_le.mp h2.2
        simp at this; omega) ⟨_, h5.symm⟩
      have a1 := UInt8.le_iff_toNat_le.mp h2.1
      have a2 := UInt8.le_iff_toNat_le.mp h2.2
      simp only [UInt8.reduceToNat] at a1 a2
      rcases h6 with rfl | h6
      · revert h7; simp; omega
      · rw [h7] at h6
        simp only [uniIsLetter] at h6
        rw [if_pos (by omega)] at h6
        simp at h6
        omega

omit [Unicode] in
/-- Of a list in which all are different, two that are alike are the same. -/
theorem pairwise_same {α β : Type} {f : α → Option β} {R : β → β → Prop} {l : List α} (h : (l.filterMap f).Pairwise R) {a b : α}
    {x y : β} (ha : a ∈ l) (hb : b ∈ l) (hx : f a = some x) (hy : f b = some y) (h1 : ¬ R x y) (h2 : ¬ R y x) : a = b := by
  induction l with
  | nil => cases ha
  | cons c l ih =>
    have hmem : ∀ {z w}, z ∈ l → f z = some w → w ∈ l.filterMap f := fun hz hw => List.mem_filterMap.mpr ⟨_, hz, hw⟩
    rcases List.mem_cons.mp ha with ha | ha <;> rcases List.mem_cons.mp hb with hb | hb
    · rw [ha, hb]
    · rw [List.filterMap_cons_some (ha ▸ hx), List.pairwise_cons] at h
      exact absurd (h.1 _ (hmem hb hy)) h1
    · rw [List.filterMap_cons_some (hb ▸ hy), List.pairwise_cons] at h
      exact absurd (h.1 _ (hmem ha hx)) h2
    · cases hc : f c with
      | none => rw [List.filterMap_cons_none hc] at h; exact ih h ha hb
      | some z => rw [List.filterMap_cons_some hc, List.pairwise_cons] at h; exact ih h.2 ha hb

include hU in
theorem setting {n : Nat} {src pkg : Bytes} {rules : List Node} {g : Generator} (h : Generated lib n src pkg rules g)
    (hu : ∀ r ∈ rules, ∀ i ∈ identsOf r, UpperName lib i) {o s : Bool} (hp : PlainSchema o s lib rules) (resets : Bool) :
    Setting o s lib rules (g.string resets).file.decls := by
  obtain ⟨_, hdecls⟩ := string_decls hU h resets
  have hf := C39_generated hU h
  have hi := @importDecls_imports resets ((rules.filterMap valueOf).map sizeControls).sum
  have memT : ∀ {doc m e}, GoDecl.type doc m e ∈ (g.string resets).file.decls ↔ GoDecl.type doc m e ∈ g.file.decls := fun {_ _ _} => by
    rw [hdecls]; exact pre_mem hi fun _ h => by cases h
  have htop : topNames (g.string resets).file.decls = topNames g.file.decls := by
    unfold topNames
    rw [hdecls, pre_filterMap declared (fun _ => rfl) hi]
  have upRule : ∀ {p i v c}, Node.rule p i v c ∈ rules → UpperName lib i := fun {p i v c} hr =>
    hu _ hr i (List.mem_filterMap.mpr ⟨_, List.mem_cons_self .., rfl⟩)
  have upIn : ∀ {p i v c}, Node.rule p i v c ∈ rules → ∀ {j}, j ∈ identsOf v → UpperName lib j := fun {p i v c} hr {j} hj => by
    refine hu _ hr j ?_
    obtain ⟨x, hx, hj⟩ := List.mem_filterMap.mp hj
    exact List.mem_filterMap.mpr ⟨x, List.mem_cons_of_mem _ hx, hj⟩
  have noLit : ∀ {p i v c}, Node.rule p i v c ∈ rules → ¬ IsLiteral v := by
    intro p i v c hr hl
    unfold IsLiteral at hl
    rcases hp.values _ _ _ _ hr with ⟨q, es, rfl, _⟩ | ⟨j, rfl⟩ | h1
    · simp [Node.kind] at hl
    · simp [Node.kind] at hl
    · cases h1 with
      | base h1 =>
        simp only [List.mem_cons, List.not_mem_nil, or_false] at h1 hl
        rcases h1 with h1 | h1 | h1 | h1 | h1 <;> rw [h1] at hl <;> simp at hl
      | name => simp [Node.kind] at hl
      | array => simp [Node.kind] at hl
      | size => simp [Node.kind] at hl
  have ruleOf : ∀ {doc m e}, GoDecl.type doc m e ∈ g.file.decls →
      ∃ p i v c, Node.rule p i v c ∈ rules ∧ Named lib i m ∧ Denotes lib v e := by
    intro doc m e hd
    obtain ⟨p, i, v, c, a, b, hr, h1, h2⟩ := fileDecls_mem hf hd
    refine ⟨p, i, v, c, hr, ?_⟩
    cases h1 with
    | mk h1 h3 h4 =>
      rcases h2 with h2 | h2
      · rcases h4 with ⟨rfl, _⟩ | ⟨rfl, _⟩
        · cases h2
        · cases h2; exact ⟨h1, h3⟩
      · cases h2
  refine ⟨?_, fun hd => ruleOf (memT.mp hd), ?_, ?_, ?_, fun {_ _ _ _} hr {j} hj {m} hm => upper_exported (upIn hr hj) hm, ?_, hp⟩
  · intro p i v c m hr hn
    obtain ⟨a, b, h1, h2, h3⟩ := fileDecls_rule hf hr
    cases h1 with
    | @mk doc doc' m' e h4 h5 h6 =>
      cases named_unique hU hn h4
      rcases h6 with ⟨_, h6⟩ | ⟨rfl, _⟩
      · exact absurd h6 (noLit hr)
      · exact ⟨doc, e, h5, memT.mpr h2⟩
  · intro p i v c hr j hj
    exact ref_rule h hr (mem_refs.mpr hj) (upIn hr (List.mem_filterMap.mpr ⟨_, hj, rfl⟩)).1
  · intro p i v c hr
    obtain ⟨a, b, h1, h2, h3⟩ := fileDecls_rule hf hr
    cases h1 with
    | mk h4 => exact ⟨_, h4⟩
  · intro p i v c q j w d m h1 h2 h3 h4
    have := pairwise_same hp.names h1 h2 rfl rfl (fun h5 => h5 m h3 h4) (fun h5 => h5 m h4 h3)
    cases this
    exact ⟨rfl, rfl⟩
  · intro m hm
    rw [htop] at hm
    obtain ⟨d, hd, ty, hdm⟩ := mem_top.mp hm
    obtain ⟨p, i, v, c, a, b, hr, h1, h2⟩ := fileDecls_mem hf hd
    cases h1 with
    | mk h1 _ h3 =>
      rcases h2 with rfl | rfl
      · rcases h3 with ⟨rfl, _⟩ | ⟨rfl, _⟩ <;> cases hdm <;> exact upper_exported (upRule hr) h1
      · cases hdm

/-- The value of a rule that is not a group is a plain type. -/
theorem plain_value {o s : Bool} {rules : List Node} (hp : PlainSchema o s lib rules) {p i v c} (hr : Node.rule p i v c ∈ rules)
    (hg : ¬ IsGroup rules i.name) : PlainType o s rules v := by
  rcases hp.values _ _ _ _ hr with ⟨q, es, rfl, _⟩ | ⟨l, rfl⟩ | h5
  · exact absurd ⟨q, es, .done hr (by simp [Node.kind])⟩ hg
  · refine .name fun hl => hg ?_
    obtain ⟨q, es, hl⟩ := hl
    exact ⟨q, es, .step hr hl⟩
  · exact h5

include hU in
/-- **C117**, one half: for schemas without optional entries, every data item that matches a rule can be written by the type of
the rule, if what stands for `int` in it fits in 64 bits with a sign. -/
theorem C117_held_partial {n : Nat} {src pkg : Bytes} {rules : List Node} {g : Generator} (h : Generated lib n src pkg rules g)
    (hu : ∀ r ∈ rules, ∀ i ∈ identsOf r, UpperName lib i) {s : Bool} (hp : PlainSchema false s lib rules) (resets : Bool)
    {p i v c m} (hr : Node.rule p i v c ∈ rules) (hg : ¬ IsGroup rules i.name) (hm : Named lib i m) {d : Data}
    (hd : Matches goInt rules v d) : Writes (g.string resets).file.decls (.ident m) d ∧ ¬ PartOf .null d := by
  have S := setting hU h hu hp resets
  obtain ⟨doc, e, h1, h2⟩ := S.typeOf hr hm
  obtain ⟨h3, h4⟩ := S.complete rfl hd (plain_value hp hr hg) (inside_rule hr) h1
  exact ⟨.declared h2 h3, h4⟩

include hU in
/-- **C117**, the other half: for schemas without size controls, everything that the type of a rule writes matches the rule, if
no nil slice is in it. -/
theorem C117_written_partial {n : Nat} {src pkg : Bytes} {rules : List Node} {g : Generator} (h : Generated lib n src pkg rules g)
    (hu : ∀ r ∈ rules, ∀ i ∈ identsOf r, UpperName lib i) {o : Bool} (hp : PlainSchema o false lib rules) (resets : Bool)
    {p i v c m} (hr : Node.rule p i v c ∈ rules) (hg : ¬ IsGroup rules i.name) (hm : Named lib i m) {d : Data}
    (hw : Writes (g.string resets).file.decls (.ident m) d) (hn : ¬ PartOf .null d) :
    Matches goInt rules v d ∧ Matches cborInt rules v d := by
  have S := setting hU h hu hp resets
  obtain ⟨doc, e, h1, h2⟩ := S.typeOf hr hm
  have hg : Matches goInt rules v d := by
    have htop := S.tops _ (mem_top.mpr ⟨_, h2, _, rfl⟩)
    generalize he : GoExpr.ident m = x at hw
    cases hw with
    | declared h3 h4 =>
      cases he
      obtain ⟨p', i', v', c', h5, h6, h7⟩ := S.ruleOf h3
      obtain ⟨rfl, rfl⟩ := S.same h5 hr h6 hm
      exact S.sound rfl h4 _ (plain_value hp hr hg) (inside_rule hr) h7 hn
    | _ => first | (cases he; exact absurd htop (by decide)) | cases he
  refine ⟨hg, matches_mono (fun v hv => ?_) hg⟩
  unfold goInt at hv
  unfold cborInt
  omega

include hU in
/-- **C117**, what holds: for a plain schema, the data written by the values of the type of a rule, other than a group, is exactly
the data that matches the rule and in which what stands for `int` fits in 64 bits with a sign, except that nil slices are
written as null. -/
theorem C117_values_partial {n : Nat} {src pkg : Bytes} {rules : List Node} {g : Generator} (h : Generated lib n src pkg rules g)
    (hu : ∀ r ∈ rules, ∀ i ∈ identsOf r, UpperName lib i) (hp : PlainSchema false false lib rules) (resets : Bool)
    {p i v c m} (hr : Node.rule p i v c ∈ rules) (hg : ¬ IsGroup rules i.name) (hm : Named lib i m) (d : Data) :
    Matches goInt rules v d ↔ Writes (g.string resets).file.decls (.ident m) d ∧ ¬ PartOf .null d :=
  ⟨C117_held_partial hU h hu hp resets hr hg hm, fun hw => (C117_written_partial hU h hu hp resets hr hg hm hw.1 hw.2).1⟩

end

/-! ### Cases -/

/-- The tree of a source and the code generated for it pass the test. -/
def makes (src : Bytes) (f : List Node → List GoDecl → Bool) : Bool :=
  letI := asciiOnly
  parses 40 src fun rules errs => errs.isEmpty &&
    match visitList demoLib rules (.new b!"p") with
    | (g, .ok _) => f rules g.file.decls
    | _ => false

theorem of_makes {src : Bytes} {f : List Node → List GoDecl → Bool} (h : makes src f = true) :
    letI := asciiOnly
    ∃ rules g, Generated demoLib 40 src b!"p" rules g ∧ f rules g.file.decls = true := by
  letI := asciiOnly
  obtain ⟨res, rules, h1, h2, h3⟩ := of_parses h
  simp only [Bool.and_eq_true, List.isEmpty_iff] at h3
  obtain ⟨h3, h4⟩ := h3
  split at h4
  · rename_i g u hv
    exact ⟨rules, g, ⟨res, h1, h2, h3, by cases u; rw [visit]; exact hv⟩, h4⟩
  · cases h4

/-- A declared name that is not one of a predeclared type. -/
theorem writes_declared {D : List GoDecl} {n : Bytes} {d : Data} (h : Writes D (.ident n) d)
    (hn : n ∉ [b!"bool", b!"string", b!"int", b!"uint"]) : ∃ doc e, GoDecl.type doc n e ∈ D ∧ Writes D e d := by
  generalize he : GoExpr.ident n = e at h
  cases h with
  | declared h1 h2 => cases he; exact ⟨_, _, h1, h2⟩
  | _ => first | (cases he; exact absurd hn (by decide)) | cases he

/-- The data of a string. -/
theorem writes_string {D : List GoDecl} {d : Data} (h : Writes D (.ident b!"string") d) (hn : b!"string" ∉ topNames D) :
    ∃ s, d = .text s := by
  generalize he : GoExpr.ident b!"string" = e at h
  cases h with
  | string => exact ⟨_, rfl⟩
  | declared h1 h2 => cases he; exact absurd (mem_top.mpr ⟨_, h1, _, rfl⟩) hn
  | _ => first | (injection he with he; exact absurd he (by decide)) | cases he

/-- The data of an `int`. -/
theorem writes_int {D : List GoDecl} {d : Data} (h : Writes D (.ident b!"int") d) (hn : b!"int" ∉ topNames D) :
    ∃ v, d = .int v ∧ goInt v := by
  generalize he : GoExpr.ident b!"int" = e at h
  cases h with
  | int _ h => exact ⟨_, rfl, h⟩
  | declared h1 h2 => cases he; exact absurd (mem_top.mpr ⟨_, h1, _, rfl⟩) hn
  | _ => first | (injection he with he; exact absurd he (by decide)) | cases he

/-- The data of an array. -/
theorem writes_array {D : List GoDecl} {fs : List GoField} {d : Data} (h : Writes D (.struct fs) d) (hm : markedArray fs) :
    ∃ r items, Reaches D 0 fs r ∧ d = .array items ∧ WritesAll D ((writtenFields r).map (·.type)) items := by
  cases h with
  | array _ h1 h2 => exact ⟨_, _, h1, rfl, h2⟩
  | map h => exact absurd hm h

/-- The fields of an embedded struct. -/
theorem reaches_embedded {D : List GoDecl} {k : Nat} {n tag fs r} {doc : Bytes} {fs' : List GoField} (hd : GoDecl.type doc n (.struct fs') ∈ D)
    (hn : ∀ doc e, GoDecl.type doc n e ∈ D → e = .struct fs') (h : Reaches D k (.mk [] (.ident n) tag :: fs) r) :
    ∃ r' r'', Reaches D (k + 1) fs' r' ∧ Reaches D k fs r'' ∧ r = r' ++ r'' := by
  cases h with
  | struct hu h1 h2 =>
    cases hu with
    | declared hu hu' =>
      cases hn _ _ hu
      cases hu'
      exact ⟨_, _, h1, h2, rfl⟩
  | other hu hns h2 =>
    cases hu with
    | declared hu hu' =>
      cases hn _ _ hu
      cases hu'
      exact absurd rfl (hns _)
    | predeclared h _ => exact absurd (mem_top.mpr ⟨_, hd, _, rfl⟩) h

/-- **C117** fails: the generated types of these schemas, all accepted without diagnostics, do not hold the data of the
schemas. `int` is not as large as in CDDL; bytes can be null; sizes do not count; what is optional cannot be left out of
an array; an array in an array that has no key is merged with it; and entries with the same key in two groups get lost. -/
theorem C117_refuted : letI := asciiOnly
    ∀ src ∈ [b!"a = int", b!"a = bytes", b!"a = uint .size 1", b!"a = [? x: tstr]", b!"a = [b]\nb = [x: tstr]",
        b!"a = [p, q]\np = (x: tstr)\nq = (x: tstr)"],
      ∃ rules g p i v c d, Generated demoLib 40 src b!"p" rules g ∧ Node.rule p i v c ∈ rules ∧ i.name = b!"a" ∧
        ¬ (Matches cborInt rules v d ↔ Writes g.file.decls (.ident b!"A") d) := by
  let _ := asciiOnly
  intro src hs
  simp only [List.mem_cons, List.not_mem_nil, or_false] at hs
  rcases hs with rfl | rfl | rfl | rfl | rfl | rfl
  · obtain ⟨rules, g, h1, h2⟩ := of_makes (src := b!"a = int") (f := fun rules ds => match rules, ds with
      | [.rule _ i (.intType _ _) _], [.type _ n (.ident t), .method ..] =>
        decide (i.name = b!"a" ∧ n = b!"A" ∧ t = b!"int")
      | _, _ => false) (by decide_cbv)
    split at h2
    · rename_i hd
      obtain ⟨h3, rfl, rfl⟩ := of_decide_eq_true h2
      refine ⟨_, g, _, _, _, _, .int (2 ^ 63), h1, .head _, h3, fun h => ?_⟩
      obtain ⟨doc, e, h4, h5⟩ := writes_declared (h.mp (.int rfl ⟨by decide, by decide⟩)) (by decide)
      rw [hd] at h4 h5
      simp only [List.mem_cons, List.not_mem_nil, or_false, GoDecl.type.injEq, reduceCtorEq] at h4
      obtain ⟨_, _, rfl⟩ := h4
      obtain ⟨v, h6, h7⟩ := writes_int h5 (by simp [topNames, declared])
      cases h6
      exact absurd h7.2 (by decide)
    · cases h2
  · obtain ⟨rules, g, h1, h2⟩ := of_makes (src := b!"a = bytes") (f := fun rules ds => match rules, ds with
      | [.rule _ i (.bytes _ _) _], [.type _ n (.array _), .method ..] => decide (i.name = b!"a" ∧ n = b!"A")
      | _, _ => false) (by decide_cbv)
    split at h2
    · rename_i hd
      obtain ⟨h3, rfl⟩ := of_decide_eq_true h2
      refine ⟨_, g, _, _, _, _, .null, h1, .head _, h3, fun h => ?_⟩
      have := h.mpr (.declared (by rw [hd]; exact .head _) .nilSlice)
      cases this <;> rename_i h <;> cases h
    · cases h2
  · obtain ⟨rules, g, h1, h2⟩ := of_makes (src := b!"a = uint .size 1") (f := fun rules ds => match rules, ds with
      | [.rule _ i (.size _ _ (.intLit _ _ k) _) _], [.type _ n (.ident t), .method ..] =>
        decide (i.name = b!"a" ∧ k = 1 ∧ n = b!"A" ∧ t = b!"uint")
      | _, _ => false) (by decide_cbv)
    split at h2
    · rename_i hd
      obtain ⟨h3, rfl, rfl, rfl⟩ := of_decide_eq_true h2
      refine ⟨_, g, _, _, _, _, .int 256, h1, .head _, h3, fun h => ?_⟩
      have := h.mpr (.declared (by rw [hd]; exact .head _) (.uint (by rw [hd]; simp [topNames, declared]) (by decide) (by decide)))
      cases this with
      | sizeInt _ _ h => exact absurd h (by decide)
      | int h => cases h
      | uint h => cases h
    · cases h2
  · obtain ⟨rules, g, h1, h2⟩ := of_makes (src := b!"a = [? x: tstr]") (f := fun rules ds => match rules, ds with
      | [.rule _ i (.array _ [.optional _ _ (.entry _ _ (.tstr _) _)]) _],
          [.type _ n (.struct [.mk [m] _ tag, .mk [x] (.ident t) _]), .method ..] =>
        decide (i.name = b!"a" ∧ n = b!"A" ∧ m = b!"_" ∧ tag = some b!"`cbor:\",toarray\"`" ∧ x = b!"X" ∧ t = b!"string")
      | _, _ => false) (by decide_cbv)
    split at h2
    · rename_i hd
      obtain ⟨h3, rfl, rfl, rfl, rfl, rfl⟩ := of_decide_eq_true h2
      refine ⟨_, g, _, _, _, _, .array [], h1, .head _, h3, fun h => ?_⟩
      obtain ⟨doc, e, h4, h5⟩ := writes_declared (h.mp (.array (.absent .nil))) (by decide)
      rw [hd] at h4 h5
      simp only [List.mem_cons, List.not_mem_nil, or_false, GoDecl.type.injEq, reduceCtorEq] at h4
      obtain ⟨_, _, rfl⟩ := h4
      obtain ⟨r, items, h6, h7, h8⟩ := writes_array h5 ⟨_, .head _⟩
      cases h7
      cases h6 with
      | named h6 =>
      cases h6 with
      | named h6 =>
      cases h6
      cases h8
    · cases h2
  · obtain ⟨rules, g, h1, h2⟩ := of_makes (src := b!"a = [b]\nb = [x: tstr]") (f := fun rules ds => match rules, ds with
      | [.rule _ i (.array _ [.ident j]) _, .rule _ i' (.array _ [.entry _ _ (.tstr _) _]) _],
          [.type _ n (.struct [.mk [m] _ tag, .mk [] (.ident e) _]), .method .., .type _ n' (.struct [.mk [m'] _ _, .mk [x] (.ident t) _]), .method ..] =>
        if i.name = b!"a" ∧ i'.name = j.name then decide (n = b!"A" ∧ m = b!"_" ∧ tag = some b!"`cbor:\",toarray\"`" ∧ e = b!"B" ∧ n' = b!"B" ∧ m' = b!"_" ∧
          x = b!"X" ∧ t = b!"string") else false
      | _, _ => false) (by decide_cbv)
    split at h2
    · rename_i hd
      split at h2
      · rename_i h3
        obtain ⟨rfl, rfl, rfl, rfl, rfl, rfl, rfl, rfl⟩ := of_decide_eq_true h2
        refine ⟨_, g, _, _, _, _, .array [.array [.text []]], h1, .head _, h3.1, fun h => ?_⟩
        obtain ⟨doc, e, h4, h5⟩ := writes_declared (h.mp (.array (.type (.name (.tail _ (.head _)) h3.2
          (.array (.entry (.tstr rfl) .nil))) .nil))) (by decide)
        rw [hd] at h4 h5
        simp [List.mem_cons] at h4
        obtain ⟨_, rfl⟩ := h4
        obtain ⟨r, items, h6, h7, h8⟩ := writes_array h5 ⟨_, .head _⟩
        cases h7
        cases h6 with
        | named h6 =>
        obtain ⟨r', r'', h9, h10, rfl⟩ := reaches_embedded (.tail _ (.tail _ (.head _))) (by simp) h6
        cases h10
        cases h9 with
        | named h9 =>
        cases h9 with
        | named h9 =>
        cases h9
        cases h8 with
        | cons h8 _ =>
          obtain ⟨s, hs⟩ := writes_string h8 (by simp [topNames, declared])
          cases hs
      · cases h2
    · cases h2
  · obtain ⟨rules, g, h1, h2⟩ := of_makes (src := b!"a = [p, q]\np = (x: tstr)\nq = (x: tstr)") (f := fun rules ds => match rules, ds with
      | [.rule _ i (.array _ [.ident j, .ident j']) _, .rule _ i' (.group _ [.entry _ _ (.tstr _) _]) _, .rule _ i'' (.group _ [.entry _ _ (.tstr _) _]) _],
          [.type _ n (.struct [.mk [m] _ tag, .mk [] (.ident e) _, .mk [] (.ident e') _]), .method .., .type _ n' (.struct [.mk [x] _ _]), .method ..,
            .type _ n'' (.struct [.mk [x'] _ _]), .method ..] =>
        if i.name = b!"a" ∧ i'.name = j.name ∧ i''.name = j'.name then decide (n = b!"A" ∧ m = b!"_" ∧ tag = some b!"`cbor:\",toarray\"`" ∧ e = b!"P" ∧
          e' = b!"Q" ∧ n' = b!"P" ∧ n'' = b!"Q" ∧ x = b!"X" ∧ x' = b!"X") else false
      | _, _ => false) (by decide_cbv)
    split at h2
    · rename_i hd
      split at h2
      · rename_i h3
        obtain ⟨rfl, rfl, rfl, rfl, rfl, rfl, rfl, rfl, rfl⟩ := of_decide_eq_true h2
        refine ⟨_, g, _, _, _, _, .array [.text [], .text []], h1, .head _, h3.1, fun h => ?_⟩
        obtain ⟨doc, e, h4, h5⟩ := writes_declared (h.mp (.array (.group (part := [_]) (.tail _ (.head _)) h3.2.1 (.entry (.tstr rfl) .nil)
          (.group (part := [_]) (items := []) (.tail _ (.tail _ (.head _))) h3.2.2 (.entry (.tstr rfl) .nil) .nil)))) (by decide)
        rw [hd] at h4 h5
        simp [List.mem_cons] at h4
        obtain ⟨_, rfl⟩ := h4
        obtain ⟨r, items, h6, h7, h8⟩ := writes_array h5 ⟨_, .head _⟩
        cases h7
        cases h6 with
        | named h6 =>
        obtain ⟨r', r'', h9, h10, rfl⟩ := reaches_embedded (.tail _ (.tail _ (.head _))) (by simp) h6
        obtain ⟨r', r'', h11, h12, rfl⟩ := reaches_embedded (.tail _ (.tail _ (.tail _ (.tail _ (.head _))))) (by simp) h10
        cases h12
        cases h9 with
        | named h9 =>
        cases h9
        cases h11 with
        | named h11 =>
        cases h11
        cases h8
      · cases h2
    · cases h2

/-- The hypotheses are met by an array with a group and a type in it, and an array in the group. The data `[1, h'00', [true],
"x"]` is held by the type. -/
example : letI := asciiOnly
    ∃ rules g p i v c, Generated demoLib 40 b!"a = [x: int, p, s]\np = (y: bytes, z: [w: bool])\ns = tstr" b!"p" rules g ∧
      (∀ r ∈ rules, ∀ i ∈ identsOf r, UpperName demoLib i) ∧ PlainSchema false false demoLib rules ∧ Node.rule p i v c ∈ rules ∧
      ¬ IsGroup rules i.name ∧ Named demoLib i b!"A" ∧
      Writes (g.string false).file.decls (.ident b!"A") (.array [.int 1, .bytes [0], .array [.bool true], .text ['x']]) := by
  let _ := asciiOnly
  obtain ⟨rules, g, h1, h2⟩ := of_makes (src := b!"a = [x: int, p, s]\np = (y: bytes, z: [w: bool])\ns = tstr") (f := fun rules _ => match rules with
      | [.rule _ i (.array _ [.entry _ k (.intType _ _) _, .ident j, .ident j']) _,
          .rule _ i' (.group _ [.entry _ k1 (.bytes _ _) _, .entry _ k2 (.array _ [.entry _ k3 (.boolType _ _) _]) _]) _,
          .rule _ i'' (.tstr _) _] =>
        decide (i.name = b!"a" ∧ k.name = b!"x" ∧ j.name = b!"p" ∧ j'.name = b!"s" ∧ i'.name = b!"p" ∧ k1.name = b!"y" ∧ k2.name = b!"z" ∧
          k3.name = b!"w" ∧ i''.name = b!"s")
      | _ => false) (by decide_cbv)
  split at h2
  · rename_i p i p1 p2 k p3 t3 c3 j j' c p' i' p4 p5 k1 p6 t6 c6 p7 k2 p8 p9 k3 p10 t10 c10 c11 c12 p11 i'' t12 c13
    obtain ⟨e1, e2, e3, e4, e5, e6, e7, e8, e9⟩ := of_decide_eq_true h2
    have nm : ∀ n ∈ [b!"a", b!"x", b!"p", b!"s", b!"y", b!"z", b!"w"], ∀ (i : Ident), i.name = n → Named demoLib i (demoLib.toCamel n) := by
      intro n hn i hi
      refine named_name (i := ⟨i.pos, n⟩) ?_ hi.symm
      simp only [List.mem_cons, List.not_mem_nil, or_false] at hn
      rcases hn with rfl | rfl | rfl | rfl | rfl | rfl | rfl <;>
        exact .asIs rfl (goIdent_word asciiOnly_noReplacement (by decide) (by decide) (by decide))
    have differ : ∀ n ∈ [b!"a", b!"x", b!"p", b!"s", b!"y", b!"z", b!"w"], ∀ n' ∈ [b!"a", b!"x", b!"p", b!"s", b!"y", b!"z", b!"w"], n ≠ n' →
        ∀ i i' : Ident, i.name = n → i'.name = n' → ∀ m, Named demoLib i m → ¬ Named demoLib i' m := by
      intro n hn n' hn' hne i i' hi hi' m hm hm'
      have h3 := (named_unique asciiOnly_noReplacement hm (nm n hn i hi)).symm.trans
        (named_unique asciiOnly_noReplacement hm' (nm n' hn' i' hi'))
      have : ∀ n ∈ [b!"a", b!"x", b!"p", b!"s", b!"y", b!"z", b!"w"], ∀ n' ∈ [b!"a", b!"x", b!"p", b!"s", b!"y", b!"z", b!"w"],
        demoLib.toCamel n = demoLib.toCamel n' → n = n' := by decide
      exact hne (this n hn n' hn' h3)
    generalize hR : [Node.rule p i (.array p1 [.entry p2 k (.intType p3 t3) c3, .ident j, .ident j']) c,
          .rule p' i' (.group p4 [.entry p5 k1 (.bytes p6 t6) c6, .entry p7 k2 (.array p8 [.entry p9 k3 (.boolType p10 t10) c10]) c11]) c12,
          .rule p11 i'' (.tstr t12) c13] = R at h1
    have res : ∀ {n v}, Resolves R n v → n = b!"a" ∧ v.kind = .array ∨
        n = b!"p" ∧ v = .group p4 [.entry p5 k1 (.bytes p6 t6) c6, .entry p7 k2 (.array p8 [.entry p9 k3 (.boolType p10 t10) c10]) c11] ∨
        n = b!"s" ∧ v.kind = .tstr := by
      intro n v h
      subst hR
      cases h with
      | done h _ =>
        simp only [List.mem_cons, List.not_mem_nil, or_false, Node.rule.injEq] at h
        rcases h with ⟨_, rfl, rfl, _⟩ | ⟨_, rfl, rfl, _⟩ | ⟨_, rfl, rfl, _⟩
        · exact .inl ⟨e1, rfl⟩
        · exact .inr (.inl ⟨e5, rfl⟩)
        · exact .inr (.inr ⟨e9, rfl⟩)
      | step h _ => simp at h
    have memP : Node.rule p' i' (.group p4 [.entry p5 k1 (.bytes p6 t6) c6, .entry p7 k2 (.array p8 [.entry p9 k3 (.boolType p10 t10) c10]) c11]) c12 ∈ R := by
      rw [← hR]; exact .tail _ (.head _)
    have memS : Node.rule p11 i'' (.tstr t12) c13 ∈ R := by
      rw [← hR]; exact .tail _ (.tail _ (.head _))
    have groupP : IsGroup R j.name := ⟨_, _, by rw [e3, ← e5]; exact .done memP (by simp [Node.kind])⟩
    have isGroup : ∀ {n}, IsGroup R n → n = b!"p" := by
      rintro n ⟨q, es, h⟩
      rcases res h with ⟨_, h⟩ | ⟨h, _⟩ | ⟨_, h⟩
      · cases h
      · exact h
      · cases h
    have isArray : ∀ {n}, IsArray R n → n = b!"a" := by
      rintro n ⟨q, es, h⟩
      rcases res h with ⟨h, _⟩ | ⟨_, h⟩ | ⟨_, h⟩
      · exact h
      · cases h
      · cases h
    have hpl : PlainSchema false false demoLib R := by
      refine ⟨?_, ?_, ?_⟩
      · rw [← hR]
        simp only [ruleIdents, List.filterMap_cons, List.filterMap_nil, List.pairwise_cons, List.mem_cons, List.not_mem_nil, or_false,
          forall_eq_or_imp, forall_eq, false_implies, implies_true, List.Pairwise.nil, and_true]
        exact ⟨⟨differ b!"a" (by decide) b!"p" (by decide) (by decide) _ _ e1 e5, differ b!"a" (by decide) b!"s" (by decide) (by decide) _ _ e1 e9⟩,
          differ b!"p" (by decide) b!"s" (by decide) (by decide) _ _ e5 e9⟩
      · intro q l v d hr
        rw [← hR] at hr
        simp only [List.mem_cons, List.not_mem_nil, or_false, Node.rule.injEq] at hr
        rcases hr with ⟨_, _, rfl, _⟩ | ⟨_, _, rfl, _⟩ | ⟨_, _, rfl, _⟩
        · refine .inr (.inr (.array (.entry (.base (by simp [Node.kind])) (.name (fun h => ?_) (.name (fun h => ?_) .nil)))))
          · exact absurd (e3.symm.trans (isArray h)) (by decide)
          · exact absurd (e4.symm.trans (isArray h)) (by decide)
        · exact .inl ⟨_, _, rfl, .entry (.base (by simp [Node.kind])) (.entry (.array (.entry (.base (by simp [Node.kind])) .nil)) .nil)⟩
        · exact .inr (.inr (.base (by simp [Node.kind])))
      · intro q l v d hr q es hs ks hk
        rw [← hR] at hr
        simp only [List.mem_cons, List.not_mem_nil, or_false, Node.rule.injEq] at hr
        rcases hr with ⟨_, _, rfl, _⟩ | ⟨_, _, rfl, _⟩ | ⟨_, _, rfl, _⟩
        · simp [subs, subsList] at hs
          obtain ⟨_, rfl⟩ := hs
          cases hk with
          | entry hk =>
          cases hk with
          | type hg => exact absurd groupP hg
          | group hg hk' hk =>
            rcases res hg with ⟨_, h⟩ | ⟨_, h⟩ | ⟨_, h⟩
            · cases h
            · cases h
              cases hk' with
              | entry hk' =>
              cases hk' with
              | entry hk' =>
              cases hk'
              cases hk with
              | type _ hk =>
                cases hk
                simp only [List.cons_append, List.nil_append, List.pairwise_cons, List.mem_cons, List.not_mem_nil, or_false,
                  forall_eq_or_imp, forall_eq, false_implies, implies_true, List.Pairwise.nil, and_true]
                exact ⟨⟨differ b!"x" (by decide) b!"y" (by decide) (by decide) _ _ e2 e6, differ b!"x" (by decide) b!"z" (by decide) (by decide) _ _ e2 e7,
                    differ b!"x" (by decide) b!"s" (by decide) (by decide) _ _ e2 e4⟩,
                  ⟨differ b!"y" (by decide) b!"z" (by decide) (by decide) _ _ e6 e7, differ b!"y" (by decide) b!"s" (by decide) (by decide) _ _ e6 e4⟩,
                  differ b!"z" (by decide) b!"s" (by decide) (by decide) _ _ e7 e4⟩
              | group hg =>
                exact absurd (e4.symm.trans (isGroup ⟨_, _, hg⟩)) (by decide)
            · cases h
        · simp [subs, subsList] at hs
          obtain ⟨_, rfl⟩ := hs
          cases hk with
          | entry hk =>
          cases hk
          exact List.pairwise_singleton ..
        · simp [subs] at hs
    have hup : ∀ r ∈ R, ∀ i ∈ identsOf r, UpperName demoLib i := by
      intro r hr l hl
      have : l.name ∈ [b!"a", b!"x", b!"p", b!"s", b!"y", b!"z", b!"w"] := by
        rw [← hR] at hr
        simp only [List.mem_cons, List.not_mem_nil, or_false] at hr ⊢
        rcases hr with rfl | rfl | rfl
        · simp [identsOf, subs, subsList] at hl
          rcases hl with rfl | rfl | rfl | rfl <;> simp [*]
        · simp [identsOf, subs, subsList] at hl
          rcases hl with rfl | rfl | rfl | rfl <;> simp [*]
        · simp [identsOf, subs] at hl
          subst hl; simp [*]
      have all : ∀ n ∈ [b!"a", b!"x", b!"p", b!"s", b!"y", b!"z", b!"w"], n.head? ≠ some 36 ∧ exported (demoLib.toCamel n) = true := by decide
      obtain ⟨h3, h4⟩ := all _ this
      refine ⟨h3, ?_⟩
      cases hc : demoLib.toCamel l.name with
      | nil => rw [hc] at h4; cases h4
      | cons c t => rw [hc] at h4; exact ⟨c, t, rfl, .inl (of_decide_eq_true h4)⟩
    have hr : Node.rule p i (.array p1 [.entry p2 k (.intType p3 t3) c3, .ident j, .ident j']) c ∈ R := hR ▸ .head _
    have hg : ¬ IsGroup R i.name := fun h => absurd (e1.symm.trans (isGroup h)) (by decide)
    have hn := nm b!"a" (by decide) i e1
    refine ⟨R, g, _, _, _, _, h1, hup, hpl, hr, hg, hn, ?_⟩
    refine ((C117_values_partial asciiOnly_noReplacement h1 hup hpl false hr hg hn _).mp ?_).1
    exact .array (.entry (.int rfl (by unfold goInt; decide)) (.group (part := [_, _]) memP (e5.trans e3.symm)
      (.entry (.bytes rfl) (.entry (.array (.entry (.bool rfl) .nil)) .nil))
      (.type (.name memS (e9.trans e4.symm) (.tstr rfl)) .nil)))
  · cases h2

/-- Facts about the names of the two examples that follow. -/
theorem demo_names : letI := asciiOnly
    (∀ n ∈ [b!"a", b!"x", b!"y"], ∀ (i : Ident), i.name = n → Named demoLib i (demoLib.toCamel n) ∧ UpperName demoLib i) ∧
    ∀ i j : Ident, i.name = b!"x" → j.name = b!"y" → ∀ m, Named demoLib i m → ¬ Named demoLib j m := by
  let _ := asciiOnly
  have nm : ∀ n ∈ [b!"a", b!"x", b!"y"], ∀ (i : Ident), i.name = n → Named demoLib i (demoLib.toCamel n) ∧ UpperName demoLib i := by
    intro n hn i hi
    constructor
    · refine named_name (i := ⟨i.pos, n⟩) ?_ hi.symm
      simp only [List.mem_cons, List.not_mem_nil, or_false] at hn
      rcases hn with rfl | rfl | rfl <;>
        exact .asIs rfl (goIdent_word asciiOnly_noReplacement (by decide) (by decide) (by decide))
    · have all : ∀ n ∈ [b!"a", b!"x", b!"y"], n.head? ≠ some 36 ∧ exported (demoLib.toCamel n) = true := by decide
      obtain ⟨h3, h4⟩ := all _ hn
      rw [← hi] at h3 h4
      refine ⟨h3, ?_⟩
      cases hc : demoLib.toCamel i.name with
      | nil => rw [hc] at h4; cases h4
      | cons c t => rw [hc] at h4; exact ⟨c, t, rfl, .inl (of_decide_eq_true h4)⟩
  refine ⟨nm, fun i j hi hj m hm hm' => ?_⟩
  have h3 := (named_unique asciiOnly_noReplacement hm (nm b!"x" (by decide) i hi).1).symm.trans
    (named_unique asciiOnly_noReplacement hm' (nm b!"y" (by decide) j hj).1)
  exact absurd h3 (by decide)

/-- The hypotheses of `C117_written_partial` with an optional entry. -/
example : letI := asciiOnly
    ∃ rules g p i v c, Generated demoLib 40 b!"a = [x: bool, ? y: tstr]" b!"p" rules g ∧
      (∀ r ∈ rules, ∀ i ∈ identsOf r, UpperName demoLib i) ∧ PlainSchema true false demoLib rules ∧ Node.rule p i v c ∈ rules ∧
      ¬ IsGroup rules i.name ∧ Named demoLib i b!"A" ∧
      ∃ d, Writes (g.string false).file.decls (.ident b!"A") d ∧ ¬ PartOf .null d := by
  let _ := asciiOnly
  obtain ⟨nm, differ⟩ := demo_names
  obtain ⟨rules, g, h1, h2⟩ := of_makes (src := b!"a = [x: bool, ? y: tstr]") (f := fun rules _ => match rules with
      | [.rule _ i (.array _ [.entry _ k (.boolType _ _) _, .optional _ _ (.entry _ l (.tstr _) _)]) _] =>
        decide (i.name = b!"a" ∧ k.name = b!"x" ∧ l.name = b!"y")
      | _ => false) (by decide_cbv)
  split at h2
  · rename_i p i p1 p2 k p3 t3 c3 p4 t4 p5 l t5 c5 c
    obtain ⟨e1, e2, e3⟩ := of_decide_eq_true h2
    generalize hR : [Node.rule p i (.array p1 [.entry p2 k (.boolType p3 t3) c3, .optional p4 t4 (.entry p5 l (.tstr t5) c5)]) c] = R at h1
    have notGroup : ∀ {n}, ¬ IsGroup R n := by
      rintro n ⟨q, es, h⟩
      subst hR
      cases h with
      | done h => simp at h
      | step h => simp at h
    have hup : ∀ r ∈ R, ∀ i ∈ identsOf r, UpperName demoLib i := by
      intro r hr l hl
      subst hR
      cases List.mem_singleton.mp hr
      simp [identsOf, subs, subsList] at hl
      rcases hl with rfl | rfl | rfl
      · exact (nm b!"a" (by decide) _ e1).2
      · exact (nm b!"x" (by decide) _ e2).2
      · exact (nm b!"y" (by decide) _ e3).2
    have hpl : PlainSchema true false demoLib R := by
      subst hR
      refine ⟨List.pairwise_singleton .., ?_, ?_⟩
      · intro q l v d hr
        cases List.mem_singleton.mp hr
        exact .inr (.inr (.array (.entry (.base (by simp [Node.kind])) (.optional rfl (.base (by simp [Node.kind])) .nil))))
      · intro q l v d hr q es hs ks hk
        cases List.mem_singleton.mp hr
        simp [subs, subsList] at hs
        obtain ⟨_, rfl⟩ := hs
        cases hk with
        | entry hk =>
        cases hk with
        | optional hk =>
        cases hk
        simp only [List.pairwise_cons, List.mem_singleton, forall_eq, List.not_mem_nil, false_implies, implies_true, List.Pairwise.nil, and_true]
        exact differ _ _ e2 e3
    have hr : Node.rule p i (.array p1 [.entry p2 k (.boolType p3 t3) c3, .optional p4 t4 (.entry p5 l (.tstr t5) c5)]) c ∈ R := hR ▸ .head _
    have hn := (nm b!"a" (by decide) i e1).1
    refine ⟨R, g, _, _, _, _, h1, hup, hpl, hr, notGroup, hn, .array [.bool true, .text []], ?_, ?_⟩
    · have S := setting asciiOnly_noReplacement h1 hup hpl false
      obtain ⟨doc, e, hd, hm⟩ := S.typeOf hr hn
      refine .declared hm ?_
      rcases Setting.plain_cases (plain_value hpl hr notGroup) hd with ⟨h, _⟩ | ⟨h, _⟩ | ⟨h, _⟩ | ⟨h, _⟩ | ⟨h, _⟩ | ⟨_, _, h, _⟩ |
        ⟨_, _, fs, h, rfl, hf, _⟩ | ⟨_, _, _, _, _, _, h, _⟩ <;> cases h
      cases hf with
      | cons h3 h4 =>
      cases h4 with
      | cons h4 h5 =>
      cases h5
      cases h3 with
      | entry h3 h6 =>
      cases h4 with
      | optional h4 h7 =>
      cases named_unique asciiOnly_noReplacement h3 (nm b!"x" (by decide) _ e2).1
      cases named_unique asciiOnly_noReplacement h4 (nm b!"y" (by decide) _ e3).1
      cases h6 <;> rename_i h6 <;> cases h6
      cases h7 <;> rename_i h7 <;> cases h7
      exact .array ⟨_, .head _⟩ (.named (.named (.named .nil))) (.cons (.bool (S.notTop (by decide))) (.cons (.string (S.notTop (by decide))) .nil))
    · intro h
      cases h with
      | array h1 h2 =>
        simp at h1
        rcases h1 with rfl | rfl <;> cases h2
  · cases h2

/-- The hypotheses of `C117_held_partial` with a size control. -/
example : letI := asciiOnly
    ∃ rules g p i v c, Generated demoLib 40 b!"a = [x: uint .size 2]" b!"p" rules g ∧
      (∀ r ∈ rules, ∀ i ∈ identsOf r, UpperName demoLib i) ∧ PlainSchema false true demoLib rules ∧ Node.rule p i v c ∈ rules ∧
      ¬ IsGroup rules i.name ∧ Named demoLib i b!"A" ∧ Matches goInt rules v (.array [.int 65535]) := by
  let _ := asciiOnly
  obtain ⟨nm, differ⟩ := demo_names
  obtain ⟨rules, g, h1, h2⟩ := of_makes (src := b!"a = [x: uint .size 2]") (f := fun rules _ => match rules with
      | [.rule _ i (.array _ [.entry _ k (.size _ _ (.intLit _ _ v) (.uintType _ _)) _]) _] =>
        decide (i.name = b!"a" ∧ k.name = b!"x" ∧ v = 2)
      | _ => false) (by decide_cbv)
  split at h2
  · rename_i p i p1 p2 k p3 t3 p4 t4 v p5 t5 c5 c
    obtain ⟨e1, e2, rfl⟩ := of_decide_eq_true h2
    have notGroup : ∀ {n}, ¬ IsGroup [Node.rule p i (.array p1 [.entry p2 k (.size p3 t3 (.intLit p4 t4 2) (.uintType p5 t5)) c5]) c] n := by
      rintro n ⟨q, es, h⟩
      cases h with
      | done h => simp at h
      | step h => simp at h
    refine ⟨_, g, _, _, _, _, h1, ?_, ⟨?_, ?_, ?_⟩, .head _, notGroup, (nm b!"a" (by decide) i e1).1,
      .array (.entry (.sizeInt (.uint rfl (by decide) (by decide)) (by decide) (by decide)) .nil)⟩
    · intro r hr l hl
      cases List.mem_singleton.mp hr
      simp [identsOf, subs, subsList] at hl
      rcases hl with rfl | rfl
      · exact (nm b!"a" (by decide) _ e1).2
      · exact (nm b!"x" (by decide) _ e2).2
    · exact List.pairwise_singleton ..
    · intro q l v d hr
      cases List.mem_singleton.mp hr
      exact .inr (.inr (.array (.entry (.size rfl (by simp [Node.kind])) .nil)))
    · intro q l v d hr q es hs ks hk
      cases List.mem_singleton.mp hr
      simp [subs, subsList] at hs
      obtain ⟨_, rfl⟩ := hs
      cases hk with
      | entry hk =>
      cases hk
      exact List.pairwise_singleton ..
  · cases h2

end Cddlc
