import Verif.Spec.GoTypes
import Verif.Props.Codegen
import Batteries.Data.List.Basic

/-! Properties of the types in generated Go code (C80 to C82). -/

namespace Cddlc
open Spec

section
variable [Unicode] (hU : NoReplacement) {lib : GoLib}

/-! ### C80: fields with different names -/

theorem fields_named {es : List Node} {fs : List GoField} (h : DenotesFields lib es fs) :
    List.Forall₂ (fun i n => Named lib i n) (es.filterMap key) (fieldNames fs) := by
  induction es generalizing fs with
  | nil => cases h; exact .nil
  | cons e es ih =>
    cases h with
    | cons h hs =>
      cases h with
      | entry h1 h2 | optional h1 h2 | ident h1 =>
        rw [List.filterMap_cons_some (show key _ = some _ from rfl)]
        exact .cons h1 (ih hs)
      | nm h1 =>
        rw [List.filterMap_cons_none rfl]
        simpa [fieldNames] using ih hs

include hU in
theorem named_nodup {is : List Ident} {ns : List Bytes} (h : List.Forall₂ (fun i n => Named lib i n) is ns) :
    (ns.filter (· ≠ b!"_")).Nodup ↔
      is.Pairwise fun i j => ∀ m, Named lib i m → Named lib j m → m = b!"_" := by
  induction h with
  | nil => simp
  | @cons i n is ns h1 hs ih =>
    have key : (∀ j ∈ is, ∀ m, Named lib i m → Named lib j m → m = b!"_") ↔ (n ≠ b!"_" → n ∉ ns) := by
      clear ih
      induction hs with
      | nil => simp
      | @cons j k is ns h2 hs ih =>
        simp only [List.mem_cons, forall_eq_or_imp, ih, not_or]
        constructor
        · intro ⟨h3, h4⟩ h5
          refine ⟨fun h6 => h5 (h3 n h1 (h6 ▸ h2)), h4 h5⟩
        · intro h3
          refine ⟨fun m h4 h5 => ?_, fun h4 => (h3 h4).2⟩
          cases named_unique hU h1 h4
          cases named_unique hU h2 h5
          exact Decidable.byContradiction fun h6 => (h3 h6).1 rfl
    rw [List.pairwise_cons, key, ← ih]
    by_cases hn : n = b!"_"
    · simp [hn]
    · rw [List.filter_cons_of_pos (by simpa using hn), List.nodup_cons]
      simp [hn]

mutual
theorem denotes_distinct (hU : NoReplacement) {n : Node} {e : GoExpr} :
    Denotes lib n e → (distinctFields e ↔ ClashFree lib n)
  | .bool h | .tstr h | .null h | .int h | .uint h | .bytes h => by
    refine ⟨fun _ x hx p es hg => ?_, fun _ => trivial⟩
    rw [leaf_subs (by rw [h]; decide) hx] at hg
    rcases hg with rfl | rfl <;> cases h
  | .intLit | .true | .false | .textLit | .floatLit | .ident _ => by
    refine ⟨fun _ x hx p es hg => ?_, fun _ => trivial⟩
    simp only [subs, List.mem_singleton] at hx
    subst hx
    rcases hg with hg | hg <;> cases hg
  | .nm h => by
    refine (denotes_distinct hU h).trans ⟨fun hc x hx => ?_, fun hc x hx => hc x (List.mem_cons_of_mem _ hx)⟩
    rcases List.mem_cons.1 hx with rfl | hx
    · intro p es hg; rcases hg with hg | hg <;> cases hg
    · exact hc x hx
  | .size _ h => by
    refine (denotes_distinct hU h).trans ⟨fun hc x hx => ?_, fun hc x hx =>
      hc x (List.mem_cons_of_mem _ (List.mem_append_left _ hx))⟩
    simp only [subs, List.mem_cons, List.mem_append, List.not_mem_nil, or_false] at hx
    rcases hx with rfl | hx | rfl
    · intro p es hg; rcases hg with hg | hg <;> cases hg
    · exact hc x hx
    · intro p es hg; rcases hg with hg | hg <;> cases hg
  | .group (es := es) h => by
    have h1 := named_nodup hU (fields_named h)
    have h2 := denotesFields_distinct hU h
    refine ⟨fun ⟨h3, h4⟩ x hx => ?_, fun hc => ⟨h1.2 (hc _ (List.mem_cons_self ..) _ _ (Or.inl rfl)),
      h2.2 fun x hx => hc x (List.mem_cons_of_mem _ hx)⟩⟩
    rcases List.mem_cons.1 hx with rfl | hx
    · rintro p es (hg | hg)
      · cases hg; exact h1.1 h3
      · cases hg
    · exact h2.1 h4 x hx
  | .array (es := es) h => by
    have h1 := named_nodup hU (fields_named h)
    have h2 := denotesFields_distinct hU h
    refine ⟨fun ⟨h3, _, h4⟩ x hx => ?_, fun hc => ⟨?_, ⟨by simp [fieldNames], trivial⟩,
      h2.2 fun x hx => hc x (List.mem_cons_of_mem _ hx)⟩⟩
    · rcases List.mem_cons.1 hx with rfl | hx
      · rintro p es (hg | hg)
        · cases hg
        · cases hg
          exact h1.1 (by simpa [fieldNames] using h3)
      · exact h2.1 h4 x hx
    · simpa [fieldNames] using h1.2 (hc _ (List.mem_cons_self ..) _ _ (Or.inr rfl))
theorem denotesFields_distinct (hU : NoReplacement) {es : List Node} {fs : List GoField} :
    DenotesFields lib es fs → (distinctIn fs ↔ ∀ x ∈ subsList es, ∀ p es,
      x = .group p es ∨ x = .array p es → NoClash lib es)
  | .nil => ⟨fun _ x hx => (by cases hx), fun _ => trivial⟩
  | .cons (f := .mk ns t tag) h hs => by
    have h1 := denotesField_distinct hU h
    have h2 := denotesFields_distinct hU hs
    refine ⟨fun ⟨h3, h4⟩ x hx => ?_, fun hc => ⟨h1.2 fun x hx => hc x (List.mem_append_left _ hx),
      h2.2 fun x hx => hc x (List.mem_append_right _ hx)⟩⟩
    rcases List.mem_append.1 hx with hx | hx
    · exact h1.1 h3 x hx
    · exact h2.1 h4 x hx
theorem denotesField_distinct (hU : NoReplacement) {n : Node} {ns t tag} :
    DenotesField lib n (.mk ns t tag) → (distinctFields t ↔ ClashFree lib n)
  | .entry _ h => by
    refine (denotes_distinct hU h).trans ⟨fun hc x hx => ?_, fun hc x hx => hc x (List.mem_cons_of_mem _ hx)⟩
    rcases List.mem_cons.1 hx with rfl | hx
    · intro p es hg; rcases hg with hg | hg <;> cases hg
    · exact hc x hx
  | .optional _ h => by
    refine (denotes_distinct hU h).trans ⟨fun hc x hx => ?_, fun hc x hx =>
      hc x (List.mem_cons_of_mem _ (List.mem_cons_of_mem _ hx))⟩
    rcases List.mem_cons.1 hx with rfl | hx
    · intro p es hg; rcases hg with hg | hg <;> cases hg
    rcases List.mem_cons.1 hx with rfl | hx
    · intro p es hg; rcases hg with hg | hg <;> cases hg
    · exact hc x hx
  | .ident _ => by
    refine ⟨fun _ x hx p es hg => ?_, fun _ => trivial⟩
    simp only [subs, List.mem_singleton] at hx
    subst hx
    rcases hg with hg | hg <;> cases hg
  | .nm h => by
    refine (denotes_distinct hU h).trans ⟨fun hc x hx => ?_, fun hc x hx => hc x (List.mem_cons_of_mem _ hx)⟩
    rcases List.mem_cons.1 hx with rfl | hx
    · intro p es hg; rcases hg with hg | hg <;> cases hg
    · exact hc x hx
end

include hU in
/-- **C80**, what holds: the fields of the structs of a generated type have different names exactly
if no group or array in its rule has two entries with the same Go name. -/
theorem C80_fields_partial {n : Nat} {src pkg : Bytes} {rules : List Node} {g : Generator}
    (h : Generated lib n src pkg rules g) {doc name : Bytes} {e : GoExpr}
    (hm : GoDecl.type doc name e ∈ g.file.decls) :
    ∃ p i v c, Node.rule p i v c ∈ rules ∧ Named lib i name ∧ (distinctFields e ↔ ClashFree lib v) := by
  obtain ⟨p, i, v, c, a, b, hr, hd1, hd2⟩ := fileDecls_mem (C39_generated hU h) hm
  cases hd1 with
  | mk h4 h5 h6 =>
    rcases hd2 with rfl | h7
    · rcases h6 with ⟨h6, _⟩ | ⟨h6, _⟩ <;> cases h6
      exact ⟨p, i, v, c, hr, h4, denotes_distinct hU h5⟩
    · cases h7

example : letI := asciiOnly
    ∃ rules g, Generated demoLib 30 demoSource b!"p" rules g ∧
      ∃ doc e, GoDecl.type doc b!"A" e ∈ g.file.decls ∧ distinctFields e := by
  letI := asciiOnly
  obtain ⟨rules, g, h1, h2⟩ := demo_generated
  refine ⟨rules, g, h1, ?_⟩
  unfold demoDecls at h2
  split at h2
  · rename_i hd
    simp only [decide_eq_true_eq] at h2
    obtain ⟨rfl, rfl, rfl, _, rfl, _⟩ := h2
    rw [hd]
    exact ⟨_, _, .head _, by simp [fieldNames], ⟨by simp [fieldNames], trivial⟩, trivial, trivial, trivial⟩
  · cases h2

omit [Unicode] in
/-- **C80**, refuted: the array `[x: int, x: int]`, in which the keys are only comments, becomes a
struct with two fields `X`; so do the keys `b-c` and `b_c` of a group with two fields `BC`. -/
theorem C80_refuted : letI := asciiOnly
    ∀ src ∈ [b!"a = [x: int, x: int]", b!"a = (b-c: int, b_c: int)"],
      ∃ rules g, Generated demoLib 30 src b!"p" rules g ∧
        ∃ doc e, GoDecl.type doc b!"A" e ∈ g.file.decls ∧ ¬ distinctFields e := by
  letI := asciiOnly
  intro src hs
  simp only [List.mem_cons, List.not_mem_nil, or_false] at hs
  rcases hs with rfl | rfl
  · obtain ⟨rules, g, h1, h2⟩ := of_generates (src := b!"a = [x: int, x: int]") (f := fun ds => match ds with
      | [.type _ n (.struct [.mk [b] _ _, .mk [x] _ _, .mk [y] _ _]), .method ..] =>
        decide (n = b!"A" ∧ x = b!"X" ∧ y = b!"X")
      | _ => false) (by decide_cbv)
    refine ⟨rules, g, h1, ?_⟩
    split at h2
    · rename_i hd
      obtain ⟨rfl, rfl, rfl⟩ := of_decide_eq_true h2
      rw [hd]
      refine ⟨_, _, .head _, fun h => ?_⟩
      have h3 := h.1
      simp only [fieldNames, List.cons_append, List.nil_append] at h3
      rw [List.filter_cons] at h3
      split at h3
      · exact absurd (List.nodup_cons.1 h3).2 (by decide)
      · exact absurd h3 (by decide)
    · cases h2
  · obtain ⟨rules, g, h1, h2⟩ := of_generates (src := b!"a = (b-c: int, b_c: int)") (f := fun ds => match ds with
      | [.type _ n (.struct [.mk [x] _ _, .mk [y] _ _]), .method ..] =>
        decide (n = b!"A" ∧ x = b!"BC" ∧ y = b!"BC")
      | _ => false) (by decide_cbv)
    refine ⟨rules, g, h1, ?_⟩
    split at h2
    · rename_i hd
      obtain ⟨rfl, rfl, rfl⟩ := of_decide_eq_true h2
      rw [hd]
      refine ⟨_, _, .head _, fun h => ?_⟩
      have h3 := h.1
      simp only [fieldNames, List.cons_append, List.nil_append] at h3
      exact absurd h3 (by decide)
    · cases h2

/-! ### C81: no type contains itself -/

mutual
theorem denotes_holds {n : Node} {e : GoExpr} : Denotes lib n e →
    (∀ m ∈ holds e, m ∈ goTypes ∨ m ∈ goConsts ∨ ∃ i ∈ parts n, Named lib i m) ∧
    ∀ i ∈ parts n, ∃ m ∈ holds e, Named lib i m
  | .bool h | .tstr h | .null h | .int h | .uint h | .bytes h => by
    refine ⟨fun m hm => ?_, fun i hi => ?_⟩
    · first
        | cases hm; done
        | (simp only [holds, List.mem_singleton] at hm
           subst hm
           first | exact Or.inl (by decide) | exact Or.inr (Or.inl (by decide)))
    · cases n
      all_goals first | (cases h; done) | (cases hi; done)
  | .true | .false => by
    refine ⟨fun m hm => ?_, fun i hi => (by cases hi)⟩
    simp only [holds, List.mem_singleton] at hm
    subst hm
    exact Or.inr (Or.inl (by decide))
  | .intLit | .textLit | .floatLit => ⟨fun m hm => (by cases hm), fun i hi => (by cases hi)⟩
  | .ident h => by
    refine ⟨fun m hm => ?_, fun i hi => ?_⟩
    · simp only [holds, List.mem_singleton] at hm
      subst hm
      exact Or.inr (Or.inr ⟨_, List.mem_cons_self .., h⟩)
    · simp only [parts, List.mem_singleton] at hi
      subst hi
      exact ⟨_, List.mem_cons_self .., h⟩
  | .nm h => ⟨fun m hm => (by cases hm), fun i hi => (by cases hi)⟩
  | .size (ty := ty) hk h => by
    refine ⟨fun m hm => ?_, fun i hi => (by cases hi)⟩
    rcases (denotes_holds h).1 m hm with h1 | h1 | ⟨i, h1, _⟩
    · exact Or.inl h1
    · exact Or.inr (Or.inl h1)
    · cases ty
      all_goals first | (cases h1; done) | (simp [Node.kind] at hk; done)
  | .group h => denotesFields_holds h
  | .array h => by
    have := denotesFields_holds h
    exact ⟨fun m hm => this.1 m (by simpa [holds, holdsIn] using hm), fun i hi => by
      obtain ⟨m, hm, hn⟩ := this.2 i hi
      exact ⟨m, by simpa [holds, holdsIn] using hm, hn⟩⟩
theorem denotesFields_holds {es : List Node} {fs : List GoField} : DenotesFields lib es fs →
    (∀ m ∈ holdsIn fs, m ∈ goTypes ∨ m ∈ goConsts ∨ ∃ i ∈ partsIn es, Named lib i m) ∧
    ∀ i ∈ partsIn es, ∃ m ∈ holdsIn fs, Named lib i m
  | .nil => ⟨fun m hm => (by cases hm), fun i hi => (by cases hi)⟩
  | .cons (f := .mk ns t tag) h hs => by
    have h1 := denotesField_holds h
    have h2 := denotesFields_holds hs
    refine ⟨fun m hm => ?_, fun i hi => ?_⟩
    · rcases List.mem_append.1 hm with hm | hm
      · exact (h1.1 m hm).imp_right (Or.imp_right fun ⟨i, hi, h⟩ => ⟨i, List.mem_append_left _ hi, h⟩)
      · exact (h2.1 m hm).imp_right (Or.imp_right fun ⟨i, hi, h⟩ => ⟨i, List.mem_append_right _ hi, h⟩)
    · rcases List.mem_append.1 hi with hi | hi
      · obtain ⟨m, hm, h⟩ := h1.2 i hi
        exact ⟨m, List.mem_append_left _ hm, h⟩
      · obtain ⟨m, hm, h⟩ := h2.2 i hi
        exact ⟨m, List.mem_append_right _ hm, h⟩
theorem denotesField_holds {n : Node} {ns t tag} : DenotesField lib n (.mk ns t tag) →
    (∀ m ∈ holds t, m ∈ goTypes ∨ m ∈ goConsts ∨ ∃ i ∈ parts n, Named lib i m) ∧
    ∀ i ∈ parts n, ∃ m ∈ holds t, Named lib i m
  | .entry _ h | .optional _ h => by
    have := denotes_holds h
    simpa only [parts] using this
  | .ident h => by
    refine ⟨fun m hm => ?_, fun i hi => ?_⟩
    · simp only [holds, List.mem_singleton] at hm
      subst hm
      exact Or.inr (Or.inr ⟨_, List.mem_cons_self .., h⟩)
    · simp only [parts, List.mem_singleton] at hi
      subst hi
      exact ⟨_, List.mem_cons_self .., h⟩
  | .nm h => ⟨fun m hm => (by cases hm), fun i hi => (by cases hi)⟩
end

omit [Unicode] in
theorem transGen_first {α : Type} {r : α → α → Prop} {a b : α} (h : Relation.TransGen r a b) : ∃ c, r a c := by
  induction h with
  | single h => exact ⟨_, h⟩
  | tail _ _ ih => exact ih

/-- The rule of a type declaration. -/
theorem type_rule {rules : List Node} {ds : List GoDecl} (hf : FileDecls lib rules ds) {doc m e}
    (h : GoDecl.type doc m e ∈ ds) :
    ∃ p i v c, Node.rule p i v c ∈ rules ∧ Named lib i m ∧ Denotes lib v e := by
  obtain ⟨p, i, v, c, a, b, hr, hd1, hd2⟩ := fileDecls_mem hf h
  cases hd1 with
  | mk h4 h5 h6 =>
    rcases hd2 with rfl | h7
    · rcases h6 with ⟨h6, _⟩ | ⟨h6, _⟩ <;> cases h6
      exact ⟨p, i, v, c, hr, h4, h5⟩
    · cases h7

include hU in
/-- A part is contained. -/
theorem hasPart_contains {rules : List Node} {ds : List GoDecl} (hf : FileDecls lib rules ds) {a b : Bytes}
    (h : HasPart rules a b) {p : Pos} {m : Bytes} (hm : Named lib ⟨p, a⟩ m) :
    ∃ q k, Named lib ⟨q, b⟩ k ∧ Contains ds m k := by
  obtain ⟨q, ⟨r, a'⟩, v, c, hr, rfl, ⟨s, b'⟩, hj, rfl⟩ := h
  obtain ⟨d, d', hd, h1, h2⟩ := fileDecls_rule hf hr
  cases hd with
  | @mk doc doc' n e h3 h4 h5 =>
    obtain ⟨k, hk, hn⟩ := (denotes_holds h4).2 _ hj
    have hnm : n = m := named_unique hU h3 (named_pos hm)
    rcases h5 with ⟨_, h5⟩ | ⟨rfl, _⟩
    · cases v
      all_goals first | (cases hj; done) | (simp [IsLiteral, Node.kind] at h5; done)
    · exact ⟨_, k, hn, doc, e, by rw [← hnm]; exact h1, hk⟩

include hU in
/-- **C81**: if a rule has itself as a part, directly or through other rules, then the generated code
has an invalid recursive type. -/
theorem C81_recursive {n : Nat} {src pkg : Bytes} {rules : List Node} {g : Generator}
    (h : Generated lib n src pkg rules g) {a : Bytes} (ha : Relation.TransGen (HasPart rules) a a) :
    InvalidRecursive g.file.decls := by
  have hf := C39_generated hU h
  have path : ∀ {a b}, Relation.TransGen (HasPart rules) a b → ∀ {p m}, Named lib ⟨p, a⟩ m →
      ∃ q k, Named lib ⟨q, b⟩ k ∧ Relation.TransGen (Contains g.file.decls) m k := by
    intro a b h p m hm
    induction h with
    | single h =>
      obtain ⟨q, k, h1, h2⟩ := hasPart_contains hU hf h hm
      exact ⟨q, k, h1, .single h2⟩
    | tail _ h ih =>
      obtain ⟨q, k, h1, h2⟩ := ih
      obtain ⟨q', k', h3, h4⟩ := hasPart_contains hU hf h h1
      exact ⟨q', k', h3, .tail h2 h4⟩
  have start : ∃ p m, Named lib ⟨p, a⟩ m := by
    obtain ⟨b, q, ⟨r, a'⟩, v, c, hr, rfl, _⟩ := transGen_first ha
    obtain ⟨d, d', hd, _⟩ := fileDecls_rule hf hr
    cases hd with
    | mk h3 => exact ⟨_, _, h3⟩
  obtain ⟨p, m, hm⟩ := start
  obtain ⟨q, k, h1, h2⟩ := path ha hm
  cases named_unique hU (named_pos hm) h1
  exact ⟨m, h2⟩

include hU in
/-- **C81**, what holds: if no rule has itself as a part, directly or through others, then no
generated type contains itself, provided different names have different Go names and no rule has the
Go name of something predeclared. -/
theorem C81_finite_partial {n : Nat} {src pkg : Bytes} {rules : List Node} {g : Generator}
    (h : Generated lib n src pkg rules g)
    (hi : ∀ i j m, (∃ p v c, Node.rule p i v c ∈ rules) →
      (∃ p i' v c, Node.rule p i' v c ∈ rules ∧ (j = i' ∨ j ∈ parts v)) →
      Named lib i m → Named lib j m → i.name = j.name)
    (hp : ∀ p i v c, Node.rule p i v c ∈ rules → ∀ m, Named lib i m → m ∉ goTypes ∧ m ∉ goConsts)
    (ha : ∀ a, ¬ Relation.TransGen (HasPart rules) a a) : ¬ InvalidRecursive g.file.decls := by
  have hf := C39_generated hU h
  -- one step, for a type that is declared
  have step : ∀ {m k k'}, Contains g.file.decls m k → Contains g.file.decls k k' →
      ∃ p i v c, Node.rule p i v c ∈ rules ∧ Named lib i m ∧ ∃ p' i' v' c', Node.rule p' i' v' c' ∈ rules ∧
        Named lib i' k ∧ HasPart rules i.name i'.name := by
    intro m k k' ⟨doc, e, h1, h2⟩ ⟨doc', e', h3, _⟩
    obtain ⟨p, i, v, c, hr, hn, hd⟩ := type_rule hf h1
    obtain ⟨p', i', v', c', hr', hn', hd'⟩ := type_rule hf h3
    refine ⟨p, i, v, c, hr, hn, p', i', v', c', hr', hn', ?_⟩
    rcases (denotes_holds hd).1 k h2 with h4 | h4 | ⟨j, hj, hjn⟩
    · exact absurd h4 (hp _ _ _ _ hr' _ hn').1
    · exact absurd h4 (hp _ _ _ _ hr' _ hn').2
    · exact ⟨p, i, v, c, hr, rfl, j, hj, (hi i' j k ⟨_, _, _, hr'⟩ ⟨_, _, _, _, hr, Or.inr hj⟩ hn' hjn).symm⟩
  have path : ∀ {m k}, Relation.TransGen (Contains g.file.decls) m k → ∀ {k'}, Contains g.file.decls k k' →
      ∃ p i v c, Node.rule p i v c ∈ rules ∧ Named lib i m ∧ ∃ p' i' v' c', Node.rule p' i' v' c' ∈ rules ∧
        Named lib i' k ∧ Relation.TransGen (HasPart rules) i.name i'.name := by
    intro m k h
    induction h with
    | single h =>
      intro k' h'
      obtain ⟨p, i, v, c, hr, hn, p', i', v', c', hr', hn', hh⟩ := step h h'
      exact ⟨p, i, v, c, hr, hn, p', i', v', c', hr', hn', .single hh⟩
    | tail _ h ih =>
      intro k' h'
      obtain ⟨p, i, v, c, hr, hn, p', i', v', c', hr', hn', hh⟩ := ih h
      obtain ⟨q, j, w, d, hq, hm, q', j', w', d', hq', hm', hh'⟩ := step h h'
      refine ⟨p, i, v, c, hr, hn, q', j', w', d', hq', hm', .tail hh ?_⟩
      rw [hi i' j _ ⟨_, _, _, hr'⟩ ⟨_, _, _, _, hq, Or.inl rfl⟩ hn' hm]
      exact hh'
  rintro ⟨m, hm⟩
  obtain ⟨k, hk⟩ := transGen_first hm
  obtain ⟨p, i, v, c, hr, hn, p', i', v', c', hr', hn', hh⟩ := path hm hk
  rw [hi i i' m ⟨_, _, _, hr⟩ ⟨_, _, _, _, hr', Or.inl rfl⟩ hn hn'] at hh
  exact ha _ hh

/-- The hypotheses are met, for a rule that has another one as a part. -/
example : letI := asciiOnly
    ∃ rules g, Generated demoLib 30 b!"a = (x: b)\nb = int" b!"p" rules g ∧ HasPart rules b!"a" b!"b" ∧
      (∀ i j m, (∃ p v c, Node.rule p i v c ∈ rules) →
        (∃ p i' v c, Node.rule p i' v c ∈ rules ∧ (j = i' ∨ j ∈ parts v)) →
        Named demoLib i m → Named demoLib j m → i.name = j.name) ∧
      (∀ p i v c, Node.rule p i v c ∈ rules → ∀ m, Named demoLib i m → m ∉ goTypes ∧ m ∉ goConsts) ∧
      (∀ a, ¬ Relation.TransGen (HasPart rules) a a) := by
  letI := asciiOnly
  obtain ⟨res, rules, h1, h2, h3⟩ := of_parses (n := 30) (src := b!"a = (x: b)\nb = int") (f := fun rules errs =>
    errs.isEmpty && match rules with
      | [.rule p ⟨q, x⟩ (.group p1 [.entry p2 i2 (.ident ⟨q2, y⟩) c2]) c, .rule p' ⟨q', z⟩ (.intType p3 t3) c'] =>
        decide (x = b!"a" ∧ y = b!"b" ∧ z = b!"b") &&
        match visitList demoLib rules (.new b!"p") with
        | (_, .ok _) => true
        | _ => false
      | _ => false) (by decide_cbv)
  simp only [Bool.and_eq_true, List.isEmpty_iff] at h3
  obtain ⟨h3, h4⟩ := h3
  split at h4
  · rename_i p q x p1 p2 i2 q2 y c2 c p' q' z p3 t3 c'
    simp only [Bool.and_eq_true, decide_eq_true_eq] at h4
    obtain ⟨⟨rfl, rfl, rfl⟩, h4⟩ := h4
    split at h4
    · rename_i g u hv
      have hA : ∀ q m, Named demoLib ⟨q, b!"a"⟩ m → m = b!"A" := fun q m h =>
        named_unique asciiOnly_noReplacement h
          (.asIs rfl (goIdent_word asciiOnly_noReplacement (by decide) (by decide) (by decide)))
      have hB : ∀ q m, Named demoLib ⟨q, b!"b"⟩ m → m = b!"B" := fun q m h =>
        named_unique asciiOnly_noReplacement h
          (.asIs rfl (goIdent_word asciiOnly_noReplacement (by decide) (by decide) (by decide)))
      have names : ∀ j : Ident, (∃ p0 i' v c'', Node.rule p0 i' v c'' ∈ [Node.rule p ⟨q, b!"a"⟩ (.group p1 [.entry p2 i2 (.ident ⟨q2, b!"b"⟩) c2]) c,
          .rule p' ⟨q', b!"b"⟩ (.intType p3 t3) c'] ∧ (j = i' ∨ j ∈ parts v)) → j.name = b!"a" ∨ j.name = b!"b" := by
        rintro j ⟨p, i, v, c, hm, hj⟩
        simp only [List.mem_cons, List.not_mem_nil, or_false, Node.rule.injEq] at hm
        rcases hm with ⟨rfl, rfl, rfl, rfl⟩ | ⟨rfl, rfl, rfl, rfl⟩
        · simp only [parts, partsIn, List.append_nil, List.mem_singleton] at hj
          rcases hj with rfl | rfl
          · exact Or.inl rfl
          · exact Or.inr rfl
        · simp only [parts, List.not_mem_nil, or_false] at hj
          subst hj; exact Or.inr rfl
      have part : ∀ a b, HasPart [Node.rule p ⟨q, b!"a"⟩ (.group p1 [.entry p2 i2 (.ident ⟨q2, b!"b"⟩) c2]) c,
          .rule p' ⟨q', b!"b"⟩ (.intType p3 t3) c'] a b → a = b!"a" ∧ b = b!"b" := by
        rintro a b ⟨p, i, v, c, hm, rfl, j, hj, rfl⟩
        simp only [List.mem_cons, List.not_mem_nil, or_false, Node.rule.injEq] at hm
        rcases hm with ⟨rfl, rfl, rfl, rfl⟩ | ⟨rfl, rfl, rfl, rfl⟩
        · simp only [parts, partsIn, List.append_nil, List.mem_singleton] at hj
          subst hj
          exact ⟨rfl, rfl⟩
        · cases hj
      refine ⟨_, g, ⟨res, h1, h2, h3, by cases u; rw [visit]; exact hv⟩,
        ⟨_, _, _, _, .head _, rfl, _, .head _, rfl⟩, ?_, ?_, ?_⟩
      · intro i j m ⟨p, v, c, hi⟩ hj hn hn'
        have h5 := names i ⟨p, i, v, c, hi, Or.inl rfl⟩
        have h6 := names j hj
        obtain ⟨qi, ni⟩ := i
        obtain ⟨qj, nj⟩ := j
        simp only at h5 h6 ⊢
        rcases h5 with rfl | rfl <;> rcases h6 with rfl | rfl
        · rfl
        · exact absurd ((hA _ _ hn).symm.trans (hB _ _ hn')) (by decide)
        · exact absurd ((hB _ _ hn).symm.trans (hA _ _ hn')) (by decide)
        · rfl
      · intro p i v c hi m hn
        have h5 := names i ⟨p, i, v, c, hi, Or.inl rfl⟩
        obtain ⟨qi, ni⟩ := i
        simp only at h5
        rcases h5 with rfl | rfl
        · rw [hA _ _ hn]; decide
        · rw [hB _ _ hn]; decide
      · intro a h
        obtain ⟨b, hb⟩ := transGen_first h
        have h5 := (part _ _ hb).1
        have h6 : a = b!"b" := by
          cases h with
          | single h => exact (part _ _ h).2
          | tail _ h => exact (part _ _ h).2
        exact absurd (h5.symm.trans h6) (by decide)
    · cases h4
  · cases h4

omit [Unicode] in
/-- **C81**, refuted: a binary tree, `t = (v: int, ? l: t, ? r: t)`, is a schema that has finite
values, since its parts are optional; the type generated for it contains itself. -/
theorem C81_refuted : letI := asciiOnly
    ∃ rules g, Generated demoLib 30 b!"t = (v: int, ? l: t, ? r: t)" b!"p" rules g ∧
      InvalidRecursive g.file.decls := by
  letI := asciiOnly
  obtain ⟨rules, g, h1, h2⟩ := of_generates (src := b!"t = (v: int, ? l: t, ? r: t)") (f := fun ds => match ds with
    | [.type _ n (.struct [.mk _ _ _, .mk _ (.ident m) _, _]), .method ..] => decide (n = b!"T" ∧ m = b!"T")
    | _ => false) (by decide_cbv)
  refine ⟨rules, g, h1, ?_⟩
  split at h2
  · rename_i hd
    obtain ⟨rfl, rfl⟩ := of_decide_eq_true h2
    rw [hd]
    refine ⟨b!"T", .single ⟨_, _, .head _, ?_⟩⟩
    simp [holds, holdsIn]
  · cases h2

/-! ### C82: keys -/

include hU in
/-- **C82**, what holds: wherever a group stands in a rule, the key under which the field of an entry
is written is the Go name of its key; so it is the key in the schema exactly if that is its own Go
name. -/
theorem C82_keys_partial {n : Nat} {src pkg : Bytes} {rules : List Node} {g : Generator}
    (h : Generated lib n src pkg rules g) {p i v c} (hr : Node.rule p i v c ∈ rules) :
    ∃ doc m e, Named lib i m ∧ (GoDecl.var doc m e ∈ g.file.decls ∨ GoDecl.type doc m e ∈ g.file.decls) ∧
      (∀ w ∈ subs v, w.kind = .group → ∃ f, Within v e w f) ∧
      ∀ q es f, Within v e (.group q es) f → ∃ fs, f = .struct fs ∧ fs.length = es.length ∧
        ∀ (k : Nat) x j, es[k]? = some x → keyOf x = some j →
          ∃ y m, fs[k]? = some y ∧ cborKey y = some m ∧ Named lib j m ∧ (m = j.name ↔ Named lib j j.name) := by
  obtain ⟨doc, m, e, h1, h2, h3, h4, _⟩ := C43_structs hU h hr
  refine ⟨doc, m, e, h1, h2, fun w hw hk => h3 w hw (.inl hk), fun q es f hw => ?_⟩
  obtain ⟨fs, rfl, h5, h6⟩ := h4 q es f hw
  refine ⟨fs, rfl, h5, fun k x j hx hj => ?_⟩
  obtain ⟨ns, t, tag, h7, h8, _, h9, h10⟩ := h6 k x hx
  obtain ⟨m, h11, rfl⟩ := h8 j hj
  refine ⟨_, m, h7, ?_, h11, fun h => h ▸ h11, fun h => named_unique hU h11 h⟩
  by_cases ho : x.kind = .optional
  · rw [h9 ho]; rfl
  · rw [h10 ho]; rfl

example : letI := asciiOnly
    ∃ rules g q es x j, Generated demoLib 30 b!"a = (x: int)" b!"p" rules g ∧
      (∃ p i c, Node.rule p i (.group q es) c ∈ rules) ∧ es[0]? = some x ∧ keyOf x = some j ∧ j.name = b!"x" := by
  letI := asciiOnly
  obtain ⟨rules, g, ⟨res, h1, h2, h3, h4⟩, -⟩ :=
    of_generates (src := b!"a = (x: int)") (f := fun _ => true) (by decide_cbv)
  obtain ⟨res', rules', h5, h6, h7⟩ := of_parses (n := 30) (src := b!"a = (x: int)") (f := fun rules _ => match rules with
    | [.rule _ _ (.group _ (x :: _)) _] => decide ((keyOf x).map Ident.name = some b!"x")
    | _ => false) (by decide_cbv)
  cases h1.symm.trans h5
  cases h2.symm.trans h6
  split at h7
  · rename_i q x es c
    obtain ⟨j, hj, hn⟩ := Option.map_eq_some_iff.1 (of_decide_eq_true h7)
    exact ⟨_, g, q, _, x, j, ⟨_, h5, h6, h3, h4⟩, ⟨_, _, _, .head _⟩, rfl, hj, hn⟩
  · cases h7

omit [Unicode] in
/-- **C82**, refuted: the field generated for the key `x` of `a = (x: int)` is written under the key
`X`, that for `a = (1: int)` under the text `IntKey_1`. -/
theorem C82_refuted : letI := asciiOnly
    (∃ rules g, Generated demoLib 30 b!"a = (x: int)" b!"p" rules g ∧
      ∃ doc f, GoDecl.type doc b!"A" (.struct [f]) ∈ g.file.decls ∧ cborKey f = some b!"X") ∧
    (∃ rules g, Generated demoLib 30 b!"a = (1: int)" b!"p" rules g ∧
      ∃ doc f, GoDecl.type doc b!"A" (.struct [f]) ∈ g.file.decls ∧ cborKey f = some b!"IntKey_1") := by
  letI := asciiOnly
  constructor
  · obtain ⟨rules, g, h1, h2⟩ := of_generates (src := b!"a = (x: int)") (f := fun ds => match ds with
      | [.type _ n (.struct [f]), .method ..] => decide (n = b!"A" ∧ cborKey f = some b!"X")
      | _ => false) (by decide_cbv)
    refine ⟨rules, g, h1, ?_⟩
    split at h2
    · rename_i hd
      obtain ⟨rfl, h3⟩ := of_decide_eq_true h2
      rw [hd]
      exact ⟨_, _, .head _, h3⟩
    · cases h2
  · obtain ⟨rules, g, h1, h2⟩ := of_generates (src := b!"a = (1: int)") (f := fun ds => match ds with
      | [.type _ n (.struct [f]), .method ..] => decide (n = b!"A" ∧ cborKey f = some b!"IntKey_1")
      | _ => false) (by decide_cbv)
    refine ⟨rules, g, h1, ?_⟩
    split at h2
    · rename_i hd
      obtain ⟨rfl, h3⟩ := of_decide_eq_true h2
      rw [hd]
      exact ⟨_, _, .head _, h3⟩
    · cases h2

end
end Cddlc
