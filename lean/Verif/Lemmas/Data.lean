import Verif.Spec.Data
import Verif.Props.Compile

/-! What is written by generated types, for plain schemas. -/

namespace Cddlc
open Spec

section
variable [Unicode] {lib : GoLib} {rules : List Node} {D : List GoDecl} {o s : Bool}

/-- A schema and its declarations. -/
structure Setting (o s : Bool) (lib : GoLib) (rules : List Node) (D : List GoDecl) : Prop where
  typeOf : ∀ {p i v c m}, Node.rule p i v c ∈ rules → Named lib i m → ∃ doc e, Denotes lib v e ∧ GoDecl.type doc m e ∈ D
  ruleOf : ∀ {doc m e}, GoDecl.type doc m e ∈ D → ∃ p i v c, Node.rule p i v c ∈ rules ∧ Named lib i m ∧ Denotes lib v e
  known : ∀ {p i v c}, Node.rule p i v c ∈ rules → ∀ {j}, Node.ident j ∈ subs v → ∃ q k w d, Node.rule q k w d ∈ rules ∧ k.name = j.name
  name : ∀ {p i v c}, Node.rule p i v c ∈ rules → ∃ m, Named lib i m
  same : ∀ {p i v c q j w d m}, Node.rule p i v c ∈ rules → Node.rule q j w d ∈ rules → Named lib i m → Named lib j m →
    i = j ∧ v = w
  upper : ∀ {p i v c}, Node.rule p i v c ∈ rules → ∀ {j}, j ∈ identsOf v → ∀ {m}, Named lib j m → exported m = true
  tops : ∀ m ∈ topNames D, exported m = true
  plain : PlainSchema o s lib rules

/-- The nodes are those of a rule. -/
def Inside (rules : List Node) (l : List Node) : Prop := ∃ p i v c, Node.rule p i v c ∈ rules ∧ ∀ y ∈ l, y ∈ subs v

omit [Unicode] in
theorem Inside.mono {l l' : List Node} (h : Inside rules l) (hl : ∀ y ∈ l', y ∈ l) : Inside rules l' := by
  obtain ⟨p, i, v, c, h1, h2⟩ := h
  exact ⟨p, i, v, c, h1, fun y hy => h2 y (hl y hy)⟩

omit [Unicode] in
theorem Inside.head {x : Node} {xs : List Node} (h : Inside rules (subsList (x :: xs))) : Inside rules (subs x) :=
  h.mono fun _ hy => List.mem_append_left _ hy

omit [Unicode] in
theorem Inside.tail {x : Node} {xs : List Node} (h : Inside rules (subsList (x :: xs))) : Inside rules (subsList xs) :=
  h.mono fun _ hy => List.mem_append_right _ hy

omit [Unicode] in
theorem Inside.entry {p i v c} (h : Inside rules (subs (.entry p i v c))) : Inside rules (subs v) :=
  h.mono fun _ hy => List.mem_cons_of_mem _ hy

omit [Unicode] in
theorem Inside.array {p es} (h : Inside rules (subs (.array p es))) : Inside rules (subsList es) :=
  h.mono fun _ hy => List.mem_cons_of_mem _ hy

omit [Unicode] in
theorem Inside.size {p t q u k ty} (h : Inside rules (subs (.size p t (.intLit q u k) ty))) : Inside rules (subs ty) :=
  h.mono fun _ hy => by simp [subs, hy]

omit [Unicode] in
theorem Inside.optional {p t x} (h : Inside rules (subs (.optional p t x))) : Inside rules (subs x) :=
  h.mono fun _ hy => by simp [subs, hy]

omit [Unicode] in
theorem inside_rule {p i v c} (h : Node.rule p i v c ∈ rules) : Inside rules (subs v) := ⟨p, i, v, c, h, fun _ hy => hy⟩

omit [Unicode] in
theorem inside_group {p i q es c} (h : Node.rule p i (.group q es) c ∈ rules) : Inside rules (subsList es) :=
  (inside_rule h).mono fun _ hy => List.mem_cons_of_mem _ hy

theorem named_name {i j : Ident} {m : Bytes} (h : Named lib i m) (hn : i.name = j.name) : Named lib j m := by
  obtain ⟨p, k⟩ := i
  obtain ⟨q, k'⟩ := j
  cases hn
  exact named_pos h

/-- The names of predeclared types are not exported. -/
theorem lower_base {v : Node} {n : Bytes} (h : Denotes lib v (.ident n)) (hk : v.kind ≠ .ident) : exported n = false := by
  generalize he : GoExpr.ident n = e at h
  cases h with
  | ident => exact absurd rfl hk
  | size h1 h2 =>
    subst he
    simp only [List.mem_cons, List.not_mem_nil, or_false] at h1
    generalize he : GoExpr.ident n = e at h2
    cases h2 <;> first | (cases he; rfl) | (simp [Node.kind] at h1; done) | cases he
  | _ => first | (cases he; rfl) | cases he

namespace Setting
variable (S : Setting o s lib rules D)
include S

theorem declaredRule {j : Ident} (h : Inside rules (subs (.ident j))) : ∃ q k w d, Node.rule q k w d ∈ rules ∧ k.name = j.name := by
  obtain ⟨p, i, v, c, h1, h2⟩ := h
  exact S.known h1 (h2 _ (List.mem_cons_self ..))

theorem up {j : Ident} (h : Inside rules (subs (.ident j))) {m} (hm : Named lib j m) : exported m = true := by
  obtain ⟨p, i, v, c, h1, h2⟩ := h
  exact S.upper h1 (List.mem_filterMap.mpr ⟨_, h2 _ (List.mem_cons_self ..), rfl⟩) hm

theorem upKey {p j v c} (h : Inside rules (subs (.entry p j v c))) {m} (hm : Named lib j m) : exported m = true := by
  obtain ⟨p, i, v, c, h1, h2⟩ := h
  exact S.upper h1 (List.mem_filterMap.mpr ⟨_, h2 _ (List.mem_cons_self ..), rfl⟩) hm

theorem notTop {m : Bytes} (h : exported m = false) : m ∉ topNames D := by
  intro hm
  rw [S.tops m hm] at h
  cases h

theorem uniq {p i v c q j w d} (h1 : Node.rule p i v c ∈ rules) (h2 : Node.rule q j w d ∈ rules) (h : i.name = j.name) : v = w := by
  obtain ⟨m, hm⟩ := S.name h1
  exact (S.same h1 h2 hm (named_name hm h)).2

theorem resolves_unique {n : Bytes} {v w : Node} (h1 : Resolves rules n v) (h2 : Resolves rules n w) : v = w := by
  induction h1 generalizing w with
  | @done p i v c hr hk =>
    generalize hn : i.name = n at h2
    cases h2 with
    | done hr' _ => exact S.uniq hr hr' hn
    | step hr' _ =>
      cases S.uniq hr hr' hn
      exact absurd rfl hk
  | @step p i j c v hr _ ih =>
    generalize hn : i.name = n at h2
    cases h2 with
    | done hr' hk =>
      cases S.uniq hr hr' hn
      exact absurd rfl hk
    | step hr' h3 =>
      cases S.uniq hr hr' hn
      exact ih h3

/-- What a type name is in the end, and what the CDDL name is. -/
theorem underlying_resolves {e u : GoExpr} (h : Underlying D e u) : ∀ {j n}, e = .ident n → Inside rules (subs (.ident j)) → Named lib j n →
    ∃ v, Resolves rules j.name v ∧ v.kind ≠ .ident ∧ Denotes lib v u := by
  induction h with
  | slice => intro _ _ h; cases h
  | struct => intro _ _ h; cases h
  | @predeclared m h1 h2 =>
    intro j n he hi hn
    cases he
    obtain ⟨q, k, w, d, h3, h4⟩ := S.declaredRule hi
    obtain ⟨doc, e, _, h5⟩ := S.typeOf h3 (named_name hn h4.symm)
    exact absurd (mem_top.mpr ⟨_, h5, _, rfl⟩) h1
  | @declared doc m e u hd hu ih =>
    intro j n he hi hn
    cases he
    obtain ⟨p, i, v, c, hr, h1, h2⟩ := S.ruleOf hd
    obtain ⟨q, k, w, d, h3, h4⟩ := S.declaredRule hi
    obtain ⟨rfl, rfl⟩ := S.same hr h3 h1 (named_name hn h4.symm)
    rw [← h4]
    by_cases hk : v.kind = .ident
    · cases v <;> cases hk
      · cases h2 <;> rename_i h2 <;> cases h2
      · rename_i l
        generalize hx : Node.ident l = x at h2
        cases h2 with
        | ident h2 =>
          cases hx
          obtain ⟨v, h5, h6⟩ := ih (j := l) rfl (inside_rule hr) h2
          exact ⟨v, .step hr h5, h6⟩
        | _ => first | (cases hx; done) | (rename_i h; cases hx; cases h)
    · refine ⟨v, .done hr hk, hk, ?_⟩
      cases hu with
      | slice => exact h2
      | struct => exact h2
      | predeclared => exact h2
      | declared h5 h6 =>
        exact absurd (mem_top.mpr ⟨_, h5, _, rfl⟩) (S.notTop (lower_base h2 hk))

omit S in
theorem plain_cases {v : Node} {e : GoExpr} (hp : PlainType o s rules v) (h : Denotes lib v e) :
    (v.kind = .boolType ∧ e = .ident b!"bool") ∨ (v.kind = .tstr ∧ e = .ident b!"string") ∨
    (v.kind = .bytes ∧ e = .array (.ident b!"byte")) ∨ (v.kind = .intType ∧ e = .ident b!"int") ∨
    (v.kind = .uintType ∧ e = .ident b!"uint") ∨
    (∃ j n, v = .ident j ∧ e = .ident n ∧ Named lib j n ∧ ¬ IsGroup rules j.name) ∨
    (∃ p es fs, v = .array p es ∧ e = .struct (.mk [b!"_"] (.struct []) (some b!"`cbor:\",toarray\"`") :: fs) ∧
      DenotesFields lib es fs ∧ PlainEntries o s rules es) ∨
    ∃ p t q u k ty, v = .size p t (.intLit q u k) ty ∧ s = true ∧ ty.kind ∈ [NodeKind.uintType, .bytes, .tstr] ∧ Denotes lib ty e := by
  cases hp with
  | base hk =>
    simp only [List.mem_cons, List.not_mem_nil, or_false] at hk
    cases h with
    | bool h => exact .inl ⟨h, rfl⟩
    | tstr h => exact .inr (.inl ⟨h, rfl⟩)
    | bytes h => exact .inr (.inr (.inl ⟨h, rfl⟩))
    | int h => exact .inr (.inr (.inr (.inl ⟨h, rfl⟩)))
    | uint h => exact .inr (.inr (.inr (.inr (.inl ⟨h, rfl⟩))))
    | null h => rw [h] at hk; simp at hk
    | _ => simp [Node.kind] at hk
  | @name j hg =>
    generalize hx : Node.ident j = x at h
    cases h with
    | ident h => cases hx; exact .inr (.inr (.inr (.inr (.inr (.inl ⟨_, _, rfl, rfl, h, hg⟩)))))
    | _ => first | (cases hx; done) | (rename_i h; cases hx; cases h)
  | @array p es he =>
    generalize hx : Node.array p es = x at h
    cases h with
    | array h => cases hx; exact .inr (.inr (.inr (.inr (.inr (.inr (.inl ⟨_, _, _, rfl, rfl, h, he⟩))))))
    | _ => first | (cases hx; done) | (rename_i h; cases hx; cases h)
  | @size p t q u k ty hs hk =>
    generalize hx : Node.size p t (.intLit q u k) ty = x at h
    cases h with
    | size _ h => cases hx; exact .inr (.inr (.inr (.inr (.inr (.inr (.inr ⟨_, _, _, _, _, _, rfl, hs, hk, h⟩))))))
    | _ => first | (cases hx; done) | (rename_i h; cases hx; cases h)

omit S in
theorem size_part {p t q u k ty e} (h : Denotes lib (.size p t (.intLit q u k) ty) e) :
    ty.kind ∈ [NodeKind.uintType, .bytes, .tstr] ∧ Denotes lib ty e := by
  generalize hx : Node.size p t (.intLit q u k) ty = x at h
  cases h with
  | size h1 h => cases hx; exact ⟨h1, h⟩
  | _ => first | (cases hx; done) | (rename_i h; cases hx; cases h)

omit S [Unicode] in
theorem sized_base {k : NodeKind} (h : k ∈ [NodeKind.uintType, .bytes, .tstr]) :
    k ∈ [NodeKind.boolType, .tstr, .bytes, .intType, .uintType] := by
  simp only [List.mem_cons, List.not_mem_nil, or_false] at h ⊢
  rcases h with rfl | rfl | rfl <;> simp

omit S in
theorem group_fields {p es u} (h : Denotes lib (.group p es) u) : ∃ fs, u = .struct fs ∧ DenotesFields lib es fs := by
  generalize hx : Node.group p es = x at h
  cases h with
  | group h => cases hx; exact ⟨_, rfl, h⟩
  | _ => first | (cases hx; done) | (rename_i h; cases hx; cases h)

omit S in
theorem struct_cases {v : Node} {fs : List GoField} (h : Denotes lib v (.struct fs)) :
    (∃ p es, v = .group p es ∧ DenotesFields lib es fs) ∨ ∃ p es, v = .array p es := by
  generalize he : GoExpr.struct fs = e at h
  cases h with
  | group h => cases he; exact .inl ⟨_, _, rfl, h⟩
  | array h => exact .inr ⟨_, _, rfl⟩
  | size h1 h2 =>
    subst he
    simp only [List.mem_cons, List.not_mem_nil, or_false] at h1
    generalize he : GoExpr.struct fs = e at h2
    cases h2 <;> first | (simp [Node.kind] at h1; done) | cases he
  | _ => cases he

omit S in
theorem resolves_rule {n : Bytes} {v : Node} (h : Resolves rules n v) : ∃ p i c, Node.rule p i v c ∈ rules := by
  induction h with
  | done h _ => exact ⟨_, _, _, h⟩
  | step _ _ ih => exact ih

theorem group_plain {n : Bytes} {p es} (h : Resolves rules n (.group p es)) : PlainEntries o s rules es ∧ Inside rules (subsList es) := by
  obtain ⟨q, i, c, hr⟩ := resolves_rule h
  refine ⟨?_, inside_group hr⟩
  rcases S.plain.values _ _ _ _ hr with ⟨q, es', h1, h2⟩ | ⟨j, h1⟩ | h1
  · cases h1; exact h2
  · cases h1
  · cases h1 with
    | base h1 => simp [Node.kind] at h1

omit S [Unicode] in
theorem fills_group {ints : Int → Prop} {n : Bytes} {v : Node} (h : Resolves rules n v) : ∀ {p es' part es items}, v = .group p es' →
    Fills ints rules es' part → Fills ints rules es items → ∀ {j : Ident}, j.name = n → Fills ints rules (.ident j :: es) (part ++ items) := by
  induction h with
  | done hr _ =>
    rintro p es' part es items rfl h1 h2 j hj
    exact .group hr hj.symm h1 h2
  | step hr _ ih =>
    rintro p es' part es items rfl h1 h2 j hj
    have := ih rfl h1 .nil (j := _) rfl
    rw [List.append_nil] at this
    exact .alias hr hj.symm this h2

omit S [Unicode] in
theorem once_each {l : List FlatField} (hn : (l.map (·.name)).Nodup) {y : FlatField} (hy : y ∈ l) :
    (l.filter fun z => decide (z.name = y.name ∧ z.depth ≤ y.depth)).length = 1 := by
  induction l with
  | nil => cases hy
  | cons x l ih =>
    rw [List.map_cons, List.nodup_cons] at hn
    rcases List.mem_cons.mp hy with rfl | hy
    · rw [List.filter_cons_of_pos (by simp), List.length_cons, List.filter_eq_nil_iff.mpr]
      · rfl
      · intro z hz
        simp only [decide_eq_true_eq, not_and]
        intro h1
        exact absurd (List.mem_map.mpr ⟨z, hz, h1⟩) hn.1
    · rw [List.filter_cons_of_neg, ih hn.2 hy]
      simp only [decide_eq_true_eq, not_and]
      intro h1
      exact absurd (List.mem_map.mpr ⟨y, hy, h1.symm⟩) hn.1

omit S [Unicode] in
theorem written_tail {l : List FlatField} {x : FlatField} (hx : exported x.name = false) (h : ∀ y ∈ l, exported y.name = true)
    (hn : (l.map (·.name)).Nodup) : writtenFields (x :: l) = l := by
  unfold writtenFields
  rw [List.filter_cons_of_neg (by simp [hx]), List.filter_eq_self]
  intro y hy
  rw [h y hy, List.filter_cons_of_neg, once_each hn hy]
  · rfl
  · simp only [decide_eq_true_eq, not_and]
    intro h1
    rw [h1, h y hy] at hx
    cases hx

omit S [Unicode] in
theorem forall₂_append_split {α β : Type} {R : α → β → Prop} {l l' : List α} : ∀ {m : List β}, List.Forall₂ R (l ++ l') m →
    ∃ m₁ m₂, m = m₁ ++ m₂ ∧ List.Forall₂ R l m₁ ∧ List.Forall₂ R l' m₂ := by
  induction l with
  | nil => intro m h; exact ⟨[], m, rfl, .nil, h⟩
  | cons a l ih =>
    intro m h
    cases h with
    | cons h1 h2 =>
      obtain ⟨m₁, m₂, rfl, h3, h4⟩ := ih h2
      exact ⟨_ :: m₁, m₂, rfl, .cons h1 h3, h4⟩

omit S [Unicode] in
theorem forall₂_append_join {α β : Type} {R : α → β → Prop} {l l' : List α} {m m' : List β} (h1 : List.Forall₂ R l m)
    (h2 : List.Forall₂ R l' m') : List.Forall₂ R (l ++ l') (m ++ m') := by
  induction h1 with
  | nil => exact h2
  | cons h _ ih => exact .cons h ih

/-- What is written by values of the type is what the node stands for. -/
def Sound (o s : Bool) (lib : GoLib) (rules : List Node) (e : GoExpr) (d : Data) : Prop :=
  ∀ v, PlainType o s rules v → Inside rules (subs v) → Denotes lib v e → ¬ PartOf .null d → Matches goInt rules v d

theorem reaches_fills {k : Nat} {fs : List GoField} {r : List FlatField} (h : Reaches D k fs r) : ∀ {es}, PlainEntries o s rules es →
    Inside rules (subsList es) → DenotesFields lib es fs →
    (∃ ks, Keys rules es ks ∧ List.Forall₂ (fun i (x : FlatField) => Named lib i x.name) ks r) ∧ (∀ x ∈ r, exported x.name = true) ∧
    ∀ items, List.Forall₂ (Sound o s lib rules) (r.map (·.type)) items → (∀ d ∈ items, ¬ PartOf .null d) → Fills goInt rules es items := by
  induction h with
  | nil =>
    intro es hp _ hd
    cases hd
    refine ⟨⟨[], .nil, .nil⟩, by simp, ?_⟩
    intro items h _
    cases h
    exact .nil
  | @named k n t tag fs r _ ih =>
    intro es hp hi hd
    cases hd with
    | @cons x _ es _ hf hs =>
      cases hf with
      | @entry p i v c _ _ hn hv =>
        cases hp with
        | entry hp1 hp2 =>
          obtain ⟨⟨ks, h1, h2⟩, h3, h4⟩ := ih hp2 hi.tail hs
          refine ⟨⟨i :: ks, .entry h1, .cons hn h2⟩, ?_, ?_⟩
          · intro y hy
            rcases List.mem_cons.mp hy with rfl | hy
            · exact S.upKey hi.head hn
            · exact h3 y hy
          · intro items h5 h6
            cases h5 with
            | cons h7 h8 =>
              exact .entry (h7 v hp1 hi.head.entry hv (h6 _ (List.mem_cons_self ..)))
                (h4 _ h8 fun d hd => h6 d (List.mem_cons_of_mem _ hd))
      | @optional q t p i v c _ _ hn hv =>
        cases hp with
        | optional ho hp1 hp2 =>
          obtain ⟨⟨ks, h1, h2⟩, h3, h4⟩ := ih hp2 hi.tail hs
          refine ⟨⟨i :: ks, .optional h1, .cons hn h2⟩, ?_, ?_⟩
          · intro y hy
            rcases List.mem_cons.mp hy with rfl | hy
            · exact S.upKey hi.head.optional hn
            · exact h3 y hy
          · intro items h5 h6
            cases h5 with
            | cons h7 h8 =>
              exact .present (.entry (h7 v hp1 hi.head.optional.entry hv (h6 _ (List.mem_cons_self ..))) .nil)
                (h4 _ h8 fun d hd => h6 d (List.mem_cons_of_mem _ hd))
  | @struct k n tag fs' fs r' r hu h' _ ih' ih =>
    intro es hp hi hd
    cases hd with
    | @cons x _ es _ hf hs =>
      cases hf with
      | @ident j _ hn =>
        cases hp with
        | name hp1 hp2 =>
          obtain ⟨v, h1, _, h2⟩ := S.underlying_resolves hu rfl hi.head hn
          rcases struct_cases h2 with ⟨p, es', rfl, h3⟩ | ⟨p, es', rfl⟩
          · obtain ⟨h4, h5⟩ := S.group_plain h1
            obtain ⟨⟨ks', a1, a2⟩, a3, a4⟩ := ih' h4 h5 h3
            obtain ⟨⟨ks, b1, b2⟩, b3, b4⟩ := ih hp2 hi.tail hs
            refine ⟨⟨ks' ++ ks, .group h1 a1 b1, forall₂_append_join a2 b2⟩, ?_, ?_⟩
            · intro y hy
              rcases List.mem_append.mp hy with hy | hy
              · exact a3 y hy
              · exact b3 y hy
            · intro items h6 h7
              rw [List.map_append] at h6
              obtain ⟨m₁, m₂, rfl, h8, h9⟩ := forall₂_append_split h6
              exact fills_group h1 rfl (a4 _ h8 fun d hd => h7 d (List.mem_append_left _ hd))
                (b4 _ h9 fun d hd => h7 d (List.mem_append_right _ hd)) rfl
          · exact absurd ⟨p, es', h1⟩ hp1
  | @other k n tag u fs r hu hns _ ih =>
    intro es hp hi hd
    cases hd with
    | @cons x _ es _ hf hs =>
      cases hf with
      | @ident j _ hn =>
        cases hp with
        | name hp1 hp2 =>
          obtain ⟨v, h1, _, h2⟩ := S.underlying_resolves hu rfl hi.head hn
          have hg : ¬ IsGroup rules j.name := by
            rintro ⟨p, es', h3⟩
            cases S.resolves_unique h1 h3
            obtain ⟨fs', h4, _⟩ := group_fields h2
            exact hns _ h4
          obtain ⟨⟨ks, b1, b2⟩, b3, b4⟩ := ih hp2 hi.tail hs
          refine ⟨⟨j :: ks, .type hg b1, .cons hn b2⟩, ?_, ?_⟩
          · intro y hy
            rcases List.mem_cons.mp hy with rfl | hy
            · exact S.up hi.head hn
            · exact b3 y hy
          · intro items h5 h6
            cases h5 with
            | cons h7 h8 =>
              exact .type (h7 _ (.name hg) hi.head (.ident hn) (h6 _ (List.mem_cons_self ..)))
                (b4 _ h8 fun d hd => h6 d (List.mem_cons_of_mem _ hd))

/-- The fields of an array are written in full. -/
theorem array_written {p es fs r} (hi : Inside rules (subs (.array p es))) (hp : PlainEntries o s rules es) (hd : DenotesFields lib es fs)
    (h : Reaches D 0 fs r) {k t o} : writtenFields (⟨b!"_", k, t, o⟩ :: r) = r := by
  obtain ⟨⟨ks, h1, h2⟩, h3, _⟩ := S.reaches_fills h hp hi.array hd
  obtain ⟨q, i, v, c, hr, hs⟩ := hi
  have hk := S.plain.keys _ _ _ _ hr _ _ (hs _ (List.mem_cons_self ..)) ks h1
  refine written_tail rfl h3 ?_
  clear * - hk h2
  induction h2 with
  | nil => exact List.nodup_nil
  | @cons i x ks r h1 h2 ih =>
    rw [List.pairwise_cons] at hk
    rw [List.map_cons, List.nodup_cons]
    refine ⟨?_, ih hk.2⟩
    intro hm
    obtain ⟨y, hy, hn⟩ := List.mem_map.mp hm
    have : ∃ j ∈ ks, Named lib j y.name := by
      clear * - h2 hy
      induction h2 with
      | nil => cases hy
      | cons h _ ih =>
        rcases List.mem_cons.mp hy with rfl | hy
        · exact ⟨_, List.mem_cons_self .., h⟩
        · obtain ⟨j, hj, h⟩ := ih hy
          exact ⟨j, List.mem_cons_of_mem _ hj, h⟩
    obtain ⟨j, hj, h3⟩ := this
    rw [hn] at h3
    exact hk.1 j hj _ h1 h3

mutual
theorem sound (hs0 : s = false) {e : GoExpr} {d : Data} : Writes D e d → Sound o s lib rules e d
  | .bool _ => by
    intro v hp hi hd _
    rcases plain_cases hp hd with ⟨h, he⟩ | ⟨h, he⟩ | ⟨h, he⟩ | ⟨h, he⟩ | ⟨h, he⟩ | ⟨j, n, rfl, he, h, _⟩ | ⟨p, es, fs, _, he, _⟩ | ⟨_, _, _, _, _, ty, hv, hs, hk, hd⟩
    pick_goal 8
    · rw [hs0] at hs; cases hs
    · exact .bool h
    all_goals first | (cases he; done) | skip
    · cases he; exact absurd (S.up hi h) (by decide)
  | .string _ => by
    intro v hp hi hd _
    rcases plain_cases hp hd with ⟨h, he⟩ | ⟨h, he⟩ | ⟨h, he⟩ | ⟨h, he⟩ | ⟨h, he⟩ | ⟨j, n, rfl, he, h, _⟩ | ⟨p, es, fs, _, he, _⟩ | ⟨_, _, _, _, _, ty, hv, hs, hk, hd⟩
    pick_goal 8
    · rw [hs0] at hs; cases hs
    · cases he
    · exact .tstr h
    all_goals first | (cases he; done) | skip
    · cases he; exact absurd (S.up hi h) (by decide)
  | .int _ hv => by
    intro v hp hi hd _
    rcases plain_cases hp hd with ⟨h, he⟩ | ⟨h, he⟩ | ⟨h, he⟩ | ⟨h, he⟩ | ⟨h, he⟩ | ⟨j, n, rfl, he, h, _⟩ | ⟨p, es, fs, _, he, _⟩ | ⟨_, _, _, _, _, ty, hv, hs, hk, hd⟩
    pick_goal 8
    · rw [hs0] at hs; cases hs
    · cases he
    · cases he
    · cases he
    · exact .int h hv
    all_goals first | (cases he; done) | skip
    · cases he; exact absurd (S.up hi h) (by decide)
  | .uint _ h0 hv => by
    intro v hp hi hd _
    rcases plain_cases hp hd with ⟨h, he⟩ | ⟨h, he⟩ | ⟨h, he⟩ | ⟨h, he⟩ | ⟨h, he⟩ | ⟨j, n, rfl, he, h, _⟩ | ⟨p, es, fs, _, he, _⟩ | ⟨_, _, _, _, _, ty, hv, hs, hk, hd⟩
    pick_goal 8
    · rw [hs0] at hs; cases hs
    · cases he
    · cases he
    · cases he
    · cases he
    · exact .uint h h0 hv
    all_goals first | (cases he; done) | skip
    · cases he; exact absurd (S.up hi h) (by decide)
  | .declared hm hw => by
    have ih := sound hs0 hw
    intro v hp hi hd hnull
    have htop := S.tops _ (mem_top.mpr ⟨_, hm, _, rfl⟩)
    rcases plain_cases hp hd with ⟨h, he⟩ | ⟨h, he⟩ | ⟨h, he⟩ | ⟨h, he⟩ | ⟨h, he⟩ | ⟨j, n, rfl, he, h, hg⟩ | ⟨p, es, fs, _, he, _⟩ | ⟨_, _, _, _, _, ty, hv, hs, hk, hd⟩
    pick_goal 8
    · rw [hs0] at hs; cases hs
    all_goals first | (cases he; exact absurd htop (by decide)) | (cases he; done) | skip
    cases he
    obtain ⟨p, i, w, c, hr, h1, h2⟩ := S.ruleOf hm
    obtain ⟨q, k, w', c', h3, h4⟩ := S.declaredRule hi
    obtain ⟨rfl, rfl⟩ := S.same hr h3 h1 (named_name h h4.symm)
    refine .name hr h4 (ih w ?_ (inside_rule hr) h2 hnull)
    rcases S.plain.values _ _ _ _ hr with ⟨q, es, rfl, _⟩ | ⟨l, rfl⟩ | h5
    · exact absurd ⟨q, es, h4 ▸ .done hr (by simp [Node.kind])⟩ hg
    · refine .name fun hl => hg ?_
      obtain ⟨q, es, hl⟩ := hl
      exact ⟨q, es, h4 ▸ .step hr hl⟩
    · exact h5
  | .nilSlice => fun _ _ _ _ hnull => absurd .self hnull
  | .bytes _ => by
    intro v hp hi hd _
    rcases plain_cases hp hd with ⟨h, he⟩ | ⟨h, he⟩ | ⟨h, he⟩ | ⟨h, he⟩ | ⟨h, he⟩ | ⟨j, n, rfl, he, h, _⟩ | ⟨p, es, fs, _, he, _⟩ | ⟨_, _, _, _, _, ty, hv, hs, hk, hd⟩
    pick_goal 8
    · rw [hs0] at hs; cases hs
    · cases he
    · cases he
    · exact .bytes h
    all_goals cases he
  | .slice hne _ => by
    intro v hp hi hd _
    rcases plain_cases hp hd with ⟨h, he⟩ | ⟨h, he⟩ | ⟨h, he⟩ | ⟨h, he⟩ | ⟨h, he⟩ | ⟨j, n, rfl, he, h, _⟩ | ⟨p, es, fs, _, he, _⟩ | ⟨_, _, _, _, _, ty, hv, hs, hk, hd⟩
    pick_goal 8
    · rw [hs0] at hs; cases hs
    all_goals first | (cases he; done) | skip
    cases he; exact absurd rfl hne
  | .array _ hr hw => by
    have ih := soundAll hs0 hw
    intro v hp hi hd hnull
    rcases plain_cases hp hd with ⟨h, he⟩ | ⟨h, he⟩ | ⟨h, he⟩ | ⟨h, he⟩ | ⟨h, he⟩ | ⟨j, n, rfl, he, h, _⟩ | ⟨p, es, fs, rfl, he, h1, h2⟩ | ⟨_, _, _, _, _, ty, hv, hs, hk, hd⟩
    pick_goal 8
    · rw [hs0] at hs; cases hs
    all_goals first | (cases he; done) | skip
    cases he
    cases hr with
    | named h3 =>
    rw [S.array_written hi h2 h1 h3] at ih
    exact .array ((S.reaches_fills h3 h2 hi.array h1).2.2 _ ih fun d hd hn => hnull (.array hd hn))
  | .map hm _ _ _ _ => by
    intro v hp hi hd _
    rcases plain_cases hp hd with ⟨h, he⟩ | ⟨h, he⟩ | ⟨h, he⟩ | ⟨h, he⟩ | ⟨h, he⟩ | ⟨j, n, rfl, he, h, _⟩ | ⟨p, es, fs, _, he, _⟩ | ⟨_, _, _, _, _, ty, hv, hs, hk, hd⟩
    pick_goal 8
    · rw [hs0] at hs; cases hs
    all_goals first | (cases he; done) | skip
    cases he
    exact absurd ⟨_, List.mem_cons_self ..⟩ hm
theorem soundAll (hs0 : s = false) {es : List GoExpr} {items : List Data} : WritesAll D es items → List.Forall₂ (Sound o s lib rules) es items
  | .nil => .nil
  | .cons h hs => .cons (sound hs0 h) (soundAll hs0 hs)
end

omit S [Unicode] in
theorem writesAll_append {es' : List GoExpr} {items' : List Data} (h : WritesAll D es' items') :
    ∀ {es items}, WritesAll D es items → WritesAll D (es ++ es') (items ++ items')
  | _, _, .nil => h
  | _, _, .cons h1 h2 => .cons h1 (writesAll_append h h2)

omit S [Unicode] in
/-- A type of which a value is written has an underlying type. -/
theorem writes_underlying {e : GoExpr} {d : Data} : Writes D e d → ∃ u, Underlying D e u
  | .bool h => ⟨_, .predeclared h (by decide)⟩
  | .string h => ⟨_, .predeclared h (by decide)⟩
  | .int h _ => ⟨_, .predeclared h (by decide)⟩
  | .uint h _ _ => ⟨_, .predeclared h (by decide)⟩
  | .declared h hw => let ⟨u, hu⟩ := writes_underlying hw; ⟨u, .declared h hu⟩
  | .nilSlice => ⟨_, .slice⟩
  | .bytes _ => ⟨_, .slice⟩
  | .slice _ _ => ⟨_, .slice⟩
  | .array _ _ _ => ⟨_, .struct⟩
  | .map _ _ _ _ _ => ⟨_, .struct⟩

omit S [Unicode] in
/-- A name that is matched is not the name of a group. -/
theorem matches_resolves {ints : Int → Prop} : ∀ {v : Node} {d : Data}, Matches ints rules v d →
    ∀ {j}, v = .ident j → ∃ w, Resolves rules j.name w ∧ ∀ p es, w ≠ .group p es
  | _, _, .name (v := w) hr hn hm, j, hj => by
    have ih := fun j (h : w = .ident j) => matches_resolves hm h
    cases hj
    by_cases hk : ∃ k, w = .ident k
    · obtain ⟨k, rfl⟩ := hk
      obtain ⟨w, h1, h2⟩ := ih _ rfl
      exact ⟨w, hn ▸ .step hr h1, h2⟩
    · by_cases hk' : w.kind = .ident
      · cases w <;> cases hk'
        · cases hm <;> rename_i h <;> cases h
        · exact absurd ⟨_, rfl⟩ hk
      · refine ⟨w, hn ▸ .done hr hk', ?_⟩
        rintro p es rfl
        cases hm <;> rename_i h <;> cases h
  | _, _, .bool h, _, hj => by subst hj; cases h
  | _, _, .tstr h, _, hj => by subst hj; cases h
  | _, _, .bytes h, _, hj => by subst hj; cases h
  | _, _, .null h, _, hj => by subst hj; cases h
  | _, _, .int h _, _, hj => by subst hj; cases h
  | _, _, .uint h _ _, _, hj => by subst hj; cases h
  | _, _, .intLit, _, hj => by cases hj
  | _, _, .boolLit, _, hj => by cases hj
  | _, _, .textLit, _, hj => by cases hj
  | _, _, .sizeInt _ _ _, _, hj => by cases hj
  | _, _, .sizeText _ _, _, hj => by cases hj
  | _, _, .sizeBytes _ _, _, hj => by cases hj
  | _, _, .array _, _, hj => by cases hj

omit S [Unicode] in
theorem atom {d : Data} (h1 : d ≠ .null) (h2 : ∀ l, d ≠ .array l) (h3 : ∀ l, d ≠ .map l) : ¬ PartOf .null d := by
  intro h
  cases h with
  | self => exact h1 rfl
  | array => exact h2 _ rfl
  | map => exact h3 _ rfl

mutual
theorem complete (ho : o = false) {v : Node} {d : Data} : Matches goInt rules v d → PlainType o s rules v → Inside rules (subs v) →
    ∀ {e}, Denotes lib v e → Writes D e d ∧ ¬ PartOf .null d
  | .bool h, hp, hi => by
    intro hd
    rcases plain_cases hp hd with ⟨h', he⟩ | ⟨h', he⟩ | ⟨h', he⟩ | ⟨h', he⟩ | ⟨h', he⟩ | ⟨j, n, rfl, he, h', _⟩ | ⟨p, es, fs, rfl, he, _⟩ | ⟨_, _, _, _, _, ty, hv, hs, hk, hd⟩
    pick_goal 8
    · first | (cases hv; done) | (subst hv; cases h)
    all_goals first | (rw [h'] at h; cases h; done) | (cases h; done) | skip
    subst he
    exact ⟨.bool (S.notTop (by decide)), atom (by simp) (by simp) (by simp)⟩
  | .tstr h, hp, hi => by
    intro hd
    rcases plain_cases hp hd with ⟨h', he⟩ | ⟨h', he⟩ | ⟨h', he⟩ | ⟨h', he⟩ | ⟨h', he⟩ | ⟨j, n, rfl, he, h', _⟩ | ⟨p, es, fs, rfl, he, _⟩ | ⟨_, _, _, _, _, ty, hv, hs, hk, hd⟩
    pick_goal 8
    · first | (cases hv; done) | (subst hv; cases h)
    all_goals first | (rw [h'] at h; cases h; done) | (cases h; done) | skip
    subst he
    exact ⟨.string (S.notTop (by decide)), atom (by simp) (by simp) (by simp)⟩
  | .bytes h, hp, hi => by
    intro hd
    rcases plain_cases hp hd with ⟨h', he⟩ | ⟨h', he⟩ | ⟨h', he⟩ | ⟨h', he⟩ | ⟨h', he⟩ | ⟨j, n, rfl, he, h', _⟩ | ⟨p, es, fs, rfl, he, _⟩ | ⟨_, _, _, _, _, ty, hv, hs, hk, hd⟩
    pick_goal 8
    · first | (cases hv; done) | (subst hv; cases h)
    all_goals first | (rw [h'] at h; cases h; done) | (cases h; done) | skip
    subst he
    exact ⟨.bytes (S.notTop (by decide)), atom (by simp) (by simp) (by simp)⟩
  | .null h, hp, hi => by
    intro hd
    rcases plain_cases hp hd with ⟨h', he⟩ | ⟨h', he⟩ | ⟨h', he⟩ | ⟨h', he⟩ | ⟨h', he⟩ | ⟨j, n, rfl, he, h', _⟩ | ⟨p, es, fs, rfl, he, _⟩ | ⟨_, _, _, _, _, ty, hv, hs, hk, hd⟩
    pick_goal 8
    · first | (cases hv; done) | (subst hv; cases h)
    all_goals first | (rw [h'] at h; cases h; done) | (cases h; done)
  | .int h hv, hp, hi => by
    intro hd
    rcases plain_cases hp hd with ⟨h', he⟩ | ⟨h', he⟩ | ⟨h', he⟩ | ⟨h', he⟩ | ⟨h', he⟩ | ⟨j, n, rfl, he, h', _⟩ | ⟨p, es, fs, rfl, he, _⟩ | ⟨_, _, _, _, _, ty, hv, hs, hk, hd⟩
    pick_goal 8
    · first | (cases hv; done) | (subst hv; cases h)
    all_goals first | (rw [h'] at h; cases h; done) | (cases h; done) | skip
    subst he
    exact ⟨.int (S.notTop (by decide)) hv, atom (by simp) (by simp) (by simp)⟩
  | .uint h h0 hv, hp, hi => by
    intro hd
    rcases plain_cases hp hd with ⟨h', he⟩ | ⟨h', he⟩ | ⟨h', he⟩ | ⟨h', he⟩ | ⟨h', he⟩ | ⟨j, n, rfl, he, h', _⟩ | ⟨p, es, fs, rfl, he, _⟩ | ⟨_, _, _, _, _, ty, hv, hs, hk, hd⟩
    pick_goal 8
    · first | (cases hv; done) | (subst hv; cases h)
    all_goals first | (rw [h'] at h; cases h; done) | (cases h; done) | skip
    subst he
    exact ⟨.uint (S.notTop (by decide)) h0 hv, atom (by simp) (by simp) (by simp)⟩
  | .intLit, hp, _ => by cases hp; rename_i h; simp [Node.kind] at h
  | .boolLit, hp, _ => by cases hp; rename_i h; simp [Node.kind] at h
  | .textLit, hp, _ => by cases hp; rename_i h; simp [Node.kind] at h
  | .sizeInt hm h1 h2, hp, hi => by
    intro hd
    cases hp with
    | base h => simp [Node.kind] at h
    | size hs hk =>
    obtain ⟨h3, h4⟩ := size_part hd
    exact complete ho hm (.base (sized_base h3)) hi.size h4
  | .sizeText hm h1, hp, hi => by
    intro hd
    cases hp with
    | base h => simp [Node.kind] at h
    | size hs hk =>
    obtain ⟨h3, h4⟩ := size_part hd
    exact complete ho hm (.base (sized_base h3)) hi.size h4
  | .sizeBytes hm h1, hp, hi => by
    intro hd
    cases hp with
    | base h => simp [Node.kind] at h
    | size hs hk =>
    obtain ⟨h3, h4⟩ := size_part hd
    exact complete ho hm (.base (sized_base h3)) hi.size h4
  | .name (v := w) hr hn hm, hp, hi => by
    intro hd
    rcases plain_cases hp hd with ⟨h', he⟩ | ⟨h', he⟩ | ⟨h', he⟩ | ⟨h', he⟩ | ⟨h', he⟩ | ⟨j, n, hj, he, h', hg⟩ | ⟨p, es, fs, he, _⟩ | ⟨_, _, _, _, _, ty, hv, hs, hk, hd⟩
    pick_goal 8
    · first | (cases hv; done) | (subst hv; cases h)
    all_goals first | (cases h'; done) | (cases he; done) | skip
    cases hj
    subst he
    obtain ⟨doc, e', h1, h2⟩ := S.typeOf hr (named_name h' hn.symm)
    have hpw : PlainType o s rules w := by
      rcases S.plain.values _ _ _ _ hr with ⟨q, es, rfl, _⟩ | ⟨l, rfl⟩ | h5
      · exact absurd ⟨q, es, hn ▸ .done hr (by simp [Node.kind])⟩ hg
      · refine .name fun hl => hg ?_
        obtain ⟨q, es, hl⟩ := hl
        exact ⟨q, es, hn ▸ .step hr hl⟩
      · exact h5
    obtain ⟨h3, h4⟩ := complete ho hm hpw (inside_rule hr) h1
    exact ⟨.declared h2 h3, h4⟩
  | .array hf, hp, hi => by
    intro hd
    rcases plain_cases hp hd with ⟨h', he⟩ | ⟨h', he⟩ | ⟨h', he⟩ | ⟨h', he⟩ | ⟨h', he⟩ | ⟨j, n, hj, he, h', hg⟩ | ⟨p, es, fs, hx, he, h1, h2⟩ | ⟨_, _, _, _, _, ty, hv, hs, hk, hd⟩
    pick_goal 8
    · first | (cases hv; done) | (subst hv; cases h)
    all_goals first | (cases h'; done) | (cases hj; done) | skip
    cases hx
    subst he
    obtain ⟨r, h3, h4, h5⟩ := completeAll ho hf h2 hi.array 0 h1
    refine ⟨.array ⟨_, List.mem_cons_self ..⟩ (.named h3) ?_, ?_⟩
    · rw [S.array_written hi h2 h1 h3]
      exact h4
    · intro hn
      cases hn with
      | array hy hn => exact h5 _ hy hn
theorem completeAll (ho : o = false) {es : List Node} {items : List Data} : Fills goInt rules es items → PlainEntries o s rules es →
    Inside rules (subsList es) → ∀ (k : Nat) {fs}, DenotesFields lib es fs →
    ∃ r, Reaches D k fs r ∧ WritesAll D (r.map (·.type)) items ∧ ∀ d ∈ items, ¬ PartOf .null d
  | .nil, _, _, k, fs, hd => by
    cases hd
    exact ⟨[], .nil, .nil, by simp⟩
  | .entry hm hf, hp, hi, k, fs, hd => by
    cases hp with
    | entry hp1 hp2 =>
    cases hd with
    | cons h1 h2 =>
    cases h1 with
    | entry hn hv =>
    obtain ⟨h3, h4⟩ := complete ho hm hp1 hi.head.entry hv
    obtain ⟨r, h5, h6, h7⟩ := completeAll ho hf hp2 hi.tail k h2
    refine ⟨_, .named h5, .cons h3 h6, ?_⟩
    intro d hd
    rcases List.mem_cons.mp hd with rfl | hd
    · exact h4
    · exact h7 d hd
  | .type (j := j) hm hf, hp, hi, k, fs, hd => by
    cases hp with
    | name hp1 hp2 =>
    cases hd with
    | cons h1 h2 =>
    cases h1 with
    | ident hn =>
    obtain ⟨w, hw, hw'⟩ := matches_resolves hm rfl
    have hg : ¬ IsGroup rules j.name := by
      rintro ⟨p, es, h⟩
      exact hw' _ _ (S.resolves_unique hw h)
    obtain ⟨h3, h4⟩ := complete ho hm (.name hg) hi.head (.ident hn)
    obtain ⟨r, h5, h6, h7⟩ := completeAll ho hf hp2 hi.tail k h2
    obtain ⟨u, hu⟩ := writes_underlying h3
    refine ⟨_, .other hu ?_ h5, .cons h3 h6, ?_⟩
    · rintro fs' rfl
      obtain ⟨v, h8, _, h9⟩ := S.underlying_resolves hu rfl hi.head hn
      rcases struct_cases h9 with ⟨p, es, rfl, _⟩ | ⟨p, es, rfl⟩
      · exact hg ⟨_, _, h8⟩
      · exact hp1 ⟨_, _, h8⟩
    · intro d hd
      rcases List.mem_cons.mp hd with rfl | hd
      · exact h4
      · exact h7 d hd
  | .group hr hn' hg hf, hp, hi, k, fs, hd => by
    cases hp with
    | name hp1 hp2 =>
    cases hd with
    | cons h1 h2 =>
    cases h1 with
    | ident hn =>
    obtain ⟨doc, e, h3, h4⟩ := S.typeOf hr (named_name hn hn'.symm)
    obtain ⟨fs', rfl, h5⟩ := group_fields h3
    obtain ⟨h6, h7⟩ := S.group_plain (.done hr (by simp [Node.kind]))
    obtain ⟨r', a1, a2, a3⟩ := completeAll ho hg h6 h7 (k + 1) h5
    obtain ⟨r, b1, b2, b3⟩ := completeAll ho hf hp2 hi.tail k h2
    refine ⟨_, .struct (.declared h4 .struct) a1 b1, ?_, ?_⟩
    · rw [List.map_append]
      exact writesAll_append b2 a2
    · intro d hd
      rcases List.mem_append.mp hd with hd | hd
      · exact a3 d hd
      · exact b3 d hd
  | .alias (k := l) hr hn' hg hf, hp, hi, k, fs, hd => by
    cases hp with
    | name hp1 hp2 =>
    cases hd with
    | cons h1 h2 =>
    cases h1 with
    | ident hn =>
    obtain ⟨doc, e, h3, h4⟩ := S.typeOf hr (named_name hn hn'.symm)
    have hil : Inside rules (subs (.ident l)) := inside_rule hr
    generalize hx : Node.ident l = x at h3
    cases h3 with
    | ident h3 =>
      cases hx
      have hl : ¬ IsArray rules l.name := by
        rintro ⟨p, es, h⟩
        exact hp1 ⟨p, es, hn' ▸ .step hr h⟩
      obtain ⟨r', a1, a2, a3⟩ := completeAll ho hg (.name hl .nil) (hil.mono (by simp [subsList, subs])) k (.cons (.ident h3) .nil)
      obtain ⟨r, b1, b2, b3⟩ := completeAll ho hf hp2 hi.tail k h2
      have hall : ∀ part items : List Data, (∀ d ∈ part, ¬ PartOf .null d) → (∀ d ∈ items, ¬ PartOf .null d) →
          ∀ d ∈ part ++ items, ¬ PartOf .null d := by
        intro part items h1 h2 d hd
        rcases List.mem_append.mp hd with hd | hd
        · exact h1 d hd
        · exact h2 d hd
      cases a1 with
      | struct hu a1 a1' =>
        cases a1'
        rw [List.append_nil] at a2
        refine ⟨_, .struct (.declared h4 hu) a1 b1, ?_, hall _ _ a3 b3⟩
        rw [List.map_append]
        exact writesAll_append b2 a2
      | other hu hns a1' =>
        cases a1'
        cases a2 with
        | cons a2 a2' =>
        cases a2'
        exact ⟨_, .other (.declared h4 hu) hns b1, .cons (.declared h4 a2) b2, hall _ _ a3 b3⟩
    | _ => first | (cases hx; done) | (rename_i h; cases hx; cases h)
  | .absent _, hp, _, _, _, _ => by cases hp with | optional h => rw [ho] at h; cases h
  | .present _ _, hp, _, _, _, _ => by cases hp with | optional h => rw [ho] at h; cases h
  | .repeated _ _ _ _, hp, _, _, _, _ => by cases hp
end

end Setting

omit [Unicode] in
mutual
/-- What matches with fewer integers matches with more. -/
theorem matches_mono {ints ints' : Int → Prop} (h : ∀ v, ints v → ints' v) {n : Node} {d : Data} : Matches ints rules n d →
    Matches ints' rules n d
  | .bool hk => .bool hk
  | .tstr hk => .tstr hk
  | .bytes hk => .bytes hk
  | .null hk => .null hk
  | .int hk hv => .int hk (h _ hv)
  | .uint hk h0 hv => .uint hk h0 hv
  | .intLit => .intLit
  | .boolLit => .boolLit
  | .textLit => .textLit
  | .sizeInt hm h0 hv => .sizeInt (matches_mono h hm) h0 hv
  | .sizeText hm hv => .sizeText (matches_mono h hm) hv
  | .sizeBytes hm hv => .sizeBytes (matches_mono h hm) hv
  | .name hr hn hm => .name hr hn (matches_mono h hm)
  | .array hf => .array (fills_mono h hf)
theorem fills_mono {ints ints' : Int → Prop} (h : ∀ v, ints v → ints' v) {es : List Node} {items : List Data} :
    Fills ints rules es items → Fills ints' rules es items
  | .nil => .nil
  | .entry hm hf => .entry (matches_mono h hm) (fills_mono h hf)
  | .type hm hf => .type (matches_mono h hm) (fills_mono h hf)
  | .group hr hn hg hf => .group hr hn (fills_mono h hg) (fills_mono h hf)
  | .alias hr hn hg hf => .alias hr hn (fills_mono h hg) (fills_mono h hf)
  | .absent hf => .absent (fills_mono h hf)
  | .present hg hf => .present (fills_mono h hg) (fills_mono h hf)
  | .repeated ha hb hg hf => .repeated ha hb (fills_mono h hg) (fills_mono h hf)
end

end
end Cddlc
