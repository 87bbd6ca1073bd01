import Verif.Lemmas.GoName
import Verif.Spec.Walk

/-! What `transpileNode` does: it yields the expression of `Denotes`, or it fails. -/

namespace Cddlc
open Spec

theorem Act.bind_ok {σ α β : Type} {a : Act σ α} {f : α → Act σ β} {s s' : σ} {x : α}
    (h : a s = (s', .ok x)) : Act.bind a f s = f x s' := by
  unfold Act.bind; rw [h]

theorem Act.bind_snd {σ α β : Type} {a : Act σ α} {f : α → Act σ β} {s : σ} {x : α}
    (h : (a s).2 = .ok x) : Act.bind a f s = f x (a s).1 :=
  Act.bind_ok (Prod.ext rfl h)

theorem Act.bind_panic {σ α β : Type} {a : Act σ α} {f : α → Act σ β} {s : σ}
    (h : (a s).2.isPanic = true) : (Act.bind a f s).2.isPanic = true := by
  unfold Act.bind
  split
  · rename_i h0; rw [h0] at h; cases h
  · rfl
  · rename_i h0; rw [h0] at h; cases h

theorem Act.bind_assoc_apply {σ α β γ : Type} (a : Act σ α) (f : α → Act σ β) (k : β → Act σ γ) (s : σ) :
    Act.bind (Act.bind a f) k s = Act.bind a (fun x => Act.bind (f x) k) s := by
  unfold Act.bind
  rcases a s with ⟨_, _ | _ | _⟩ <;> rfl

/-- The generator with `k` more imports of the validators. -/
def Generator.sized (k : Nat) (g : Generator) : Generator :=
  { g with imports := g.imports ++
      List.replicate k ⟨none, b!"\"github.com/HannesKimara/cddlc/runtime/validators\""⟩ }

theorem sized_zero (g : Generator) : g.sized 0 = g := by simp [Generator.sized]

theorem sized_sized (a b : Nat) (g : Generator) : (g.sized a).sized b = g.sized (a + b) := by
  simp [Generator.sized, List.replicate_append_replicate]

/-- The call did not yield an expression or a field. -/
def Fails (r : Generator × Out Made) : Prop :=
  r.2.isPanic = true ∨ r.2 = .ok (.error ()) ∨ ∃ t, r.2 = .ok (made (.comment t))

/-- The call did not yield fields. -/
def FieldsFail (r : Generator × Out Fields) : Prop :=
  r.2.isPanic = true ∨ r.2 = .ok (.error ()) ∨ r.2 = .ok (.ok none)

variable [Unicode]

/-- `transpileNode` on a node that has an expression. -/
def RunsExpr (lib : GoLib) (n : Node) : Prop :=
  ∃ e, Denotes lib n e ∧ (∀ e', Denotes lib n e' → e' = e) ∧
    ∀ g, transpileNode lib n g = (g.sized (sizeControls n), .ok (.ok (some ⟨.expr e, checks n⟩)))

/-- `transpileNode` on an entry that has a field. -/
def RunsField (lib : GoLib) (n : Node) : Prop :=
  ∃ p i v c m e, n = .entry p i v c ∧ Named lib i m ∧ (∀ m', Named lib i m' → m' = m) ∧
    Denotes lib v e ∧ (∀ e', Denotes lib v e' → e' = e) ∧
    ∀ g, transpileNode lib n g =
      (g.sized (sizeControls v), .ok (.ok (some ⟨.field (.mk [m] e none), checks v⟩)))

/-- `transpileNode` on any other node. -/
def RunsFail (lib : GoLib) (n : Node) : Prop :=
  (∀ e, ¬ Denotes lib n e) ∧ (∀ q t f, ¬ DenotesField lib (.optional q t n) f) ∧
    ∀ g, Fails (transpileNode lib n g)

def Runs (lib : GoLib) (n : Node) : Prop := RunsExpr lib n ∨ RunsField lib n ∨ RunsFail lib n

/-- `transpileGroupLike` yields the fields, or fails. -/
def RunsFields (lib : GoLib) (es : List Node) : Prop :=
  (∃ fs, DenotesFields lib es fs ∧ (∀ fs', DenotesFields lib es fs' → fs' = fs) ∧
    ∀ g, transpileGroupLike lib es g =
      (g.sized ((subsList es).filter fun x => x.kind = .size).length, .ok (.ok (some fs)))) ∨
  ((∀ fs, ¬ DenotesFields lib es fs) ∧ ∀ g, FieldsFail (transpileGroupLike lib es g))

theorem runsFields_nil (lib : GoLib) : RunsFields lib [] :=
  Or.inl ⟨[], .nil, fun fs h => by cases h; rfl, fun g => by
    rw [transpileGroupLike]; simp only [subsList, List.filter_nil, List.length_nil, sized_zero]; rfl⟩

/-- One more entry that yields a field `f`, after `k` imports. -/
theorem runsFields_cons {lib : GoLib} {e : Node} {rest : List Node} {f : GoField} {k : Nat}
    {a : Act Generator GoField} (hf : DenotesField lib e f) (hu : ∀ f', DenotesField lib e f' → f' = f)
    (ha : ∀ g, a g = (g.sized k, .ok f))
    (hk : ((subs e).filter fun x => x.kind = .size).length = k)
    (hs : ∀ g, transpileGroupLike lib (e :: rest) g =
      Act.bind a (fun f => Act.bind (transpileGroupLike lib rest) fun fs => .ret (fs.cons f)) g)
    (hr : RunsFields lib rest) : RunsFields lib (e :: rest) := by
  rcases hr with ⟨fs, h1, h2, h3⟩ | ⟨h1, h2⟩
  · refine Or.inl ⟨f :: fs, .cons hf h1, ?_, fun g => ?_⟩
    · rintro _ (_ | ⟨h4, h5⟩)
      rw [hu _ h4, h2 _ h5]
    · rw [hs, Act.bind_ok (ha g), Act.bind_ok (h3 _), sized_sized, subsList, List.filter_append,
        List.length_append, hk]
      rfl
  · refine Or.inr ⟨fun fs h => ?_, fun g => ?_⟩
    · cases h with
      | cons _ h5 => exact h1 _ h5
    · rw [hs, Act.bind_ok (ha g)]
      rcases h2 (g.sized k) with h | h | h
      · exact Or.inl (Act.bind_panic h)
      · rw [Act.bind_snd h]
        exact Or.inr (Or.inl rfl)
      · rw [Act.bind_snd h]
        exact Or.inr (Or.inr rfl)

/-- An entry that yields no field. -/
theorem runsFields_fail {lib : GoLib} {e : Node} {rest : List Node}
    (hf : ∀ f, ¬ DenotesField lib e f) (hs : ∀ g, FieldsFail (transpileGroupLike lib (e :: rest) g)) :
    RunsFields lib (e :: rest) := by
  refine Or.inr ⟨fun fs h => ?_, hs⟩
  cases h with
  | cons h4 _ => exact hf _ h4

section
variable {lib : GoLib}

theorem leaf_expr {n : Node} {e : GoExpr} (h1 : Denotes lib n e) (h2 : ∀ e', Denotes lib n e' → e' = e)
    (h3 : transpileNode lib n = .ret (made (.expr e))) (h4 : checks n = [])
    (h5 : sizeControls n = 0) : Runs lib n :=
  Or.inl ⟨e, h1, h2, fun g => by rw [h3, h4, h5, sized_zero]; rfl⟩

theorem no_optional {n : Node} (h : n.kind ≠ .entry) (q t f) : ¬ DenotesField lib (.optional q t n) f := by
  rintro (_ | _); exact h rfl

theorem leaf_fail {n : Node} (h1 : ∀ e, ¬ Denotes lib n e) (h2 : n.kind ≠ .entry)
    (h3 : ∀ g, Fails (transpileNode lib n g)) : Runs lib n :=
  Or.inr (Or.inr ⟨h1, no_optional h2, h3⟩)

/-- An occurrence, given its item. -/
theorem occurrence {p t a b i} (h : Runs lib i) :
    (∃ e, Denotes lib i e ∧ (∀ e', Denotes lib i e' → e' = e) ∧
      ∀ g, Act.bind (transpileNode lib i) occurrenceArray g = (g.sized (sizeControls i), .ok (.array e))) ∨
    ((∀ e, ¬ Denotes lib i e) ∧ (∀ f, ¬ DenotesField lib (.nm p t a b i) f) ∧
      ∀ g, (Act.bind (transpileNode lib i) occurrenceArray g).2.isPanic = true) := by
  rcases h with ⟨e, h1, h2, h3⟩ | ⟨p', i', v, c, m, e, rfl, h1, _, h2, _, h3⟩ | ⟨h1, _, h3⟩
  · exact Or.inl ⟨e, h1, h2, fun g => by rw [Act.bind_ok (h3 g)]; rfl⟩
  · refine Or.inr ⟨?_, ?_, fun g => by rw [Act.bind_ok (h3 g)]; rfl⟩
    · rintro e (h | h | h | h | h | h | _ | _ | _ | _ | _ | _ | _ | _ | _ | _) <;> cases h
    · rintro f (_ | _ | _ | h)
      rcases h with (h | h | h | h | h | h | _ | _ | _ | _ | _ | _ | _ | _ | _ | _) <;> cases h
  · refine Or.inr ⟨h1, ?_, fun g => ?_⟩
    · rintro f (_ | _ | _ | h)
      exact h1 _ h
    · rcases h3 g with h | h | ⟨t, h⟩
      · exact Act.bind_panic h
      · rw [Act.bind_snd h]; rfl
      · rw [Act.bind_snd h]; rfl

/-- The field of an entry, given what `transpileNode` does with the entry or item. -/
theorem runs_field {n : Node} {rest : List Node} (hn : Runs lib n)
    (hi : ∀ q t i, n = .optional q t i → Runs lib i)
    (hm : ∀ p t a b i, n = .nm p t a b i → Runs lib i)
    (hr : RunsFields lib rest) : RunsFields lib (n :: rest) := by
  cases n
  case entry p i v c =>
    have hs : ∀ g, transpileGroupLike lib (.entry p i v c :: rest) g =
        Act.bind (transpileNode lib (.entry p i v c)) (fun r => Act.bind (.orPanic r) fun s =>
          Act.bind (.deref s) fun s => Act.bind (.asField s.node) fun f =>
          Act.bind (transpileGroupLike lib rest) fun fs => .ret (fs.cons f)) g := by
      intro g; rw [transpileGroupLike, transpileNode]
    rcases hn with ⟨e, h, _⟩ | ⟨_, _, _, _, m, e, he, h1, h2, h3, h4, h5⟩ | ⟨h1, h2, h3⟩
    · rcases h with (h | h | h | h | h | h | _ | _ | _ | _ | _ | _ | _ | _ | _ | _) <;> cases h
    · cases he
      refine runsFields_cons (a := fun g => (g.sized (sizeControls v), .ok (.mk [m] e none)))
        (.entry h1 h3) ?_ (fun g => rfl) ?_ (fun g => ?_) hr
      · rintro _ ⟨h6, h7⟩
        rw [h2 _ h6, h4 _ h7]
      · simp [subs, Node.kind, sizeControls]
      · rw [hs, Act.bind_ok (h5 g)]; rfl
    · refine runsFields_fail (fun f h => ?_) fun g => Or.inl ?_
      · cases h with
        | entry h4 h5 => exact h2 default default _ (.optional h4 h5)
      · rw [hs]
        rcases h3 g with h | h | ⟨t, h⟩
        · exact Act.bind_panic h
        · rw [Act.bind_snd h]; rfl
        · rw [Act.bind_snd h]; rfl
  case optional q t i =>
    have hi := hi q t i rfl
    have hs : ∀ g, transpileGroupLike lib (.optional q t i :: rest) g =
        Act.bind (transpileNode lib i) (fun r =>
          match r with
          | .error e => .ret (.error e)
          | .ok s => Act.bind (.deref s) fun s =>
            match optionalField s with
            | none => .ret (.ok none)
            | some f => Act.bind (transpileGroupLike lib rest) fun fs => .ret (fs.cons f)) g := by
      intro g; rw [transpileGroupLike]; rfl
    rcases hi with ⟨e, h1, h2, h3⟩ | ⟨p, i', v, c, m, e, rfl, h1, h2, h3, h4, h5⟩ | ⟨h1, h2, h3⟩
    · refine runsFields_fail (fun f h => ?_) fun g => Or.inr (Or.inr ?_)
      · cases h with
        | optional => rcases h1 with (h | h | h | h | h | h | _ | _ | _ | _ | _ | _ | _ | _ | _ | _) <;> cases h
      · rw [hs, Act.bind_ok (h3 g)]; rfl
    · refine runsFields_cons (a := fun g => (g.sized (sizeControls v), .ok (.mk [m] e (some omitEmpty))))
        (.optional h1 h3) ?_ (fun g => rfl) ?_ (fun g => ?_) hr
      · intro f h
        cases h with
        | optional h6 h7 => rw [h2 _ h6, h4 _ h7]
      · simp [subs, Node.kind, sizeControls]
      · rw [hs, Act.bind_ok (h5 g)]; rfl
    · refine runsFields_fail (fun f h => h2 _ _ _ h) fun g => ?_
      rw [hs]
      rcases h3 g with h | h | ⟨t, h⟩
      · exact Or.inl (Act.bind_panic h)
      · rw [Act.bind_snd h]; exact Or.inr (Or.inl rfl)
      · rw [Act.bind_snd h]; exact Or.inr (Or.inr rfl)
  case ident i =>
    have hs : ∀ g, transpileGroupLike lib (.ident i :: rest) g =
        Act.bind (.name lib i) (fun n => Act.bind (transpileGroupLike lib rest) fun fs =>
          .ret (fs.cons (.mk [] (.ident n) none))) g := by
      intro g; rw [transpileGroupLike]
    have hd : ∀ e, Denotes lib (.ident i) e ↔ ∃ n, e = .ident n ∧ Named lib i n := by
      intro e
      constructor
      · rintro (h | h | h | h | h | h | _ | _ | _ | _ | _ | h | _ | _ | _ | _)
        all_goals first | (cases h; done) | exact ⟨_, rfl, h⟩
      · rintro ⟨n, rfl, h⟩; exact .ident h
    rcases hn with ⟨e, h1, h2, h3⟩ | ⟨_, _, _, _, _, _, he, _⟩ | ⟨h1, h2, h3⟩
    · obtain ⟨n, rfl, h4⟩ := (hd _).1 h1
      have ht : transpileIdentifier lib i = .ok n := by
        have := h3 ⟨[], [], ⟨[], [], []⟩⟩
        rw [transpileNode] at this
        unfold Act.bind Act.name at this
        cases hx : transpileIdentifier lib i with
        | ok m =>
          rw [hx] at this
          injection this with _ h; injection h with h; injection h with h; injection h with h
          injection h with h _; injection h with h; injection h with h
          rw [h]
        | panic w => rw [hx] at this; injection this with _ h; cases h
        | hang => rw [hx] at this; injection this with _ h; cases h
      refine runsFields_cons (a := fun g => (g, .ok (.mk [] (.ident n) none))) (.ident h4) ?_
        (fun g => by rw [sized_zero]) (by simp [subs, Node.kind]) (fun g => ?_) hr
      · rintro _ (_ | _ | h | _)
        have := h2 _ (.ident h)
        injection this with this; rw [this]
      · rw [hs]; unfold Act.bind Act.name; rw [ht]
    · cases he
    · refine runsFields_fail (fun f h => ?_) fun g => Or.inl ?_
      · cases h with
        | ident h => exact h1 _ (.ident h)
      · rw [hs]
        apply Act.bind_panic
        show (transpileIdentifier lib i).isPanic = true
        have := h3 g
        rw [transpileNode] at this
        unfold Act.bind Act.name at this
        cases hx : transpileIdentifier lib i with
        | ok m => rw [hx] at this; rcases this with h | h | ⟨t, h⟩ <;> cases h
        | panic w => rfl
        | hang => rw [hx] at this; rcases this with h | h | ⟨t, h⟩ <;> cases h
  case nm p t a b i =>
    have hs : ∀ g, transpileGroupLike lib (.nm p t a b i :: rest) g =
        Act.bind (Act.bind (transpileNode lib i) occurrenceArray) (fun e =>
          Act.bind (transpileGroupLike lib rest) fun fs => .ret (fs.cons (.mk [] e none))) g := by
      intro g; rw [transpileGroupLike]
    rcases occurrence (p := p) (t := t) (a := a) (b := b) (hm p t a b i rfl) with
      ⟨e, h1, h2, h3⟩ | ⟨h1, h2, h3⟩
    · refine runsFields_cons (a := fun g => (g.sized (sizeControls i), .ok (.mk [] (.array e) none)))
        (.nm h1) ?_ (fun g => rfl) ?_ (fun g => ?_) hr
      · rintro _ (_ | _ | _ | h)
        rw [h2 _ h]
      · simp [subs, Node.kind, sizeControls]
      · rw [hs, Act.bind_ok (h3 g)]; rfl
    · exact runsFields_fail h2 fun g => by rw [hs]; exact Or.inl (Act.bind_panic (h3 g))
  case typedNil k =>
    refine runsFields_fail (fun f h => by cases h) fun g => Or.inl ?_
    cases k <;> rfl
  all_goals exact runsFields_fail (fun f h => by cases h) fun g => Or.inl rfl

theorem runsFields_of {es : List Node} (h : ∀ e ∈ es, Runs lib e)
    (hi : ∀ e ∈ es, ∀ q t i, e = .optional q t i → Runs lib i)
    (hm : ∀ e ∈ es, ∀ p t a b i, e = .nm p t a b i → Runs lib i) : RunsFields lib es := by
  induction es with
  | nil => exact runsFields_nil lib
  | cons e es ih =>
    exact runs_field (h e (List.mem_cons_self ..)) (hi e (List.mem_cons_self ..))
      (hm e (List.mem_cons_self ..))
      (ih (fun x hx => h x (List.mem_cons_of_mem _ hx)) (fun x hx => hi x (List.mem_cons_of_mem _ hx))
        fun x hx => hm x (List.mem_cons_of_mem _ hx))

theorem runs_nil : Runs lib .nil :=
  leaf_fail (fun e h => by
    rcases h with (h | h | h | h | h | h | _ | _ | _ | _ | _ | _ | _ | _ | _ | _) <;> cases h)
    (by decide) fun g => Or.inr (Or.inl rfl)

omit [Unicode] in
theorem fails_bind {a : Act Generator Made} {f : Made → Act Generator Made} {g : Generator}
    (h : Fails (a g)) (h1 : ∀ g, Fails (f (.error ()) g)) (h2 : ∀ t g, Fails (f (made (.comment t)) g)) :
    Fails (Act.bind a f g) := by
  rcases h with h | h | ⟨t, h⟩
  · exact Or.inl (Act.bind_panic h)
  · rw [Act.bind_snd h]; exact h1 _
  · rw [Act.bind_snd h]; exact h2 _ _

theorem bstr_panics {n : Node} (h : n.kind = .bstr) (g : Generator) :
    (transpileNode lib n g).2.isPanic = true := by
  cases n
  case typedNil k => cases k <;> first | (cases h; done) | rfl
  all_goals first | (cases h; done) | rfl

theorem runs_size {p t s ty} (h : Runs lib ty) : Runs lib (.size p t s ty) := by
  have hs : ∀ g, transpileNode lib (.size p t s ty) g = Act.bind (sizeLiteral s) (fun size =>
      Act.bind (transpileNode lib ty) fun r =>
        match r with
        | .error e => .ret (.error e)
        | .ok s => Act.bind (.deref s) fun s => sizeValidator ty.kind size { node := s.node }) g := by
    intro g; rw [transpileNode]; rfl
  have hno : (∀ q u v, s ≠ .intLit q u v) → ∀ e, ¬ Denotes lib (.size p t s ty) e := by
    intro hq e h
    rcases h with (h | h | h | h | h | h | _ | _ | _ | _ | _ | _ | _ | h | _ | _)
    all_goals first | (cases h; done) | exact hq _ _ _ rfl
  have none_fails : ∀ g, Fails (Act.bind (transpileNode lib ty) (fun r =>
        match r with
        | .error e => .ret (.error e)
        | .ok s => Act.bind (.deref s) fun s => sizeValidator ty.kind none { node := s.node }) g) := by
    have sv : ∀ st g, Fails (sizeValidator ty.kind none st g) := by
      intro st g; unfold sizeValidator; split <;> exact Or.inl rfl
    intro g
    rcases h with ⟨e, h1, h2, h3⟩ | ⟨_, _, _, _, m, e, _, _, _, _, _, h3⟩ | ⟨h1, _, h3⟩
    · rw [Act.bind_ok (h3 g)]; exact sv { node := .expr e } _
    · rw [Act.bind_ok (h3 g)]; exact sv { node := .field (.mk [m] e none) } _
    · exact fails_bind (h3 g) (fun g => Or.inr (Or.inl rfl)) fun t g =>
        sv { node := .comment t } _
  have other : sizeLiteral s = .ret none → (∀ q u v, s ≠ .intLit q u v) → Runs lib (.size p t s ty) := by
    intro h1 h2
    refine leaf_fail (hno h2) (by intro h; cases h) fun g => ?_
    rw [hs, h1]; exact none_fails g
  cases s
  case intLit q u v =>
    have hs : ∀ g, transpileNode lib (.size p t (.intLit q u v) ty) g = Act.bind (transpileNode lib ty) (fun r =>
        match r with
        | .error e => .ret (.error e)
        | .ok s => Act.bind (.deref s) fun s => sizeValidator ty.kind (some v) { node := s.node }) g :=
      fun g => by rw [hs]; rfl
    rcases h with ⟨e, h1, h2, h3⟩ | ⟨_, _, _, _, _, _, rfl, _, _, _, _, h3⟩ | ⟨h1, h2, h3⟩
    · by_cases hk : ty.kind ∈ [NodeKind.uintType, .bytes, .tstr]
      · refine Or.inl ⟨e, .size hk h1, fun e' h => ?_, fun g => ?_⟩
        · rcases h with (h | h | h | h | h | h | _ | _ | _ | _ | _ | _ | _ | ⟨_, h⟩ | _ | _)
          all_goals first | (cases h; done) | rw [h2 _ h]
        · rw [hs, Act.bind_ok (h3 g)]
          have hc : sizeControls (.size p t (.intLit q u v) ty) = sizeControls ty + 1 := by
            simp [sizeControls, subs, Node.kind]
          rw [hc, ← sized_sized]
          simp only [List.mem_cons, List.not_mem_nil, or_false] at hk
          show sizeValidator ty.kind (some v) _ _ = _
          rcases hk with hk | hk | hk <;> rw [hk] <;> rfl
      · refine leaf_fail (fun e' h => ?_) (by intro h; cases h) fun g => Or.inl ?_
        · rcases h with (h | h | h | h | h | h | _ | _ | _ | _ | _ | _ | _ | ⟨h, _⟩ | _ | _)
          all_goals first | (cases h; done) | exact hk h
        · rw [hs, Act.bind_ok (h3 g)]
          show (sizeValidator ty.kind (some v) _ _).2.isPanic = true
          unfold sizeValidator
          split
          · rename_i h; exact absurd (by rw [h]; decide) hk
          · rename_i h
            rcases h1 with (h' | h' | h' | h' | h' | h' | _ | _ | _ | _ | _ | _ | _ | _ | _ | _)
            all_goals first | (cases h; done) | (rw [h] at h'; cases h')
          · rename_i h; exact absurd (by rw [h]; decide) hk
          · rename_i h; exact absurd (by rw [h]; decide) hk
          · rfl
    · refine leaf_fail (fun e' h => ?_) (by intro h; cases h) fun g => Or.inl ?_
      · rcases h with (h | h | h | h | h | h | _ | _ | _ | _ | _ | _ | _ | ⟨h, _⟩ | _ | _)
        all_goals first | (cases h; done) | simp [Node.kind] at h
      · rw [hs, Act.bind_ok (h3 g)]; rfl
    · refine leaf_fail (fun e' h => ?_) (by intro h; cases h) fun g => ?_
      · rcases h with (h | h | h | h | h | h | _ | _ | _ | _ | _ | _ | _ | ⟨_, h⟩ | _ | _)
        all_goals first | (cases h; done) | exact h1 _ h
      · rw [hs]
        by_cases hb : ty.kind = .bstr
        · refine Or.inl (Act.bind_panic ?_)
          exact bstr_panics hb g
        refine fails_bind (h3 g) (fun g => Or.inr (Or.inl rfl)) fun t g => ?_
        show Fails (sizeValidator ty.kind (some v) _ _)
        unfold sizeValidator
        split
        · rename_i h; exact absurd (.uint h) (h1 _)
        · rename_i h; exact absurd h hb
        · rename_i h; exact absurd (.bytes h) (h1 _)
        · rename_i h; exact absurd (.tstr h) (h1 _)
        · exact Or.inl rfl
  case ident i =>
    exact leaf_fail (hno (fun _ _ _ h => by cases h)) (by intro h; cases h) fun g => by
      rw [hs]; exact Or.inl rfl
  case typedNil k =>
    cases k
    case ident =>
      exact leaf_fail (hno (fun _ _ _ h => by cases h)) (by intro h; cases h) fun g => by
        rw [hs]; exact Or.inl rfl
    all_goals exact other rfl (fun _ _ _ h => by cases h)
  all_goals exact other rfl (fun _ _ _ h => by cases h)

/-- `transpileNode` yields the expression or field of its node, or fails if there is none. -/
theorem runs_items (hU : NoReplacement) (n : Node) :
    Runs lib n ∧ (∀ q t i, n = .optional q t i → Runs lib i) ∧
      (∀ p t a b i, n = .nm p t a b i → Runs lib i) := by
  induction n using tree_ind with
  | h n ih =>
  have kid : ∀ k, (k.isNil = false → k ∈ kids n) → Runs lib k := by
    intro k hk
    by_cases h : k.isNil = true
    · cases k <;> first | (cases h; done) | exact runs_nil
    · exact (ih k (hk (by simpa using h))).1
  refine ⟨?_, ?_, ?_⟩
  rotate_left
  · rintro q t i rfl
    exact kid i fun h => by simp [kids, kids.present, h]
  · rintro p t a b i rfl
    exact kid i fun h => by simp [kids, kids.present, h]
  cases n
  case nil => exact runs_nil
  case typedNil k =>
    cases k
    case boolType | tstr | bytes | null | intType | uintType =>
      refine leaf_expr (by first | exact .bool rfl | exact .tstr rfl | exact .bytes rfl | exact .null rfl | exact .int rfl | exact .uint rfl) (fun e h => ?_) rfl rfl rfl
      rcases h with (h | h | h | h | h | h | _ | _ | _ | _ | _ | _ | _ | _ | _ | _) <;>
        first | rfl | (cases h; done)
    all_goals
      refine Or.inr (Or.inr ⟨fun e h => ?_, fun q t f h => ?_, fun g => Or.inl rfl⟩)
      · rcases h with (h | h | h | h | h | h | _ | _ | _ | _ | _ | _ | _ | _ | _ | _) <;> cases h
      · cases h
  case boolType | tstr | bytes | null | intType | uintType | intLit | textLit | floatLit =>
    refine leaf_expr (by first | exact .bool rfl | exact .tstr rfl | exact .bytes rfl | exact .null rfl | exact .int rfl | exact .uint rfl | exact .intLit | exact .textLit | exact .floatLit) (fun e h => ?_) rfl rfl rfl
    rcases h with (h | h | h | h | h | h | _ | _ | _ | _ | _ | _ | _ | _ | _ | _) <;>
      first | rfl | (cases h; done)
  case boolLit p b =>
    cases b
    · refine leaf_expr .false (fun e h => ?_) rfl rfl rfl
      rcases h with (h | h | h | h | h | h | _ | _ | _ | _ | _ | _ | _ | _ | _ | _) <;>
        first | rfl | (cases h; done)
    · refine leaf_expr .true (fun e h => ?_) rfl rfl rfl
      rcases h with (h | h | h | h | h | h | _ | _ | _ | _ | _ | _ | _ | _ | _ | _) <;>
        first | rfl | (cases h; done)
  case ident i =>
    rcases transpile_cases hU lib i with ⟨n, h1, h2⟩ | ⟨h1, h2⟩
    · refine Or.inl ⟨.ident n, .ident ((h2 n).2 rfl), fun e h => ?_, fun g => ?_⟩
      · rcases h with (h | h | h | h | h | h | _ | _ | _ | _ | _ | h | _ | _ | _ | _)
        all_goals first | (cases h; done) | rw [(h2 _).1 h]
      · rw [transpileNode]
        unfold Act.bind Act.name
        rw [h1, show sizeControls (.ident i) = 0 from rfl, sized_zero]; rfl
    · refine leaf_fail (fun e h => ?_) (by intro h; cases h) fun g => Or.inl ?_
      · rcases h with (h | h | h | h | h | h | _ | _ | _ | _ | _ | h | _ | _ | _ | _)
        all_goals first | (cases h; done) | exact h2 _ h
      · rw [transpileNode]
        unfold Act.bind Act.name
        rw [h1]; rfl
  case entry p i v c =>
    have hv := kid v fun h => by simp [kids, kids.present, h]
    have hs : ∀ g, transpileNode lib (.entry p i v c) g = Act.bind (.name lib i) (fun ident =>
        Act.bind (transpileNode lib v) (entryField ident)) g := fun g => by rw [transpileNode]
    have hno : ∀ e, ¬ Denotes lib (.entry p i v c) e := by
      rintro e (h | h | h | h | h | h | _ | _ | _ | _ | _ | _ | _ | _ | _ | _) <;> cases h
    rcases transpile_cases hU lib i with ⟨n, h1, h2⟩ | ⟨h1, h2⟩
    · have hs : ∀ g, transpileNode lib (.entry p i v c) g =
          Act.bind (transpileNode lib v) (entryField n) g := by
        intro g
        rw [hs, Act.bind_ok (show Act.name lib i g = (g, .ok n) by unfold Act.name; rw [h1])]
      rcases hv with ⟨e, h3, h4, h5⟩ | ⟨_, _, _, _, _, _, rfl, _, _, _, _, h5⟩ | ⟨h3, h4, h5⟩
      · exact Or.inr (Or.inl ⟨p, i, v, c, n, e, rfl, (h2 n).2 rfl, fun m h => (h2 m).1 h, h3, h4,
          fun g => by rw [hs, Act.bind_ok (h5 g)]; rfl⟩)
      · refine Or.inr (Or.inr ⟨hno, fun q t f h => ?_, fun g => Or.inl ?_⟩)
        · cases h with
          | optional _ h =>
            rcases h with (h | h | h | h | h | h | _ | _ | _ | _ | _ | _ | _ | _ | _ | _) <;> cases h
        · rw [hs, Act.bind_ok (h5 g)]; rfl
      · refine Or.inr (Or.inr ⟨hno, fun q t f h => ?_, fun g => ?_⟩)
        · cases h with
          | optional _ h => exact h3 _ h
        · rw [hs]
          rcases h5 g with h | h | ⟨t, h⟩
          · exact Or.inl (Act.bind_panic h)
          · rw [Act.bind_snd h]; exact Or.inr (Or.inl rfl)
          · rw [Act.bind_snd h]; exact Or.inl rfl
    · refine Or.inr (Or.inr ⟨hno, fun q t f h => ?_, fun g => Or.inl ?_⟩)
      · cases h with
        | optional h _ => exact h2 _ h
      · rw [hs]; apply Act.bind_panic; unfold Act.name; rw [h1]; rfl
  case nm p t a b i =>
    have hs : ∀ g, transpileNode lib (.nm p t a b i) g =
        Act.bind (Act.bind (transpileNode lib i) occurrenceArray) (fun e => .ret (made (.expr e))) g :=
      fun g => by rw [transpileNode]
    rcases occurrence (p := p) (t := t) (a := a) (b := b)
      (kid i fun h => by simp [kids, kids.present, h]) with ⟨e, h1, h2, h3⟩ | ⟨h1, h2, h3⟩
    · refine Or.inl ⟨.array e, .nm h1, fun e' h => ?_, fun g => ?_⟩
      · rcases h with (h | h | h | h | h | h | _ | _ | _ | _ | _ | _ | h | _ | _ | _)
        all_goals first | (cases h; done) | rw [h2 _ h]
      · rw [hs, Act.bind_ok (h3 g)]
        simp only [sizeControls, subs, List.filter_cons, Node.kind]
        rfl
    · refine leaf_fail (fun e h => ?_) (by intro h; cases h) fun g => Or.inl ?_
      · rcases h with (h | h | h | h | h | h | _ | _ | _ | _ | _ | _ | h | _ | _ | _)
        all_goals first | (cases h; done) | exact h1 _ h
      · rw [hs]; exact Act.bind_panic (h3 g)
  case group p es =>
    have hf : RunsFields lib es := runsFields_of (fun e he => (ih e he).1) (fun e he => (ih e he).2.1)
      fun e he => (ih e he).2.2
    have hs : ∀ g, transpileNode lib (.group p es) g =
        Act.bind (transpileGroupLike lib es) (fun r => groupStruct r.made) g := fun g => by rw [transpileNode]
    rcases hf with ⟨fs, h1, h2, h3⟩ | ⟨h1, h2⟩
    · refine Or.inl ⟨.struct fs, .group h1, fun e' h => ?_, fun g => ?_⟩
      · rcases h with (h | h | h | h | h | h | _ | _ | _ | _ | _ | _ | _ | _ | h | _)
        all_goals first | (cases h; done) | rw [h2 _ h]
      · rw [hs, Act.bind_ok (h3 g)]
        simp only [sizeControls, subs, List.filter_cons, Node.kind]
        rfl
    · refine leaf_fail (fun e h => ?_) (by intro h; cases h) fun g => ?_
      · rcases h with (h | h | h | h | h | h | _ | _ | _ | _ | _ | _ | _ | _ | h | _)
        all_goals first | (cases h; done) | exact h1 _ h
      · rw [hs]
        rcases h2 g with h | h | h
        · exact Or.inl (Act.bind_panic h)
        · rw [Act.bind_snd h]; exact Or.inr (Or.inl rfl)
        · rw [Act.bind_snd h]; exact Or.inl rfl
  case array p es =>
    have hf : RunsFields lib es := runsFields_of (fun e he => (ih e he).1) (fun e he => (ih e he).2.1)
      fun e he => (ih e he).2.2
    have hs : ∀ g, transpileNode lib (.array p es) g =
        Act.bind (transpileGroupLike lib es) (fun r => arrayStruct r.made) g := fun g => by rw [transpileNode]
    rcases hf with ⟨fs, h1, h2, h3⟩ | ⟨h1, h2⟩
    · refine Or.inl ⟨.struct (toArrayField :: fs), .array h1, fun e' h => ?_, fun g => ?_⟩
      · rcases h with (h | h | h | h | h | h | _ | _ | _ | _ | _ | _ | _ | _ | _ | h)
        all_goals first | (cases h; done) | (rw [h2 _ h]; rfl)
      · rw [hs, Act.bind_ok (h3 g)]
        simp only [sizeControls, subs, List.filter_cons, Node.kind]
        rfl
    · refine leaf_fail (fun e h => ?_) (by intro h; cases h) fun g => ?_
      · rcases h with (h | h | h | h | h | h | _ | _ | _ | _ | _ | _ | _ | _ | _ | h)
        all_goals first | (cases h; done) | exact h1 _ h
      · rw [hs]
        rcases h2 g with h | h | h
        · exact Or.inl (Act.bind_panic h)
        · rw [Act.bind_snd h]; exact Or.inr (Or.inl rfl)
        · rw [Act.bind_snd h]; exact Or.inl rfl
  case size p t s ty => exact runs_size (kid ty fun h => by simp [kids, kids.present, h])
  all_goals
    refine Or.inr (Or.inr ⟨fun e h => ?_, fun q t f h => ?_, fun g => ?_⟩)
    · rcases h with (h | h | h | h | h | h | _ | _ | _ | _ | _ | _ | _ | _ | _ | _) <;> cases h
    · cases h
    · first | exact Or.inl rfl | exact Or.inr (Or.inr ⟨_, rfl⟩)

/-- The generator with more declarations. -/
def Generator.declaring (ds : List GoDecl) (g : Generator) : Generator :=
  { g with file := { g.file with decls := g.file.decls ++ ds } }

omit [Unicode] in
theorem declaring_nil (g : Generator) : g.declaring [] = g := by simp [Generator.declaring]

omit [Unicode] in
theorem declaring_comm (g : Generator) (k : Nat) (ds es : List GoDecl) :
    ((g.declaring ds).sized k).declaring es = (g.sized k).declaring (ds ++ es) := by
  simp [Generator.declaring, Generator.sized]

omit [Unicode] in
theorem sized_declaring (g : Generator) (j k : Nat) (ds es : List GoDecl) :
    (((g.sized j).declaring ds).sized k).declaring es = (g.sized (j + k)).declaring (ds ++ es) := by
  rw [declaring_comm, sized_sized]

/-- The method of a rule. -/
def validMethod (lib : GoLib) (i : Ident) (n : Bytes) (body : List GoStmt) : GoDecl :=
  .method (b!"\n// Valid evaluates type constraints on " ++ i.name ++
      b!" and returns nil if valid \n// else it returns a list of validation errors")
    (lib.toLower i.name) n b!"Valid" [b!"error"] body

omit [Unicode] in
theorem validatorStmts_checks (v : Node) : validatorStmts (checks v) = (checks v).map .expr := by
  unfold checks; split <;> rfl

/-- `Visit` of a rule. -/
theorem visitRule_cases (hU : NoReplacement) (lib : GoLib) (i : Ident) (v : Node) :
    (∃ n e, Named lib i n ∧ Denotes lib v e ∧ (∀ n', Named lib i n' → n' = n) ∧
      (∀ e', Denotes lib v e' → e' = e) ∧ ∀ g, visitRule lib i v g =
        ((g.sized (sizeControls v)).declaring [ruleDecl i v.kind n e,
          validMethod lib i n ((checks v).map .expr ++ [.ret [b!"nil"]])], .ok ())) ∨
    ((¬ ∃ n e, Named lib i n ∧ Denotes lib v e) ∧ ∀ g, (visitRule lib i v g).2.isPanic = true) := by
  rcases (runs_items (lib := lib) hU v).1 with ⟨e, h1, h2, h3⟩ | ⟨_, _, _, _, m, e, rfl, _, _, _, _, h3⟩ | ⟨h1, h2, h3⟩
  · rcases transpile_cases hU lib i with ⟨n, h4, h5⟩ | ⟨h4, h5⟩
    · refine Or.inl ⟨n, e, (h5 n).2 rfl, h1, fun m h => (h5 m).1 h, h2, fun g => ?_⟩
      have hn : ∀ g, Act.name lib i g = (g, .ok n) := fun g => by unfold Act.name; rw [h4]
      unfold visitRule
      rw [Act.bind_ok (h3 g)]
      have : ∀ (g : Generator), bundleValidators lib (checks v) i g =
          (g, .ok (validMethod lib i n ((checks v).map .expr ++ [.ret [b!"nil"]]))) := by
        intro g
        unfold bundleValidators
        rw [Act.bind_ok (hn g), validatorStmts_checks]; rfl
      show Act.bind (.name lib i) _ (g.sized (sizeControls v)) = _
      rw [Act.bind_ok (hn _)]
      show Act.bind (bundleValidators lib (checks v) i) _ _ = _
      rw [Act.bind_ok (this _)]
      unfold Act.declare Generator.declaring
      simp
    · refine Or.inr ⟨fun ⟨n, _, h, _⟩ => h5 n h, fun g => ?_⟩
      unfold visitRule
      rw [Act.bind_ok (h3 g)]
      show (Act.bind (.name lib i) _ (g.sized (sizeControls v))).2.isPanic = true
      apply Act.bind_panic
      unfold Act.name; rw [h4]; rfl
  · refine Or.inr ⟨?_, fun g => ?_⟩
    · rintro ⟨_, _, _, h⟩
      rcases h with (h | h | h | h | h | h | _ | _ | _ | _ | _ | _ | _ | _ | _ | _) <;> cases h
    · unfold visitRule
      rw [Act.bind_ok (h3 g)]; rfl
  · refine Or.inr ⟨fun ⟨_, e, _, h⟩ => h1 e h, fun g => ?_⟩
    unfold visitRule
    rcases h3 g with h | h | ⟨t, h⟩
    · exact Act.bind_panic h
    · rw [Act.bind_snd h]; rfl
    · rw [Act.bind_snd h]; rfl

theorem ruleDecls_ruleDecl {i : Ident} {v : Node} {n : Bytes} {e : GoExpr}
    (h1 : Named lib i n) (h2 : Denotes lib v e) :
    RuleDecls lib i v (ruleDecl i v.kind n e)
      (validMethod lib i n ((checks v).map .expr ++ [.ret [b!"nil"]])) := by
  refine .mk (doc := b!"\n// (cddlc) Ident: " ++ i.name ++ b!"\n") h1 h2 ?_
  unfold IsLiteral ruleDecl
  cases v.kind <;> simp

/-- The number of size controls in the values of the rules. -/
def ruleSizes (rules : List Node) : Nat := ((rules.filterMap valueOf).map sizeControls).sum

theorem visit_skip {n : Node} (h : n.kind ≠ .rule) (h' : n.kind ≠ .cddl) (g : Generator) :
    visit lib n g = (g, .ok ()) := by
  cases n
  case typedNil k => cases k <;> first | (exact absurd rfl h) | (exact absurd rfl h') | rfl
  all_goals first | (exact absurd rfl h) | (exact absurd rfl h') | rfl

omit [Unicode] in
theorem valueOf_skip {n : Node} (h : n.kind ≠ .rule) : valueOf n = none := by
  cases n <;> first | rfl | exact absurd rfl h

/-- `Visit` of the rules of a file. -/
theorem visitList_cases (hU : NoReplacement) (lib : GoLib) (rules : List Node) (ht : TopLevel rules) :
    (∃ ds, FileDecls lib rules ds ∧ ∀ g, visitList lib rules g =
      ((g.sized (ruleSizes rules)).declaring ds, .ok ())) ∨
    ((¬ ∃ ds, FileDecls lib rules ds) ∧ (∃ p i v c, Node.rule p i v c ∈ rules ∧
        ¬ ∃ n e, Named lib i n ∧ Denotes lib v e) ∧ ∀ g, (visitList lib rules g).2.isPanic = true) := by
  induction rules with
  | nil =>
    refine Or.inl ⟨[], .nil, fun g => ?_⟩
    rw [visitList, declaring_nil, show ruleSizes [] = 0 from rfl, sized_zero]; rfl
  | cons r rest ih =>
    have ih := ih fun x hx => ht x (List.mem_cons_of_mem _ hx)
    have hs : ∀ g, visitList lib (r :: rest) g = Act.bind (visit lib r) (fun _ => visitList lib rest) g :=
      fun g => by rw [visitList]
    by_cases hk : r.kind = .rule
    · have hr := (ht r (List.mem_cons_self ..)).2
      cases r <;> first | (cases hk; done) | skip
      case typedNil k => cases hk; exact absurd rfl hr
      rename_i p i v c
      have hv : ∀ g, visit lib (.rule p i v c) g = visitRule lib i v g := fun g => by rw [visit]
      rcases visitRule_cases hU lib i v with ⟨n, e, h1, h2, h3, h4, h5⟩ | ⟨h1, h2⟩
      · rcases ih with ⟨ds, h6, h7⟩ | ⟨h6, h7, h8⟩
        · refine Or.inl ⟨_, .rule (ruleDecls_ruleDecl h1 h2) h6, fun g => ?_⟩
          rw [hs, Act.bind_ok ((hv g).trans (h5 g)), h7, sized_declaring,
            show ruleSizes (.rule p i v c :: rest) = sizeControls v + ruleSizes rest by
              simp [ruleSizes, valueOf]]
          rfl
        · refine Or.inr ⟨?_, ?_, fun g => ?_⟩
          · rintro ⟨_, h⟩
            cases h with
            | rule _ h => exact h6 ⟨_, h⟩
            | skip h _ => exact h hk
          · obtain ⟨p, i, v, c, h9, h10⟩ := h7
            exact ⟨p, i, v, c, List.mem_cons_of_mem _ h9, h10⟩
          · rw [hs, Act.bind_ok ((hv g).trans (h5 g))]; exact h8 _
      · refine Or.inr ⟨?_, ⟨p, i, v, c, List.mem_cons_self .., h1⟩, fun g => ?_⟩
        · rintro ⟨_, h⟩
          cases h with
          | rule h _ => cases h with
            | mk h3 h4 _ => exact h1 ⟨_, _, h3, h4⟩
          | skip h _ => exact h hk
        · rw [hs]; apply Act.bind_panic; rw [hv]; exact h2 g
    · have hv := fun g => visit_skip (lib := lib) hk (ht r (List.mem_cons_self ..)).1 g
      rcases ih with ⟨ds, h6, h7⟩ | ⟨h6, h7, h8⟩
      · refine Or.inl ⟨_, .skip hk h6, fun g => ?_⟩
        rw [hs, Act.bind_ok (hv g), h7, show ruleSizes (r :: rest) = ruleSizes rest by
          simp [ruleSizes, valueOf_skip hk]]
      · refine Or.inr ⟨?_, ?_, fun g => ?_⟩
        · rintro ⟨_, h⟩
          cases h with
          | rule => exact hk rfl
          | skip _ h => exact h6 ⟨_, h⟩
        · obtain ⟨p, i, v, c, h9, h10⟩ := h7
          exact ⟨p, i, v, c, List.mem_cons_of_mem _ h9, h10⟩
        · rw [hs, Act.bind_ok (hv g)]; exact h8 _

end

end Cddlc
