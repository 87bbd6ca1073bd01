import Verif.Spec.Rename
import Verif.Lemmas.RunTy

/-! The parser run on two token streams that differ only in positions and, up to a renaming, in the
texts of identifiers. -/

namespace Cddlc
variable [Unicode]
open Spec PState

variable {ρ : Bytes → Bytes}

/-! ### Relations -/

/-- Both outcomes are results related by `R`, or the same failure. -/
def Out.Same {α β : Type} (R : α → β → Prop) : Out α → Out β → Prop
  | .ok a, .ok b => R a b
  | .panic w, .panic w' => w = w'
  | .hang, .hang => True
  | _, _ => False

theorem Out.Same.bind {α β γ δ : Type} {R : α → β → Prop} {S : γ → δ → Prop} {o : Out α} {o' : Out β}
    {f : α → Out γ} {f' : β → Out δ} (h : Out.Same R o o')
    (hf : ∀ a b, R a b → Out.Same S (f a) (f' b)) : Out.Same S (o >>= f) (o' >>= f') := by
  cases o <;> cases o' <;> first | exact h.elim | exact h | exact hf _ _ h

theorem Out.Same.mono {α β : Type} {R S : α → β → Prop} {o : Out α} {o' : Out β} (h : Out.Same R o o')
    (hf : ∀ a b, R a b → S a b) : Out.Same S o o' := by
  cases o <;> cases o' <;> first | exact h.elim | exact h | exact hf _ _ h

/-- The message without positions. -/
def dm (d : Diag) : Msg := noPosMsg d.msg

/-- The renamed message without positions. -/
def dmr (ρ : Bytes → Bytes) (d : Diag) : Msg := noPosMsg (renameMsg ρ d.msg)

/-- A task with its names replaced. -/
def renameTask (ρ : Bytes → Bytes) : Task → Task
  | .exists n p => .exists (ρ n) p
  | .identBound t l to => .identBound t ⟨l.pos, ρ l.name⟩ (rename ρ to)
  | .intBound n a b => .intBound (ρ n) a b
  | .floatBound n a b => .floatBound (ρ n) a b

/-- A task without positions. -/
def noPosTask : Task → Task
  | .exists n _ => .exists n {}
  | .identBound t l to => .identBound t ⟨{}, l.name⟩ (noPos to)
  | .intBound n _ _ => .intBound n {} {}
  | .floatBound n _ _ => .floatBound n {} {}

/-- Two parsers that differ only in positions and in names. -/
structure Sim (ρ : Bytes → Bytes) (p q : PState) : Prop where
  ok : Renaming ρ
  cur : p.cur = q.cur
  lit : renameLit ρ p.cur p.lit = q.lit
  peek : p.peek = q.peek
  peekLit : renameLit ρ p.peek p.peekLit = q.peekLit
  errs : p.errors.map (dmr ρ) = q.errors.map dm
  tasks : p.tasks.map (fun t => noPosTask (renameTask ρ t)) = q.tasks.map noPosTask
  env : noPosEnv (renameEnv ρ p.env) = noPosEnv q.env
  line : p.peek = .COMMENT → (p.pos.line = p.peekPos.line ↔ q.pos.line = q.peekPos.line)
  lx : ∀ k, RenamedToks ρ k p.peekPos.line p.lx q.peekPos.line q.lx

theorem Sim.same {p q : PState} (h : Sim ρ p q) (hc : p.cur ≠ .IDENT) : p.lit = q.lit := by
  have := h.lit
  rwa [renameLit, if_neg hc] at this

theorem Sim.name {p q : PState} (h : Sim ρ p q) (hc : p.cur = .IDENT) : ρ p.lit = q.lit := by
  have := h.lit
  rwa [renameLit, if_pos hc] at this

theorem Sim.peekSame {p q : PState} (h : Sim ρ p q) (hc : p.peek ≠ .IDENT) : p.peekLit = q.peekLit := by
  have := h.peekLit
  rwa [renameLit, if_neg hc] at this

/-- Two results of parse functions that differ only in positions and in names. -/
def SimR (ρ : Bytes → Bytes) (x y : Node × Option Diag × PState) : Prop :=
  noPos (rename ρ x.1) = noPos y.1 ∧ x.2.1.map (dmr ρ) = y.2.1.map dm ∧ Sim ρ x.2.2 y.2.2

abbrev Same3 (ρ : Bytes → Bytes) := Out.Same (SimR ρ)

theorem Same3.bind {α β : Type} {S : α → β → Prop} {o o' : PRes} {f f'} (h : Same3 ρ o o')
    (hs : ∀ x y d d' p q, noPos (rename ρ x) = noPos y → dmr ρ d = dm d' → Sim ρ p q →
      Out.Same S (f (x, some d, p)) (f' (y, some d', q)))
    (hn : ∀ x y p q, noPos (rename ρ x) = noPos y → Sim ρ p q → Out.Same S (f (x, none, p)) (f' (y, none, q))) :
    Out.Same S (o >>= f) (o' >>= f') := by
  refine Out.Same.bind h ?_
  rintro ⟨x, d, p⟩ ⟨y, d', q⟩ ⟨h1, h2, h3⟩
  cases d <;> cases d' <;> simp only [Option.map_some, Option.map_none, reduceCtorEq, Option.some.injEq] at h2
  · exact hn _ _ _ _ h1 h3
  · exact hs _ _ _ _ _ _ h1 h2 h3

/-- The recursive calls do not depend on positions and names. -/
def RecS (ρ : Bytes → Bytes) (rec : Rec) : Prop := ∀ prec p q, Sim ρ p q → Same3 ρ (rec prec p) (rec prec q)

/-! ### Steps -/

theorem sim_scan {a b : Int} {l m : Lexer} (h : ∀ k, RenamedToks ρ k a l b m) :
    Out.Same (fun x y => x.1 = y.1 ∧ renameLit ρ x.1 x.2.2.1 = y.2.2.1 ∧
      (x.1 = .COMMENT → (a = x.2.1.line ↔ b = y.2.1.line)) ∧
      (x.2.2.2.errors = [] ↔ y.2.2.2.errors = []) ∧
      ∀ k, RenamedToks ρ k x.2.1.line x.2.2.2 y.2.1.line y.2.2.2) l.scan m.scan := by
  have h1 := h 1
  simp only [RenamedToks] at h1
  cases e : l.scan <;> cases e' : m.scan <;> simp only [e, e'] at h1
  · obtain ⟨h1, h2, h3, h4, _⟩ := h1
    refine ⟨h1, h2, h3, h4, fun k => ?_⟩
    have := h (k + 1)
    simp only [RenamedToks, e, e'] at this
    exact this.2.2.2.2
  · exact h1
  · trivial

theorem sim_next' {p q : PState} (h : Sim ρ p q) :
    Out.Same (fun a b => (Sim ρ a b ∧ a.cur = p.peek) ∧ (a.lx.errors = [] ↔ b.lx.errors = [])) p.next q.next := by
  unfold PState.next
  refine Out.Same.bind (sim_scan h.lx) ?_
  rintro ⟨t, x, s, l⟩ ⟨t', x', s', l'⟩ ⟨h1, h2, h3, h4, h5⟩
  exact ⟨⟨⟨h.ok, h.peek, h.peekLit, h1, h2, h.errs, h.tasks, h.env, h3, h5⟩, rfl⟩, h4⟩

theorem sim_nextc {p q : PState} (h : Sim ρ p q) :
    Out.Same (fun a b => Sim ρ a b ∧ a.cur = p.peek) p.next q.next :=
  (sim_next' h).mono fun _ _ h => h.1

theorem sim_next {p q : PState} (h : Sim ρ p q) : Out.Same (Sim ρ) p.next q.next :=
  (sim_next' h).mono fun _ _ h => h.1.1

theorem sim_addTask {p q : PState} (h : Sim ρ p q) {t t'} (ht : noPosTask (renameTask ρ t) = noPosTask t') :
    Sim ρ (p.addTask t) (q.addTask t') :=
  { h with tasks := by simp [addTask, h.tasks, ht] }

theorem sim_addError {p q : PState} (h : Sim ρ p q) {d d'} (hd : dmr ρ d = dm d') :
    Sim ρ (p.addError d) (q.addError d') :=
  { h with errs := by simp [addError, h.errs, hd] }

omit [Unicode] in
theorem rename_kind (x : Node) : (rename ρ x).kind = x.kind := by cases x <;> rfl

omit [Unicode] in
theorem rename_isNil (x : Node) : (rename ρ x).isNil = x.isNil := by cases x <;> rfl

omit [Unicode] in
theorem renameL_map (xs : List Node) : renameL ρ xs = xs.map (rename ρ) := by
  induction xs with
  | nil => rfl
  | cons x xs ih => rw [renameL, ih]; rfl

omit [Unicode] in
theorem rename_start (x : Node) : (rename ρ x).start = x.start := by
  induction x using Node.start.induct <;> simp only [Node.start, rename] <;> assumption

mutual
theorem rename_stop : (x : Node) → Out.Same (fun _ _ => True) (rename ρ x).stop x.stop
  | .nil | .typedNil _ | .badNode .. | .boolType .. | .boolLit .. | .bstr .. | .bytes .. | .comment .. | .floatType ..
  | .floatLit .. | .ident .. | .intType .. | .nintType .. | .intLit .. | .null .. | .textLit .. | .tstr .. | .uintType ..
  | .uintLit .. => by simp [Node.stop, rename, Out.Same]
  | .commentGroup cs => by
    simp only [Node.stop, rename]
    cases cs.getLast? <;> trivial
  | .array _ rs => rename_stopLast rs
  | .cddl _ rs => rename_stopLast rs
  | .group _ rs => rename_stopLast rs
  | .map _ rs => rename_stopLast rs
  | .bits _ _ _ x => rename_stop x
  | .comparator _ _ _ _ x => rename_stop x
  | .regexp _ _ _ x => rename_stop x
  | .size _ _ x _ => rename_stop x
  | .entry _ _ x _ => rename_stop x
  | .enumeration _ _ x => rename_stop x
  | .groupChoice _ _ _ x => rename_stop x
  | .optional _ _ x => rename_stop x
  | .nm _ _ _ none _ => by simp [Node.stop, rename, Out.Same]
  | .nm _ _ _ (some _) _ => by simp [Node.stop, rename, Out.Same]
  | .range _ _ _ x => rename_stop x
  | .rule _ _ x _ => rename_stop x
  | .tag _ _ _ _ x => by
    have := rename_stop x
    simp only [Node.stop, rename]
    cases h1 : x.stop <;> cases h2 : (rename ρ x).stop <;> simp_all [Out.Same]
  | .typeChoice _ _ _ x => rename_stop x
  | .unwrap _ _ x => rename_stop x
theorem rename_stopLast : (xs : List Node) →
    Out.Same (fun _ _ => True) (Node.stopLast (renameL ρ xs)) (Node.stopLast xs)
  | [] => by simp [Node.stopLast, renameL, Out.Same]
  | [x] => by simpa [Node.stopLast, renameL] using rename_stop x
  | _ :: y :: ys => by simpa [Node.stopLast, renameL] using rename_stopLast (y :: ys)
end

theorem same_start (x : Node) : Out.Same (fun _ _ => True) x.start (noPos x).start := by
  induction x using Node.start.induct <;> simp only [Node.start, noPos, Option.map_some, Option.map_none, List.map_nil,
    List.map_cons] <;> first | trivial | assumption

theorem same_trans {α β γ : Type} {o : Out α} {o' : Out β} {o'' : Out γ}
    (h : Out.Same (fun _ _ => True) o o') (h' : Out.Same (fun _ _ => True) o'' o') :
    Out.Same (fun _ _ => True) o o'' := by
  cases o <;> cases o' <;> cases o'' <;> simp_all [Out.Same]

theorem sim_start {x y : Node} (h : noPos (rename ρ x) = noPos y) :
    Out.Same (fun _ _ => True) x.start y.start := by
  have h1 := same_start (rename ρ x)
  rw [h, rename_start] at h1
  exact same_trans h1 (same_start y)

mutual
theorem same_stop : (x : Node) → Out.Same (fun _ _ => True) x.stop (noPos x).stop
  | .nil | .typedNil _ | .badNode .. | .boolType .. | .boolLit .. | .bstr .. | .bytes .. | .comment .. | .floatType ..
  | .floatLit .. | .ident .. | .intType .. | .nintType .. | .intLit .. | .null .. | .textLit .. | .tstr .. | .uintType ..
  | .uintLit .. => by simp [Node.stop, noPos, Out.Same]
  | .array _ rs => same_stopLast rs
  | .cddl _ rs => same_stopLast rs
  | .group _ rs => same_stopLast rs
  | .map _ rs => same_stopLast rs
  | .commentGroup cs => by
    simp only [Node.stop, noPos, List.getLast?_map]
    cases cs.getLast? <;> trivial
  | .bits _ _ _ x => same_stop x
  | .comparator _ _ _ _ x => same_stop x
  | .regexp _ _ _ x => same_stop x
  | .size _ _ x _ => same_stop x
  | .entry _ _ x _ => same_stop x
  | .enumeration _ _ x => same_stop x
  | .groupChoice _ _ _ x => same_stop x
  | .optional _ _ x => same_stop x
  | .nm _ _ _ none _ => by simp [Node.stop, noPos, Out.Same]
  | .nm _ _ _ (some _) _ => by simp [Node.stop, noPos, Out.Same]
  | .range _ _ _ x => same_stop x
  | .rule _ _ x _ => same_stop x
  | .tag _ _ _ _ x => by
    have := same_stop x
    simp only [Node.stop, noPos]
    cases h1 : x.stop <;> cases h2 : (noPos x).stop <;> simp_all [Out.Same]
  | .typeChoice _ _ _ x => same_stop x
  | .unwrap _ _ x => same_stop x
theorem same_stopLast : (xs : List Node) → Out.Same (fun _ _ => True) (Node.stopLast xs) (Node.stopLast (noPosL xs))
  | [] => by simp [Node.stopLast, noPosL, Out.Same]
  | [x] => by simpa [Node.stopLast, noPosL] using same_stop x
  | _ :: y :: ys => by simpa [Node.stopLast, noPosL] using same_stopLast (y :: ys)
end

theorem sim_stop {x y : Node} (h : noPos (rename ρ x) = noPos y) :
    Out.Same (fun _ _ => True) x.stop y.stop := by
  have h1 := same_stop (rename ρ x)
  rw [h] at h1
  have h2 := same_trans h1 (same_stop y)
  have h3 := rename_stop (ρ := ρ) x
  cases e1 : (rename ρ x).stop <;> cases e2 : x.stop <;> cases e3 : y.stop <;> simp_all [Out.Same]

theorem sim_kind {x y : Node} (h : noPos (rename ρ x) = noPos y) : x.kind = y.kind := by
  rw [← rename_kind (ρ := ρ) x, ← noPos_kind, h, noPos_kind]

theorem sim_isNil {x y : Node} (h : noPos (rename ρ x) = noPos y) : x.isNil = y.isNil := by
  rw [← rename_isNil (ρ := ρ) x, ← noPos_isNil, h, noPos_isNil]

/-- The nodes the parser looks into. -/
inductive Shape (ρ : Bytes → Bytes) : Node → Node → Prop
  | ident (i j : Ident) : ρ i.name = j.name → Shape ρ (.ident i) (.ident j)
  | intLit (a b t v) : Shape ρ (.intLit a t v) (.intLit b t v)
  | floatLit (a b t v) : Shape ρ (.floatLit a t v) (.floatLit b t v)
  | uintLit (u v) : noPosU u = noPosU v → Shape ρ (.uintLit u) (.uintLit v)
  | tstr (a b t) : Shape ρ (.tstr ⟨a, t⟩) (.tstr ⟨b, t⟩)
  | other {x y} : (∀ i, x ≠ .ident i) → (∀ a t v, x ≠ .intLit a t v) → (∀ a t v, x ≠ .floatLit a t v) →
      (∀ u, x ≠ .uintLit u) → (∀ t, x ≠ .tstr t) → (∀ i, y ≠ .ident i) → (∀ a t v, y ≠ .intLit a t v) →
      (∀ a t v, y ≠ .floatLit a t v) → (∀ u, y ≠ .uintLit u) → (∀ t, y ≠ .tstr t) → Shape ρ x y

omit [Unicode] in
theorem shape {x y : Node} (h : noPos (rename ρ x) = noPos y) : Shape ρ x y := by
  have key : ∀ {y : Node}, noPos (rename ρ x) = noPos y → (∀ i, x ≠ .ident i) → (∀ a t v, x ≠ .intLit a t v) →
      (∀ a t v, x ≠ .floatLit a t v) → (∀ u, x ≠ .uintLit u) → (∀ t, x ≠ .tstr t) → (∀ i, y ≠ .ident i) ∧
      (∀ a t v, y ≠ .intLit a t v) ∧ (∀ a t v, y ≠ .floatLit a t v) ∧ (∀ u, y ≠ .uintLit u) ∧ (∀ t, y ≠ .tstr t) := by
    intro y h h1 h2 h3 h4 h5
    refine ⟨?_, ?_, ?_, ?_, ?_⟩ <;> intros <;> rintro rfl <;> cases x <;> simp [rename, noPos] at h <;> simp_all
  cases x with
  | ident i => obtain ⟨pos, rfl⟩ := noPos_ident (k := ρ i.name) h.symm; exact .ident _ _ rfl
  | intLit a t v => obtain ⟨pos, rfl⟩ := noPos_intLit h.symm; exact .intLit _ _ _ _
  | floatLit a t v => obtain ⟨r, rfl⟩ := noPos_floatLit h.symm; exact .floatLit _ _ _ _
  | tstr t =>
    obtain ⟨a, t⟩ := t
    obtain ⟨pos, rfl⟩ := noPos_tstr h.symm; exact .tstr _ _ _
  | uintLit u =>
    cases y <;> simp [rename, noPos] at h
    exact .uintLit _ _ h
  | _ =>
    obtain ⟨h1, h2, h3, h4, h5⟩ := key h (by simp) (by simp) (by simp) (by simp) (by simp)
    exact .other (by simp) (by simp) (by simp) (by simp) (by simp) h1 h2 h3 h4 h5

theorem same_loop {σ ρ σ' ρ' : Type} {I : σ → σ' → Prop} {R : ρ → ρ' → Prop} {step : σ → Out (σ ⊕ ρ)}
    {step' : σ' → Out (σ' ⊕ ρ')}
    (h : ∀ s s', I s s' → Out.Same (fun x y => match x, y with
      | .inl a, .inl b => I a b
      | .inr a, .inr b => R a b
      | _, _ => False) (step s) (step' s')) (n : Nat) {s s'} (hs : I s s') :
    Out.Same R (loopOut step n s) (loopOut step' n s') := by
  induction n generalizing s s' with
  | zero => trivial
  | succ n ih =>
    have := h s s' hs
    unfold loopOut
    cases e : step s with
    | ok x => cases e' : step' s' with
      | ok y =>
        rw [e, e'] at this
        cases x <;> cases y <;> simp only [Out.Same] at this ⊢
        · exact ih this
        · exact this
      | _ => rw [e, e'] at this; exact this.elim
    | _ => cases e' : step' s' <;> rw [e, e'] at this <;> first | exact this.elim | exact this

end Cddlc
