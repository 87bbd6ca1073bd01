import Verif.Lemmas.Walk
import Verif.Props.Parser

/-! Properties of `astutils.Walk`: the calls of `Visit` it makes (C35, C36) and on which trees it
panics (C37). -/

namespace Cddlc
open Spec

variable {σ V : Type} {vs : Visitors σ V}

/-- The tree of the examples: `a = [x: int, * c] ; t`. -/
def demoTree : Node :=
  .cddl {} [.rule {} ⟨{}, b!"a"⟩ (.array {} [.entry {} ⟨{}, b!"x"⟩ (.intType {} .INT) none,
    .nm {} .ZERO_OR_MORE (some ⟨{}, .ILLEGAL, 0⟩) none (.ident ⟨{}, b!"c"⟩)]) (some ⟨{}, b!" t"⟩)]

/-- A visitor that counts its calls and continues except on entries. -/
def counter : Visitors Nat Unit where
  visit _ n s := (s + 1, .ok (if n.kind = .entry then none else some ()))

theorem counter_decides : counter.Decides fun n => !decide (n.kind = .entry) := by
  intro v n s
  refine ⟨_, _, rfl, ?_⟩
  by_cases h : n.kind = .entry <;> simp [h]

/-- A visitor that counts its calls and continues everywhere. -/
def eager : Visitors Nat Unit where
  visit _ _ s := (s + 1, .ok (some ()))

theorem eager_decides : eager.Decides fun _ => true := fun _ _ _ => ⟨_, _, rfl, rfl⟩

/-! ### C36 -/

/-- **C36**, for every visitor, whatever it does and on whatever it bases its decisions: writing
down the calls changes nothing, and if the walk returns the calls are those of a walk: after nil
nothing of that node's tree and no `Visit(nil)`, after a visitor the walks of the children in order
and one `Visit(nil)`. If `Visit` always returns, `Walk` returns, or it has made the calls up to a
node it does not know and panics. -/
theorem C36_calls (v : V) (n : Node) (s : σ) : ∃ log,
    walk vs.logged v n (s, []) = (((walk vs v n s).1, log), (walk vs v n s).2) ∧
    ((walk vs v n s).2 = .ok () → Walked n log) ∧
    (vs.Returns → (walk vs v n s).2 = .ok () ∨ ((walk vs v n s).2.isPanic = true ∧ Stuck n log)) := by
  obtain ⟨log, h1, h2, h3, _⟩ := (logs_walk (vs := vs) n v).logs s []
  refine ⟨log, h1, h2, fun hr => ?_⟩
  cases h : (walk vs v n s).2 with
  | ok u => exact Or.inl rfl
  | panic w => exact Or.inr ⟨rfl, (h3 hr).2 w h⟩
  | hang => exact absurd h (h3 hr).1

/-- **C36**, for a visitor that decides by looking at the node: the calls, spelled out. -/
theorem C36_pruned {d : Node → Bool} (hd : vs.Decides d) (v : V) (n : Node) (s s' : σ)
    (h : walk vs v n s = (s', .ok ())) : ∃ log,
    walk vs.logged v n (s, []) = ((s', log), .ok ()) ∧ log.map Prod.fst = pruned d n := by
  obtain ⟨log, h1, h2, _, h4⟩ := (logs_walk (vs := vs) n v).logs s []
  rw [h] at h1 h2
  exact ⟨log, h1, (walked_pruned n (h2 rfl) (h4 d hd)).1⟩

example : walk counter () demoTree 0 = (17, .ok ()) := by rfl
example : (walk counter.logged () demoTree (0, [])).1.2.map (·.1.kind) =
    [.cddl, .rule, .ident, .none, .array, .entry, .nm, .uintLit, .none, .ident, .none, .none, .none,
      .comment, .none, .none, .none] := by rfl

/-! ### C37 -/

/-- **C37**, for a visitor that decides by looking at the node: `Walk` panics iff it gets to a node
on which the visitor continues and which it does not know; otherwise it returns. -/
theorem C37_panics_iff {d : Node → Bool} (hd : vs.Decides d) (v : V) (n : Node) (s : σ) :
    ((walk vs v n s).2.isPanic = true ↔ ∃ x, Reached d n x ∧ d x = true ∧ ¬ Known x) ∧
    ((walk vs v n s).2 = .ok () ↔ ∀ x, Reached d n x → d x = true → Known x) := by
  obtain ⟨log, _, h2, h3, h4⟩ := (logs_walk (vs := vs) n v).logs s []
  have hr : vs.Returns := fun v n s => (hd v n s).imp fun _ h => h.imp fun _ h => h.1
  have h3 := h3 hr
  cases h : (walk vs v n s).2 with
  | ok u =>
    have := (walked_pruned n (h2 h) (h4 d hd)).2
    exact ⟨⟨nofun, fun ⟨x, h1, h2, h3⟩ => absurd (this x h1 h2) h3⟩, ⟨fun _ => this, fun _ => rfl⟩⟩
  | panic w =>
    have ⟨x, h5, h6, h7⟩ := stuck_reached (h3.2 w h) (h4 d hd)
    exact ⟨⟨fun _ => ⟨x, h5, h6, h7⟩, fun _ => rfl⟩, ⟨nofun, fun hk => absurd (hk x h5 h6) h7⟩⟩
  | hang => exact absurd h h3.1

/-- **C37**, for a visitor that always continues. -/
theorem C37_panics_unknown (hd : vs.Decides fun _ => true) (v : V) (n : Node) (s : σ) :
    (walk vs v n s).2.isPanic = true ↔ ∃ x ∈ preorder n, ¬ Known x := by
  rw [(C37_panics_iff hd v n s).1]
  exact ⟨fun ⟨x, h1, _, h2⟩ => ⟨x, reached_all.1 h1, h2⟩, fun ⟨x, h1, h2⟩ => ⟨x, reached_all.2 h1, rfl, h2⟩⟩

example : (walk eager () demoTree 0).2 = .ok () := by rfl
example : (walk eager () (.group {} [.uintType default .UINT]) 0) = (2, .panic .explicit) := by rfl
/-- A visitor that does not go into entries keeps `Walk` from panicking below them. -/
example : (walk counter () (.group {} [.entry {} ⟨{}, b!"x"⟩ (.uintType default .UINT) none]) 0) =
    (3, .ok ()) ∧
  (walk eager () (.group {} [.entry {} ⟨{}, b!"x"⟩ (.uintType default .UINT) none]) 0).2.isPanic := by
  exact ⟨rfl, rfl⟩

/-! ### C35 -/

/-- **C35**: on a tree of known nodes, a visitor that always continues is called with each node,
then its children from left to right, then nil. Leaving out the nils, these are the nodes of the
tree in pre-order. There are as many nils as nodes, and in between there are always fewer. -/
theorem C35_preorder (hd : vs.Decides fun _ => true) (v : V) (n : Node) (s : σ)
    (hk : ∀ x ∈ preorder n, Known x) : ∃ s' log,
    walk vs.logged v n (s, []) = ((s', log), .ok ()) ∧
    log.map Prod.fst = bracket n ∧
    (bracket n).filter (fun x => !x.isNil) = preorder n ∧
    depth (bracket n) = 0 ∧
    ∀ k, 0 < k → k < (bracket n).length → 0 < depth ((bracket n).take k) := by
  have hok := (C37_panics_iff hd v n s).2.2 fun x hx _ => hk x (reached_all.1 hx)
  obtain ⟨log, h1, h2⟩ := C36_pruned hd v n s (walk vs v n s).1 (Prod.ext rfl hok)
  rw [pruned_all] at h2
  refine ⟨_, log, h1, h2, bracket_balanced n fun x hx => ?_⟩
  have := hk x hx
  cases x <;> first | rfl | exact this.elim

example : (∀ x ∈ preorder demoTree, Known x) ∧ (preorder demoTree).length = 11 := by
  have : preorder demoTree = [demoTree, .rule {} ⟨{}, b!"a"⟩ (.array {} [.entry {} ⟨{}, b!"x"⟩ (.intType {} .INT) none,
    .nm {} .ZERO_OR_MORE (some ⟨{}, .ILLEGAL, 0⟩) none (.ident ⟨{}, b!"c"⟩)]) (some ⟨{}, b!" t"⟩),
    .ident ⟨{}, b!"a"⟩, .array {} [.entry {} ⟨{}, b!"x"⟩ (.intType {} .INT) none,
    .nm {} .ZERO_OR_MORE (some ⟨{}, .ILLEGAL, 0⟩) none (.ident ⟨{}, b!"c"⟩)],
    .entry {} ⟨{}, b!"x"⟩ (.intType {} .INT) none, .ident ⟨{}, b!"x"⟩, .intType {} .INT,
    .nm {} .ZERO_OR_MORE (some ⟨{}, .ILLEGAL, 0⟩) none (.ident ⟨{}, b!"c"⟩),
    .uintLit ⟨{}, .ILLEGAL, 0⟩, .ident ⟨{}, b!"c"⟩, .comment ⟨{}, b!" t"⟩] := by
    simp [demoTree, preorder_eq, kids, kids.present, Node.isNil, someComment, someUint]
  rw [this]
  simp [Known, demoTree]

/-! ### Walking parsed files -/

/-- **C37** on what `ParseFile` returns, with a visitor that always continues: `Walk` panics iff the
file contains `true` or `false`, `uint`, a `.bits` control, an `&` enumeration, or several comments
in a row. Nothing else a parsed file can contain makes it panic. -/
theorem C37_parsed [Unicode] {m : Nat} {src : Bytes} {env : Env} {res : PState.FileResult} {rules}
    (h : parseSource m src env = .ok res) (ht : res.cddl = some rules)
    (hd : vs.Decides fun _ => true) (v : V) (pos : Pos) (s : σ) :
    (walk vs v (.cddl pos rules) s).2.isPanic = true ↔
      ∃ e ∈ rules, ∃ x ∈ subs e,
        x.kind ∈ [NodeKind.boolLit, .uintType, .commentGroup, .bits, .enumeration] := by
  have hk : ∀ e ∈ rules, ∀ y ∈ subs e, FullLists y ∧
      (Known y ↔ y.kind ∉ [NodeKind.boolLit, .uintType, .commentGroup, .bits, .enumeration]) := by
    intro e he y hy
    rcases C59_made_of_tokens h ht e he with ⟨c, rfl, _⟩ | ⟨cs, rfl, _⟩ | ⟨name, v, tc, a, rfl, _, _, _, hv⟩
    · simp only [subs, List.mem_singleton] at hy; subst hy
      exact ⟨trivial, by simp [Known, Node.kind]⟩
    · simp only [subs, List.mem_singleton] at hy; subst hy
      exact ⟨trivial, by simp [Known, Node.kind]⟩
    · simp only [subs, List.mem_cons] at hy
      rcases hy with rfl | hy
      · exact ⟨trivial, by simp [Known, Node.kind]⟩
      · exact made_known (hv y hy)
  rw [C37_panics_unknown hd]
  constructor
  · rintro ⟨x, hx, hn⟩
    have hf : ∀ y ∈ subs (.cddl pos rules), FullLists y := by
      intro y hy
      simp only [subs, List.mem_cons, mem_subsList] at hy
      rcases hy with rfl | ⟨e, he, hy⟩
      · intro e he
        rcases C59_made_of_tokens h ht e he with ⟨c, rfl, _⟩ | ⟨cs, rfl, _⟩ | ⟨_, _, _, _, rfl, _⟩ <;> rfl
      · exact (hk e he y hy).1
    rcases preorder_subs _ rfl hf x hx with ⟨i, rfl⟩ | ⟨i, rfl⟩ | ⟨i, rfl⟩ | hx
    · exact absurd trivial hn
    · exact absurd trivial hn
    · exact absurd trivial hn
    · simp only [subs, List.mem_cons, mem_subsList] at hx
      rcases hx with rfl | ⟨e, he, hx⟩
      · exact absurd trivial hn
      · exact ⟨e, he, x, hx, Classical.not_not.1 fun hc => hn ((hk e he x hx).2.2 hc)⟩
  · rintro ⟨e, he, x, hx, hkind⟩
    refine ⟨x, subs_preorder _ x ?_, fun hn => (hk e he x hx).2.1 hn hkind⟩
    simp only [subs, List.mem_cons, mem_subsList]
    exact Or.inr ⟨e, he, hx⟩

/-- An ordinary schema on which `Walk` panics, and one on which it does not. -/
example : letI := asciiOnly; ∃ res rules, parseSource 30 b!"a = [x: uint, * b]\nb = tstr" = .ok res ∧
    res.cddl = some rules ∧ res.errs = [] ∧ (walk eager () (.cddl {} rules) 0).2.isPanic = true :=
  letI := asciiOnly
  have ⟨res, rules, h1, h2, h3⟩ := of_parses (n := 30) (src := b!"a = [x: uint, * b]\nb = tstr")
    (f := fun rules errs => decide (errs = []) && (walk eager () (.cddl {} rules) 0).2.isPanic)
    (by decide_cbv)
  have h3 := Bool.and_eq_true_iff.1 h3
  ⟨res, rules, h1, h2, of_decide_eq_true h3.1, h3.2⟩

example : letI := asciiOnly; ∃ res rules, parseSource 30 b!"a = [x: int, * b]\nb = tstr" = .ok res ∧
    res.cddl = some rules ∧ res.errs = [] ∧ (walk eager () (.cddl {} rules) 0).2.isPanic = false :=
  letI := asciiOnly
  have ⟨res, rules, h1, h2, h3⟩ := of_parses (n := 30) (src := b!"a = [x: int, * b]\nb = tstr")
    (f := fun rules errs => decide (errs = []) && !(walk eager () (.cddl {} rules) 0).2.isPanic)
    (by decide_cbv)
  have h3 := Bool.and_eq_true_iff.1 h3
  ⟨res, rules, h1, h2, of_decide_eq_true h3.1, by have := h3.2; revert this; cases (walk eager () (.cddl {} rules) 0).2.isPanic <;> simp⟩

end Cddlc
