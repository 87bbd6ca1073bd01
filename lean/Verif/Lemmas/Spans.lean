import Verif.Lemmas.FileFacts
import Verif.Spec.Spans

/-! When `Start` and `End` panic, by induction on derivations. -/

namespace Cddlc
open Spec

/-- `End` of `x` panics exactly if what it ends with has no end. -/
def StopOk (x : Node) : Prop := x.stop.isPanic = true ↔ ∃ z, EndsWith x z ∧ NoEnd z
/-- `Start` of `x` panics exactly if what it starts with has no start. -/
def StartOk (x : Node) : Prop := x.start.isPanic = true ↔ ∃ z, StartsWith x z ∧ NoStart z

/-- What holds of derived trees. -/
def Firm (x : Node) : Prop :=
  x ∈ subs x ∧ (∀ k, x ≠ .typedNil k) ∧
    ∀ y ∈ subs x, (∀ k, y ≠ .typedNil k) → StopOk y ∧ StartOk y

theorem Firm.self {x : Node} (h : Firm x) : StopOk x ∧ StartOk x := h.2.2 x h.1 h.2.1

theorem Firm.isNil {x : Node} (h : Firm x) : x ≠ .nil := by
  rintro rfl; cases h.1

theorem stopLast_eq (xs : List Node) : Node.stopLast xs = match xs.getLast? with
    | none => .ok Node.emptyEnd
    | some x => x.stop := by
  induction xs with
  | nil => rfl
  | cons a as ih =>
    cases as with
    | nil => rfl
    | cons b bs => rw [Node.stopLast, ih, List.getLast?_cons_cons]

theorem stop_here {x : Node} (hs : x.stop.isPanic = false) (hd : ∀ z, EndsWith x z → z = x)
    (hx : ¬ NoEnd x) : StopOk x := by
  unfold StopOk
  rw [hs]
  refine ⟨nofun, ?_⟩
  rintro ⟨z, h1, h2⟩
  cases hd z h1
  exact absurd h2 hx

theorem stop_step {x c : Node} (hc : StopOk c) (hs : x.stop.isPanic = c.stop.isPanic)
    (hu : ∀ z, EndsWith c z → EndsWith x z) (hd : ∀ z, EndsWith x z → z = x ∨ EndsWith c z)
    (hx : ¬ NoEnd x) : StopOk x := by
  unfold StopOk
  rw [hs]
  refine hc.trans ?_
  constructor
  · rintro ⟨z, h1, h2⟩; exact ⟨z, hu z h1, h2⟩
  · rintro ⟨z, h1, h2⟩
    rcases hd z h1 with rfl | h
    · exact absurd h2 hx
    · exact ⟨z, h, h2⟩

theorem stop_none {x : Node} (hs : x.stop.isPanic = true) (hx : NoEnd x) : StopOk x :=
  ⟨fun _ => ⟨x, .refl x, hx⟩, fun _ => hs⟩

theorem start_here {x : Node} (hs : x.start.isPanic = false) (hd : ∀ z, StartsWith x z → z = x)
    (hx : ¬ NoStart x) : StartOk x := by
  unfold StartOk
  rw [hs]
  refine ⟨nofun, ?_⟩
  rintro ⟨z, h1, h2⟩
  cases hd z h1
  exact absurd h2 hx

theorem start_step {x c : Node} (hc : StartOk c) (hs : x.start = c.start)
    (hu : ∀ z, StartsWith c z → StartsWith x z) (hd : ∀ z, StartsWith x z → z = x ∨ StartsWith c z)
    (hx : ¬ NoStart x) : StartOk x := by
  unfold StartOk
  rw [hs]
  refine hc.trans ?_
  constructor
  · rintro ⟨z, h1, h2⟩; exact ⟨z, hu z h1, h2⟩
  · rintro ⟨z, h1, h2⟩
    rcases hd z h1 with rfl | h
    · exact absurd h2 hx
    · exact ⟨z, h, h2⟩

theorem start_none {x : Node} (hs : x.start.isPanic = true) (hx : NoStart x) : StartOk x :=
  ⟨fun _ => ⟨x, .refl x, hx⟩, fun _ => hs⟩

/-- The start of a node that has its own position. -/
macro "own_start" : term => `(start_here rfl (fun _ h => by cases h; rfl) id)
/-- The end of a node that knows its own end. -/
macro "own_stop" : term => `(stop_here rfl (fun _ h => by cases h; rfl) id)

theorem firm_leaf {x : Node} (hs : subs x = [x]) (hk : ∀ k, x ≠ .typedNil k) (h : StopOk x ∧ StartOk x) :
    Firm x := by
  refine ⟨by rw [hs]; exact List.mem_singleton.mpr rfl, hk, fun y hy _ => ?_⟩
  rw [hs, List.mem_singleton] at hy
  subst hy; exact h

theorem firm_node {x : Node} {ys} (hs : subs x = x :: ys) (hk : ∀ k, x ≠ .typedNil k)
    (h : StopOk x ∧ StartOk x)
    (hy : ∀ y ∈ ys, (∀ k, y ≠ .typedNil k) → StopOk y ∧ StartOk y) : Firm x := by
  refine ⟨by rw [hs]; exact List.mem_cons_self, hk, fun y hy' hn => ?_⟩
  rw [hs, List.mem_cons] at hy'
  rcases hy' with rfl | h'
  · exact h
  · exact hy y h' hn

theorem firm_two {a b : Node} (ha : Firm a) (hb : Firm b) :
    ∀ y ∈ subs a ++ subs b, (∀ k, y ≠ .typedNil k) → StopOk y ∧ StartOk y := by
  intro y hy
  rcases List.mem_append.mp hy with h | h
  · exact ha.2.2 y h
  · exact hb.2.2 y h

theorem firm_list {xs : List Node} {keep : Node → Bool} (h : ∀ x ∈ xs, Firm x) :
    ∀ y ∈ subsList (xs.filter keep), (∀ k, y ≠ .typedNil k) → StopOk y ∧ StartOk y := by
  intro y hy
  obtain ⟨x, hx, hy⟩ := mem_subsList.mp hy
  exact (h x (List.mem_filter.mp hx).1).2.2 y hy

theorem stop_list {x : Node} {es : List Node} (hs : x.stop = Node.stopLast es)
    (hu : ∀ e z, es.getLast? = some e → EndsWith e z → EndsWith x z)
    (hd : ∀ z, EndsWith x z → z = x ∨ ∃ e, es.getLast? = some e ∧ EndsWith e z)
    (hx : ¬ NoEnd x) (he : ∀ e ∈ es, Firm e) : StopOk x := by
  rw [stopLast_eq] at hs
  cases hl : es.getLast? with
  | none =>
    rw [hl] at hs
    refine stop_here (by rw [hs]; rfl) (fun z h => ?_) hx
    rcases hd z h with h | ⟨e, h, _⟩
    · exact h
    · rw [hl] at h; cases h
  | some e =>
    rw [hl] at hs
    refine stop_step (he e (List.mem_of_getLast? hl)).self.1 (by rw [hs]) (fun z h => hu e z hl h)
      (fun z h => ?_) hx
    rcases hd z h with h | ⟨e', h, h'⟩
    · exact Or.inl h
    · rw [hl] at h; cases h; exact Or.inr h'

theorem firm_of_leaf {p : PState} {x} (h : Leaf p x) : Firm x := by
  cases h <;> exact firm_leaf rfl nofun ⟨own_stop, own_start⟩

theorem firm_nm {p t n m} {x : Node} (hx : Firm x) : Firm (.nm p t (some n) m x) := by
  refine firm_node rfl nofun ⟨?_, own_start⟩ hx.2.2
  cases m with
  | none => exact stop_none rfl trivial
  | some m => exact own_stop

theorem firm_range {p t} {a b : Node} (ha : Firm a) (hb : Firm b) : Firm (.range p t a b) := by
  refine firm_node rfl nofun ⟨?_, ?_⟩ (firm_two ha hb)
  · refine stop_step hb.self.1 rfl (fun _ => .range) (fun z h => ?_) (fun h => ?_)
    · cases h with
      | refl => exact Or.inl rfl
      | range h => exact Or.inr h
    · have := hb.isNil
      cases b <;> first | exact h | exact this rfl
  · refine start_step ha.self.2 rfl (fun _ => .range) (fun z h => ?_) (fun h => ?_)
    · cases h with
      | refl => exact Or.inl rfl
      | range h => exact Or.inr h
    · have := ha.isNil
      cases a <;> first | exact h | exact this rfl

theorem firm_rangeNil {p t} {a : Node} (ha : Firm a) : Firm (.range p t a .nil) := by
  refine firm_node (ys := subs a) (by simp [subs]) nofun ⟨stop_none rfl trivial, ?_⟩ ha.2.2
  refine start_step ha.self.2 rfl (fun _ => .range) (fun z h => ?_) (fun h => ?_)
  · cases h with
    | refl => exact Or.inl rfl
    | range h => exact Or.inr h
  · have := ha.isNil
    cases a <;> first | exact h | exact this rfl

theorem firm_entry {p n c} {v : Node} (hv : Firm v) : Firm (.entry p n v c) := by
  refine firm_node rfl nofun ⟨stop_step hv.self.1 rfl (fun _ => .entry) (fun z h => ?_) id, own_start⟩ hv.2.2
  cases h with
  | refl => exact Or.inl rfl
  | entry h => exact Or.inr h

variable [Unicode]

theorem der_firm {b} {p q : PState} {xs} (h : Der b p xs q) : ∀ x ∈ xs, Firm x := by
  induction h with
  | nil => simp
  | cons _ _ _ ih1 ih2 =>
    intro x hx
    rcases List.mem_cons.mp hx with rfl | hx
    · exact ih1 _ (by simp)
    · exact ih2 x hx
  | skip _ _ _ _ ih => exact ih
  | leaf hl => simp only [List.mem_singleton, forall_eq]; exact firm_of_leaf hl
  | ref | socket =>
    simp only [List.mem_singleton, forall_eq]
    exact firm_leaf rfl nofun ⟨own_stop, own_start⟩
  | field _ _ _ _ _ _ ih =>
    simp only [List.mem_singleton, forall_eq] at ih ⊢
    exact firm_entry ih
  | group _ _ _ _ ih =>
    simp only [List.mem_singleton, forall_eq]
    refine firm_node rfl nofun ⟨stop_list rfl (fun _ _ => .group) (fun z h => ?_) id
      (fun e he => ih e (List.mem_filter.mp he).1), own_start⟩ (firm_list ih)
    cases h with
    | refl => exact Or.inl rfl
    | group h1 h2 => exact Or.inr ⟨_, h1, h2⟩
  | array _ _ _ _ ih =>
    simp only [List.mem_singleton, forall_eq]
    refine firm_node rfl nofun ⟨stop_list rfl (fun _ _ => .array) (fun z h => ?_) id
      (fun e he => ih e (List.mem_filter.mp he).1), own_start⟩ (firm_list ih)
    cases h with
    | refl => exact Or.inl rfl
    | array h1 h2 => exact Or.inr ⟨_, h1, h2⟩
  | map _ _ _ _ ih =>
    simp only [List.mem_singleton, forall_eq]
    refine firm_node rfl nofun ⟨stop_list rfl (fun _ _ => .map) (fun z h => ?_) id
      (fun e he => ih e (List.mem_filter.mp he).1), own_start⟩ (firm_list ih)
    cases h with
    | refl => exact Or.inl rfl
    | map h1 h2 => exact Or.inr ⟨_, h1, h2⟩
  | optional _ _ _ ih =>
    simp only [List.mem_singleton, forall_eq] at ih ⊢
    refine firm_node rfl nofun ⟨stop_step ih.self.1 rfl (fun _ => .optional) (fun z h => ?_) id, own_start⟩ ih.2.2
    cases h with
    | refl => exact Or.inl rfl
    | optional h => exact Or.inr h
  | unwrap _ _ _ ih =>
    simp only [List.mem_singleton, forall_eq] at ih ⊢
    refine firm_node rfl nofun ⟨stop_step ih.self.1 rfl (fun _ => .unwrap) (fun z h => ?_) id, own_start⟩ ih.2.2
    cases h with
    | refl => exact Or.inl rfl
    | unwrap h => exact Or.inr h
  | enumeration _ _ _ ih =>
    simp only [List.mem_singleton, forall_eq] at ih ⊢
    refine firm_node rfl nofun ⟨stop_step ih.self.1 rfl (fun _ => .enumeration) (fun z h => ?_) id, own_start⟩ ih.2.2
    cases h with
    | refl => exact Or.inl rfl
    | enumeration h => exact Or.inr h
  | occ0 _ _ _ ih | occ1 _ _ _ ih =>
    simp only [List.mem_singleton, forall_eq] at ih ⊢
    exact firm_nm ih
  | tag =>
    simp only [List.mem_singleton, forall_eq]
    exact firm_node (ys := []) rfl nofun ⟨stop_none rfl trivial, own_start⟩ nofun
  | @tagItem _ _ _ _ _ _ _ _ x _ _ _ _ _ _ _ ih =>
    simp only [List.mem_singleton, forall_eq] at ih ⊢
    refine firm_node rfl nofun ⟨stop_step ih.self.1 ?_ (fun _ => .tag) (fun z h => ?_) (fun h => ?_), own_start⟩ ih.2.2
    · rw [Node.stop]; cases x.stop <;> rfl
    · cases h with
      | refl => exact Or.inl rfl
      | tag h => exact Or.inr h
    · have := ih.isNil
      cases x <;> first | exact h | exact this rfl
  | colon _ _ _ _ _ _ _ _ ih =>
    simp only [List.mem_singleton, forall_eq] at ih ⊢
    exact firm_entry ih
  | comma _ _ _ ih => exact ih
  | choice _ _ _ _ _ ih1 ih2 =>
    simp only [List.mem_singleton, forall_eq] at ih1 ih2 ⊢
    refine firm_node rfl nofun ⟨stop_step ih2.self.1 rfl (fun _ => .typeChoice) (fun z h => ?_) id,
      start_step ih1.self.2 rfl (fun _ => .typeChoice) (fun z h => ?_) id⟩ (firm_two ih1 ih2)
    all_goals
      cases h with
      | refl => exact Or.inl rfl
      | typeChoice h => exact Or.inr h
  | size _ _ _ _ _ _ ih1 ih2 =>
    simp only [List.mem_singleton, forall_eq] at ih1 ih2 ⊢
    refine firm_node rfl nofun ⟨stop_step ih2.self.1 rfl (fun _ => .size) (fun z h => ?_) id,
      start_step ih1.self.2 rfl (fun _ => .size) (fun z h => ?_) id⟩ (firm_two ih1 ih2)
    all_goals
      cases h with
      | refl => exact Or.inl rfl
      | size h => exact Or.inr h
  | regexp _ _ _ _ _ _ ih1 ih2 =>
    simp only [List.mem_singleton, forall_eq] at ih1 ih2 ⊢
    refine firm_node rfl nofun ⟨stop_step ih2.self.1 rfl (fun _ => .regexp) (fun z h => ?_) id,
      own_start⟩ (firm_two ih1 ih2)
    cases h with
    | refl => exact Or.inl rfl
    | regexp h => exact Or.inr h
  | bits _ _ _ _ _ ih1 ih2 =>
    simp only [List.mem_singleton, forall_eq] at ih1 ih2 ⊢
    refine firm_node rfl nofun ⟨stop_step ih2.self.1 rfl (fun _ => .bits) (fun z h => ?_) id,
      start_step ih1.self.2 rfl (fun _ => .bits) (fun z h => ?_) id⟩ (firm_two ih1 ih2)
    all_goals
      cases h with
      | refl => exact Or.inl rfl
      | bits h => exact Or.inr h
  | compare _ _ _ _ _ _ ih1 ih2 =>
    simp only [List.mem_singleton, forall_eq] at ih1 ih2 ⊢
    refine firm_node rfl nofun ⟨stop_step ih2.self.1 rfl (fun _ => .comparator) (fun z h => ?_) id,
      start_none rfl trivial⟩ ?_
    · cases h with
      | refl => exact Or.inl rfl
      | comparator h => exact Or.inr h
    · intro y hy hk
      rcases List.mem_append.mp hy with h | h
      · simp only [subs, List.mem_singleton] at h
        exact absurd h (hk _)
      · exact ih2.2.2 y h hk
  | occ _ _ _ _ _ _ _ ih =>
    simp only [List.mem_singleton, forall_eq] at ih ⊢
    exact firm_nm ih
  | rangeEmpty =>
    simp only [List.mem_singleton, forall_eq]
    exact firm_node (ys := []) rfl nofun ⟨stop_none rfl trivial, start_none rfl trivial⟩ nofun
  | rangeIdent _ _ _ _ _ ih1 ih2 | rangeInt _ _ _ _ _ ih1 ih2 | rangeIntIdent _ _ _ _ _ ih1 ih2
  | rangeFloat _ _ _ _ _ ih1 ih2 | rangeFloatIdent _ _ _ _ _ ih1 ih2 =>
    simp only [List.mem_singleton, forall_eq] at ih1 ih2 ⊢
    exact firm_range ih1 ih2
  | rangeIntOther _ _ _ _ _ _ _ _ ih1 _ | rangeFloatOther _ _ _ _ _ _ _ _ ih1 _ =>
    simp only [List.mem_singleton, forall_eq] at ih1 ⊢
    exact firm_rangeNil ih1

omit [Unicode] in
theorem firm_rule {p n c} {v : Node} (hv : Firm v) : Firm (.rule p n v c) := by
  refine firm_node rfl nofun ⟨stop_step hv.self.1 rfl (fun _ => .rule) (fun z h => ?_) (fun h => ?_), own_start⟩ hv.2.2
  · cases h with
    | refl => exact Or.inl rfl
    | rule h => exact Or.inr h
  · have := hv.isNil
    cases v <;> first | exact h | exact this rfl

theorem ruleStep_firm {p q : PState} {e err} (h : RuleStep p e err q) : e = .nil ∨ Firm e := by
  cases h with
  | comment _ h =>
    refine Or.inr ?_
    unfold PState.commentNode
    split
    · exact firm_leaf rfl nofun ⟨own_stop, own_start⟩
    · refine firm_leaf rfl nofun ⟨stop_here ?_ (fun _ h => by cases h; rfl) id, own_start⟩
      rw [Node.stop]; split <;> rfl
  | bound _ _ _ _ hd | dup _ _ _ _ hd | choice _ _ _ _ hd =>
    exact Or.inr (firm_rule (der_firm hd _ (List.mem_singleton.mpr rfl)))
  | failed =>
    exact Or.inr (firm_node (ys := []) rfl nofun ⟨stop_none rfl trivial, own_start⟩ nofun)
  | noAssign => exact Or.inl rfl
  | noIdent => exact Or.inl rfl

theorem run_firm {p q : PState} {rules} (h : FileRun p rules q) : ∀ e ∈ rules, Firm e := by
  induction h with
  | stop => simp
  | @step p q r s e err rules _ hst hn hrun ih =>
    intro e' he
    rcases List.mem_append.mp he with he | he
    · split at he
      · cases he
      · rename_i hnil
        rw [List.mem_singleton] at he
        subst he
        rcases ruleStep_firm hst with h | h
        · rw [h] at hnil; exact absurd rfl hnil
        · exact h
    · exact ih e' he

end Cddlc
