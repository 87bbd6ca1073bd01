import Verif.Lemmas.Walk
import Verif.Lemmas.FileFacts

/-! Nil pointers in parsed trees: only ever the left operand of a comparison. -/

namespace Cddlc
open Spec

/-- Not a nil pointer. -/
def NotNilPtr (x : Node) : Prop := ∀ k, x ≠ .typedNil k

/-- Neither the node nor a child of a node below it, except the left one of a comparison, is a nil
pointer. -/
def Real (x : Node) : Prop := NotNilPtr x ∧ (∀ y ∈ subs x,
  (∀ p t o a b, y ≠ .comparator p t o a b) → ∀ z ∈ kids y, NotNilPtr z) ∧
  ∀ p t o a b, .comparator p t o a b ∈ subs x → NotNilPtr b

theorem real_node {x : Node} (h : NotNilPtr x) (hk : ∀ z ∈ kids x, Real z) : Real x := by
  refine ⟨h, fun y hy hc z hz => ?_, fun p t o a b hb => ?_⟩
  · rcases subs_kids hy with rfl | ⟨k, hk', hy⟩
    · exact (hk z hz).1
    · exact (hk k hk').2.1 y hy hc z hz
  · rcases subs_kids hb with rfl | ⟨k, hk', hb⟩
    · by_cases hn : b.isNil = true
      · cases b <;> first | (cases hn; done) | exact fun _ h => by cases h
      · exact (hk b (by simp only [Bool.not_eq_true] at hn; simp [kids, kids.present, hn])).1
    · exact (hk k hk').2.2 p t o a b hb

theorem real_leaf {x : Node} (h : NotNilPtr x) (hk : kids x = []) : Real x :=
  real_node h (by rw [hk]; nofun)

theorem present_one {P : Node → Prop} {a : Node} (ha : P a) : ∀ z ∈ kids.present [a], P z := by
  intro z hz
  rcases List.mem_singleton.1 (List.mem_filter.1 hz).1 with rfl
  exact ha

theorem present_two {P : Node → Prop} {a b : Node} (ha : P a) (hb : P b) :
    ∀ z ∈ kids.present [a, b], P z := by
  intro z hz
  have := (List.mem_filter.1 hz).1
  simp only [List.mem_cons, List.not_mem_nil, or_false] at this
  rcases this with rfl | rfl
  · exact ha
  · exact hb

theorem present_three {P : Node → Prop} {a b c : Node} (ha : P a) (hb : P b) (hc : P c) :
    ∀ z ∈ kids.present [a, b, c], P z := by
  intro z hz
  have := (List.mem_filter.1 hz).1
  simp only [List.mem_cons, List.not_mem_nil, or_false] at this
  rcases this with rfl | rfl | rfl
  · exact ha
  · exact hb
  · exact hc

theorem real_ident (i : Ident) : Real (.ident i) := real_leaf (fun _ h => by cases h) rfl
theorem real_nil : Real .nil := real_leaf (fun _ h => by cases h) rfl
theorem real_comment (c : Option Comment) : Real (someComment c) := by
  cases c
  · exact real_nil
  · exact real_leaf (fun _ h => by cases h) rfl
theorem real_uint (c : Option UintLit) : Real (someUint c) := by
  cases c
  · exact real_nil
  · exact real_leaf (fun _ h => by cases h) rfl

variable [Unicode]

theorem der_real {b} {p q : PState} {xs} (h : Der b p xs q) : ∀ x ∈ xs, Real x := by
  induction h with
  | nil => nofun
  | cons _ _ _ ih1 ih2 =>
    intro x hx
    rcases List.mem_cons.1 hx with rfl | hx
    · exact ih1 _ List.mem_cons_self
    · exact ih2 x hx
  | skip _ _ _ _ ih => exact ih
  | leaf h =>
    simp only [List.mem_singleton, forall_eq]
    cases h <;> exact real_leaf (fun _ h => by cases h) rfl
  | ref => simp only [List.mem_singleton, forall_eq]; exact real_ident _
  | socket => simp only [List.mem_singleton, forall_eq]; exact real_ident _
  | field _ _ _ _ _ _ ih =>
    simp only [List.mem_singleton, forall_eq] at ih ⊢
    exact real_node (fun _ h => by cases h) (present_three (real_ident _) ih (real_comment _))
  | group _ _ _ _ ih | array _ _ _ _ ih | map _ _ _ _ ih =>
    simp only [List.mem_singleton, forall_eq]
    exact real_node (fun _ h => by cases h) fun z hz => ih z (List.mem_filter.1 hz).1
  | optional _ _ _ ih | unwrap _ _ _ ih | enumeration _ _ _ ih =>
    simp only [List.mem_singleton, forall_eq] at ih ⊢
    exact real_node (fun _ h => by cases h) (present_one ih)
  | occ0 _ _ _ ih | occ1 _ _ _ ih =>
    simp only [List.mem_singleton, forall_eq] at ih ⊢
    exact real_node (fun _ h => by cases h) (present_three (real_uint (some _)) (real_uint _) ih)
  | tag =>
    simp only [List.mem_singleton, forall_eq]
    exact real_node (fun _ h => by cases h) (present_three (real_uint _) (real_uint _) real_nil)
  | tagItem _ _ _ _ _ _ _ ih =>
    simp only [List.mem_singleton, forall_eq] at ih ⊢
    exact real_node (fun _ h => by cases h) (present_three (real_uint _) (real_uint _) ih)
  | colon _ _ _ _ _ _ _ _ ih =>
    simp only [List.mem_singleton, forall_eq] at ih ⊢
    exact real_node (fun _ h => by cases h) (present_three (real_ident _) ih (real_comment _))
  | comma _ _ _ ih => exact ih
  | choice _ _ _ _ _ ih1 ih2 =>
    simp only [List.mem_singleton, forall_eq] at ih1 ih2 ⊢
    exact real_node (fun _ h => by cases h) (present_two ih1 ih2)
  | size _ _ _ _ _ _ ih1 ih2 =>
    simp only [List.mem_singleton, forall_eq] at ih1 ih2 ⊢
    exact real_node (fun _ h => by cases h) (present_two ih1 ih2)
  | regexp _ _ _ _ _ _ ih1 ih2 =>
    simp only [List.mem_singleton, forall_eq] at ih1 ih2 ⊢
    exact real_node (fun _ h => by cases h) (present_two ih1 ih2)
  | bits _ _ _ _ _ ih1 ih2 =>
    simp only [List.mem_singleton, forall_eq] at ih1 ih2 ⊢
    exact real_node (fun _ h => by cases h) (present_two ih1 ih2)
  | compare _ _ _ _ _ _ _ ih =>
    simp only [List.mem_singleton, forall_eq] at ih ⊢
    have hkid : ∀ {p t o b k}, Real b → k ∈ kids (.comparator p t o (.typedNil .intType) b) →
        k = .typedNil .intType ∨ Real k := by
      intro p t o b k ih hk
      have := (List.mem_filter.1 hk).1
      simp only [List.mem_cons, List.not_mem_nil, or_false] at this
      rcases this with h | h
      · exact Or.inl h
      · exact Or.inr (by rw [h]; exact ih)
    refine ⟨fun _ h => (by cases h), fun y hy hc z hz => ?_, fun p t o a b hb => ?_⟩
    · rcases subs_kids hy with rfl | ⟨k, hk, hy⟩
      · exact absurd rfl (hc _ _ _ _ _)
      · rcases hkid ih hk with rfl | h
        · simp only [subs, List.mem_singleton] at hy; subst hy; cases hz
        · exact h.2.1 y hy hc z hz
    · rcases subs_kids hb with h | ⟨k, hk, hb⟩
      · cases h; exact ih.1
      · rcases hkid ih hk with rfl | h
        · simp [subs] at hb
        · exact h.2.2 p t o a b hb
  | occ _ _ _ _ _ _ _ ih =>
    simp only [List.mem_singleton, forall_eq] at ih ⊢
    exact real_node (fun _ h => by cases h) (present_three (real_uint (some _)) (real_uint _) ih)
  | rangeEmpty =>
    simp only [List.mem_singleton, forall_eq]
    exact real_node (fun _ h => by cases h) (present_two real_nil real_nil)
  | rangeIdent _ _ _ _ _ ih1 ih2 | rangeInt _ _ _ _ _ ih1 ih2 | rangeIntIdent _ _ _ _ _ ih1 ih2
  | rangeFloat _ _ _ _ _ ih1 ih2 | rangeFloatIdent _ _ _ _ _ ih1 ih2 =>
    simp only [List.mem_singleton, forall_eq] at ih1 ih2 ⊢
    exact real_node (fun _ h => by cases h) (present_two ih1 ih2)
  | rangeIntOther _ _ _ _ _ _ _ _ ih1 | rangeFloatOther _ _ _ _ _ _ _ _ ih1 =>
    simp only [List.mem_singleton, forall_eq] at ih1 ⊢
    exact real_node (fun _ h => by cases h) (present_two ih1 real_nil)

theorem ruleStep_real {p q : PState} {e err} (h : RuleStep p e err q) : Real e := by
  have rule : ∀ {x name tc}, Real x → Real (.rule {} name x tc) := fun h =>
    real_node (fun _ h => by cases h) (present_three (real_ident _) h (real_comment _))
  cases h with
  | comment =>
    unfold PState.commentNode
    split
    · exact real_leaf (fun _ h => by cases h) rfl
    · refine real_node (fun _ h => by cases h) fun z hz => ?_
      obtain ⟨c, _, rfl⟩ := List.mem_map.1 hz
      exact real_leaf (fun _ h => by cases h) rfl
  | bound _ _ _ _ hd | dup _ _ _ _ hd | choice _ _ _ _ hd =>
    exact rule (der_real hd _ (List.mem_singleton.2 rfl))
  | failed => exact rule real_nil
  | noAssign => exact real_nil
  | noIdent => exact real_nil

theorem run_real {p q : PState} {rules} (h : FileRun p rules q) : ∀ e ∈ rules, Real e := by
  induction h with
  | stop => nofun
  | step _ hst _ _ ih =>
    intro e' he
    rcases List.mem_append.mp he with he | he
    · split at he
      · cases he
      · rw [List.mem_singleton] at he
        subst he
        exact ruleStep_real hst
    · exact ih e' he

/-- What is bound after `ParseFile` was bound before or is the value of a returned rule. -/
theorem bound_from {n : Nat} {src : Bytes} {env : Env} {res : PState.FileResult}
    (h : parseSource n src env = .ok res) (k : Bytes) :
    res.final.env.get k = env.get k ∨ ∃ rules, res.cddl = some rules ∧ ∃ v,
      FirstDecl (Lexer.new src) rules k v ∧ res.final.env.get k = v := by
  obtain ⟨p, hon, hp, h2, _, _, _, hc⟩ := parseSource_run res h
  rcases hc with ⟨_, rfl⟩ | ⟨_, rules', q, hr, rfl⟩
  · exact Or.inl (by rw [h2])
  · show q.env.get k = _ ∨ ∃ rules, some rules' = some rules ∧ _
    unfold Env.get
    rcases run_env hr hon k with ⟨v, h1, h3⟩ | ⟨h1, h3⟩
    · rw [h2] at h1; exact Or.inl (by rw [h1, h3])
    · rcases h3 with ⟨v, h4, h5⟩ | ⟨h4, h5⟩
      · exact Or.inr ⟨rules', rfl, v, h4, by show (match assocFind k q.env.symbols with | some n => n | none => .nil) = v; rw [h5]⟩
      · rw [h2] at h1; exact Or.inl (by rw [h1, h5])

/-- So nil pointers do not get into the environment. -/
theorem bound_real {n : Nat} {src : Bytes} {env : Env} {res : PState.FileResult}
    (h : parseSource n src env = .ok res) (k : Bytes) (he : Real (env.get k)) :
    Real (res.final.env.get k) := by
  rcases bound_from h k with h1 | ⟨rules, ht, v, ⟨pre, e, post, hr, ⟨pos, tc, rfl, _⟩, _⟩, h1⟩
  · rw [h1]; exact he
  · obtain ⟨p, q, _, _, _, _, hrun, _⟩ := tree_run h ht
    have := run_real hrun (.rule {} ⟨pos, k⟩ v tc) (by rw [hr]; simp)
    rw [h1]
    refine ⟨?_, fun y hy => this.2.1 y (by simp [subs, hy]), fun p t o a b hb => this.2.2 p t o a b (by simp [subs, hb])⟩
    by_cases hv : v.isNil = true
    · cases v <;> first | (cases hv; done) | exact fun _ h => by cases h
    · exact this.2.1 _ (mem_subs_self rfl) (fun _ _ _ _ _ h => by cases h) v
        (by simp only [Bool.not_eq_true] at hv; simp [kids, kids.present, hv])

end Cddlc
