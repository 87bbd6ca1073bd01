import Verif.Lemmas.Listable
import Verif.Spec.Walk
import Verif.Spec.Tree

/-! Facts about `walk`: it visits a node, then the walks of `kids`, then nil. -/

namespace Cddlc
open Spec

/-- What the cases of `walk` do with a node they do not know. -/
def trouble : Node → Option PanicKind
  | .nil | .badNode .. | .boolLit .. | .commentGroup _ | .bits .. | .enumeration .. | .uintType ..
      => some .explicit
  | .typedNil k => walkNilPointer k
  | _ => none

theorem trouble_none {n : Node} : trouble n = none ↔ Known n := by
  cases n <;> simp [trouble, Known]
  case typedNil k => cases k <;> simp [walkNilPointer]

variable {σ V : Type} (vs : Visitors σ V)

/-- The computation that does nothing. -/
def Act.skip : Act σ Unit := fun s => (s, .ok ())

theorem Act.bind_skip (a : Act σ Unit) : Act.bind a (fun _ => Act.skip) = a := by
  funext s
  unfold Act.bind Act.skip
  rcases a s with ⟨s', _ | _ | _⟩ <;> rfl

theorem Act.skip_bind (f : Unit → Act σ Unit) : Act.bind Act.skip f = f () := rfl

theorem Act.bind_assoc {α β γ : Type} (a : Act σ α) (f : α → Act σ β) (g : β → Act σ γ) :
    Act.bind (Act.bind a f) g = Act.bind a fun x => Act.bind (f x) g := by
  funext s
  unfold Act.bind
  rcases a s with ⟨s', _ | _ | _⟩ <;> rfl

theorem walkLeaf_eq {v : V} {n : Node}
    (hw : n.isNil = false → walk vs v n = walkAround vs v n fun _ => Act.skip) :
    walkLeaf vs v n = walkList vs v (kids.present [n]) := by
  unfold walkLeaf kids.present
  by_cases hn : n.isNil = true
  · rw [if_pos hn]; simp [hn, walkList]
  · rw [if_neg hn]
    simp only [Bool.not_eq_true] at hn
    simp only [List.filter, hn, Bool.not_false, walkList]
    rw [show (fun _ => fun s => (s, .ok ())) = fun (_ : Unit) => (Act.skip : Act σ Unit) from rfl,
      Act.bind_skip, hw hn]
    rfl

theorem walkField_eq (v : V) (n : Node) :
    ifPresent n (walk vs v n) = walkList vs v (kids.present [n]) := by
  unfold ifPresent kids.present
  cases h : n.isNil
  · simp only [List.filter, h, Bool.not_false, walkList]
    exact (Act.bind_skip _).symm
  · simp only [List.filter, h, Bool.not_true, walkList, if_true]

theorem walkList_append (v : V) (xs ys : List Node) : walkList vs v (xs ++ ys) =
    Act.bind (walkList vs v xs) fun _ => walkList vs v ys := by
  induction xs with
  | nil => simp only [List.nil_append, walkList]; rfl
  | cons x xs ih => simp only [List.cons_append, walkList, ih, Act.bind_assoc]

theorem present_append (xs ys : List Node) :
    kids.present (xs ++ ys) = kids.present xs ++ kids.present ys := List.filter_append ..

theorem two (v : V) (a b : Node) : (Act.bind (walkList vs v (kids.present [a])) fun _ =>
    walkList vs v (kids.present [b])) = walkList vs v (kids.present [a, b]) := by
  rw [← walkList_append, ← present_append]; rfl

theorem three (v : V) (a b c : Node) : (Act.bind (walkList vs v (kids.present [a])) fun _ =>
    walkList vs v (kids.present [b, c])) = walkList vs v (kids.present [a, b, c]) := by
  rw [← walkList_append, ← present_append]; rfl

theorem leaf_ident (v : V) (i : Ident) :
    walkLeaf vs v (.ident i) = walkList vs v (kids.present [.ident i]) :=
  walkLeaf_eq vs fun _ => by rw [walk]; rfl

theorem leaf_tstr (v : V) (i : Tstr) :
    walkLeaf vs v (.tstr i) = walkList vs v (kids.present [.tstr i]) :=
  walkLeaf_eq vs fun _ => by rw [walk]; rfl

theorem leaf_comment (v : V) (c : Option Comment) :
    walkLeaf vs v (someComment c) = walkList vs v (kids.present [someComment c]) := by
  cases c with
  | none => exact walkLeaf_eq vs nofun
  | some c => exact walkLeaf_eq vs fun _ => by rw [someComment, walk]; rfl

theorem leaf_uint (v : V) (c : Option UintLit) :
    walkLeaf vs v (someUint c) = walkList vs v (kids.present [someUint c]) := by
  cases c with
  | none => exact walkLeaf_eq vs nofun
  | some c => exact walkLeaf_eq vs fun _ => by rw [someUint, walk]; rfl

/-- The cases of `walk`, in terms of `kids`. -/
def walkBody (n : Node) (v : V) : Act σ Unit := match trouble n with
  | some w => fun s => (s, .panic w)
  | none => walkList vs v (kids n)

theorem walk_eq (v : V) (n : Node) : walk vs v n = walkAround vs v n (walkBody vs n) := by
  cases n <;> rw [walk] <;> unfold walkBody <;> congr 1 <;> funext v' <;>
    simp only [trouble, kids, walkList, leaf_ident, leaf_tstr, leaf_comment, leaf_uint,
      walkField_eq, two, three]
  case typedNil k => cases h : walkNilPointer k <;> simp only

/-- The visitors `vs`, writing down each call of `Visit` and whether it returned a visitor. -/
def Visitors.logged : Visitors (σ × List (Node × Bool)) V where
  visit v n st := match vs.visit v n st.1 with
    | (s, .ok r) => ((s, st.2 ++ [(n, r.isSome)]), .ok r)
    | (s, .panic w) => ((s, st.2 ++ [(n, false)]), .panic w)
    | (s, .hang) => ((s, st.2 ++ [(n, false)]), .hang)

/-- `Visit` always returns, and which nodes it continues with is given by `d`. -/
def Visitors.Decides (d : Node → Bool) : Prop :=
  ∀ v n s, ∃ s' r, vs.visit v n s = (s', .ok r) ∧ r.isSome = d n

/-- `Visit` always returns. -/
def Visitors.Returns : Prop := ∀ v n s, ∃ s' r, vs.visit v n s = (s', .ok r)

/-- How the computations `a` and `b` of a logged and a plain walk compare. -/
structure Logs (W S : List (Node × Bool) → Prop) (a : Act (σ × List (Node × Bool)) Unit)
    (b : Act σ Unit) : Prop where
  logs : ∀ s l, ∃ log, a (s, l) = (((b s).1, l ++ log), (b s).2) ∧
    ((b s).2 = .ok () → W log) ∧
    (vs.Returns → (b s).2 ≠ .hang ∧ ∀ w, (b s).2 = .panic w → S log) ∧
    (∀ d, vs.Decides d → ∀ e ∈ log, e.2 = d e.1)

variable {vs}

theorem Logs.mono {W S W' S' : List (Node × Bool) → Prop} {a : Act (σ × List (Node × Bool)) Unit}
    {b : Act σ Unit} (h : Logs vs W S a b) (hw : ∀ l, W l → W' l) (hs : ∀ l, S l → S' l) :
    Logs vs W' S' a b := by
  refine ⟨fun s l => ?_⟩
  obtain ⟨log, h1, h2, h3, h4⟩ := h.logs s l
  exact ⟨log, h1, fun hb => hw _ (h2 hb), fun hr => ⟨(h3 hr).1, fun w hw => hs _ ((h3 hr).2 w hw)⟩, h4⟩

theorem Logs.bind {W S W' S' : List (Node × Bool) → Prop}
    {a a' : Act (σ × List (Node × Bool)) Unit} {b b' : Act σ Unit}
    (h : Logs vs W S a b) (h' : Logs vs W' S' a' b') :
    Logs vs (fun l => ∃ l1 l2, l = l1 ++ l2 ∧ W l1 ∧ W' l2)
      (fun l => S l ∨ ∃ l1 l2, l = l1 ++ l2 ∧ W l1 ∧ S' l2)
      (Act.bind a fun _ => a') (Act.bind b fun _ => b') := by
  refine ⟨fun s l => ?_⟩
  obtain ⟨log, h1, h2, h3, h4⟩ := h.logs s l
  unfold Act.bind
  rw [h1]
  rcases hb : b s with ⟨s', u | w | _⟩
  · obtain ⟨log', g1, g2, g3, g4⟩ := h'.logs s' (l ++ log)
    rw [hb] at h2
    refine ⟨log ++ log', ?_, ?_, ?_, ?_⟩
    · show a' (s', l ++ log) = _
      rw [g1, List.append_assoc]
    · intro ho
      exact ⟨_, _, rfl, h2 rfl, g2 ho⟩
    · intro hr
      exact ⟨(g3 hr).1, fun w hw => Or.inr ⟨_, _, rfl, h2 rfl, (g3 hr).2 w hw⟩⟩
    · intro d hd e he
      rcases List.mem_append.1 he with he | he
      · exact h4 d hd e he
      · exact g4 d hd e he
  · refine ⟨log, rfl, nofun, fun hr => ⟨nofun, fun w' hw' => Or.inl ((h3 hr).2 w' (by rw [hb]; exact hw'))⟩, h4⟩
  · refine ⟨log, rfl, nofun, fun hr => absurd (by rw [hb]) (h3 hr).1, h4⟩

theorem logs_list {v : V} : ∀ {xs : List Node}, (∀ x ∈ xs, Logs vs (Walked x) (Stuck x) (walk vs.logged v x) (walk vs v x)) →
    Logs vs (WalkedAll xs)
      (fun log => ∃ pre k post l m, xs = pre ++ k :: post ∧ WalkedAll pre l ∧ Stuck k m ∧ log = l ++ m)
      (walkList vs.logged v xs) (walkList vs v xs)
  | [], _ => by
    simp only [walkList]
    exact ⟨fun s l => ⟨[], by simp, fun _ => .nil, fun _ => ⟨nofun, nofun⟩, nofun⟩⟩
  | x :: xs, h => by
    simp only [walkList]
    have ih := logs_list (v := v) fun y hy => h y (List.mem_cons_of_mem _ hy)
    refine ((h x List.mem_cons_self).bind ih).mono ?_ ?_
    · rintro l ⟨l1, l2, rfl, h1, h2⟩
      exact .cons h1 h2
    · rintro l (h1 | ⟨l1, l2, rfl, h1, pre, k, post, l3, m, rfl, h2, h3, rfl⟩)
      · exact ⟨[], x, xs, [], l, rfl, .nil, h1, rfl⟩
      · exact ⟨x :: pre, k, post, l1 ++ l3, m, rfl, .cons h1 h2, h3, by rw [List.append_assoc]⟩

theorem logs_walk (n : Node) : ∀ v : V, Logs vs (Walked n) (Stuck n) (walk vs.logged v n) (walk vs v n) := by
  induction n using tree_ind with
  | h n ih =>
    intro v
    rw [walk_eq, walk_eq]
    refine ⟨fun s l => ?_⟩
    unfold walkAround
    rcases hv : vs.visit v n s with ⟨s', r | w | _⟩
    case h.ok =>
      have hd1 : ∀ d, vs.Decides d → r.isSome = d n := by
        intro d hd
        obtain ⟨s2, r2, h, h2⟩ := hd v n s
        rw [hv] at h; cases h; exact h2
      cases r with
      | none =>
        refine ⟨[(n, false)], by simp [Act.bind, Visitors.logged, hv], fun _ => .stop n,
          fun _ => ⟨?_, ?_⟩, ?_⟩
        · simp [Act.bind, hv]
        · simp [Act.bind, hv]
        · intro d hd e he
          simp only [List.mem_singleton] at he
          subst he; exact hd1 d hd
      | some v' =>
        have hbody : Logs vs (fun log => Known n ∧ WalkedAll (kids n) log)
            (fun log => Stuck n ((n, true) :: log)) (walkBody vs.logged n v') (walkBody vs n v') := by
          unfold walkBody
          cases ht : trouble n with
          | some w =>
            have hk : ¬ Known n := fun hk => by rw [trouble_none.2 hk] at ht; cases ht
            exact ⟨fun s l => ⟨[], by simp, nofun, fun _ => ⟨nofun, fun _ _ => .here hk⟩, nofun⟩⟩
          | none =>
            have hk := trouble_none.1 ht
            refine (logs_list fun x hx => ih x hx v').mono (fun l h => ⟨hk, h⟩) ?_
            rintro l ⟨pre, k, post, l1, m, h1, h2, h3, rfl⟩
            exact .under hk h1 h2 h3
        have hnil : Logs vs (fun log => ∃ b, log = [(Node.nil, b)]) (fun _ => False)
            (Act.bind (vs.logged.visit v' .nil) fun _ s => (s, .ok ()))
            (Act.bind (vs.visit v' .nil) fun _ s => (s, .ok ())) := by
          refine ⟨fun s l => ?_⟩
          rcases hc : vs.visit v' .nil s with ⟨s2, r2 | w2 | _⟩
          · refine ⟨[(.nil, r2.isSome)], by simp [Act.bind, Visitors.logged, hc], fun _ => ⟨_, rfl⟩,
              fun _ => by simp [Act.bind, hc], ?_⟩
            intro d hd e he
            simp only [List.mem_singleton] at he
            obtain ⟨_, _, h, h2⟩ := hd v' .nil s
            rw [hc] at h; cases h; subst he; exact h2
          all_goals
            refine ⟨[(.nil, false)], by simp [Act.bind, Visitors.logged, hc],
              by simp [Act.bind, hc], ?_, ?_⟩
            · intro hr
              obtain ⟨_, _, h⟩ := hr v' .nil s
              rw [hc] at h; cases h
            · intro d hd
              obtain ⟨_, _, h, h2⟩ := hd v' .nil s
              rw [hc] at h; cases h
        obtain ⟨log, h1, h2, h3, h4⟩ := (hbody.bind hnil).logs s' (l ++ [(n, true)])
        refine ⟨(n, true) :: log, ?_, ?_, ?_, ?_⟩
        · rw [List.append_cons]
          simp only [Act.bind, Visitors.logged, hv] at h1 ⊢
          exact h1
        · intro ho
          simp only [Act.bind, hv] at ho h2
          obtain ⟨l1, l2, rfl, ⟨h5, h6⟩, b, rfl⟩ := h2 ho
          exact .into b h5 h6
        · intro hr
          simp only [Act.bind, hv] at h3 ⊢
          refine ⟨(h3 hr).1, fun w hw => ?_⟩
          rcases (h3 hr).2 w hw with h | ⟨_, _, _, _, h⟩
          · exact h
          · exact h.elim
        · intro d hd e he
          rcases List.mem_cons.1 he with rfl | he
          · exact hd1 d hd
          · exact h4 d hd e he
    all_goals
      refine ⟨[(n, false)], by simp [Act.bind, Visitors.logged, hv],
        by simp [Act.bind, hv], ?_, ?_⟩
      · intro hr
        obtain ⟨_, _, h⟩ := hr v n s
        rw [hv] at h; cases h
      · intro d hd
        obtain ⟨_, _, h, h2⟩ := hd v n s
        rw [hv] at h; cases h

theorem flatMap_attach {α β : Type} (xs : List α) (f : α → List β) :
    (xs.attach.flatMap fun x => f x.1) = xs.flatMap f := by
  rw [← List.flatMap_map (f := Subtype.val) (g := f), List.attach_map_subtype_val]

theorem preorder_eq (n : Node) : preorder n = n :: (kids n).flatMap preorder := by
  rw [preorder, flatMap_attach]

theorem bracket_eq (n : Node) : bracket n = n :: (kids n).flatMap bracket ++ [.nil] := by
  rw [bracket, flatMap_attach]

theorem pruned_eq (d : Node → Bool) (n : Node) : pruned d n =
    if d n then n :: (kids n).flatMap (pruned d) ++ [.nil] else [n] := by
  rw [pruned, flatMap_attach]

theorem pruned_all (n : Node) : pruned (fun _ => true) n = bracket n := by
  induction n using tree_ind with
  | h n ih =>
    rw [pruned_eq, bracket_eq, if_pos rfl]
    congr 2
    rw [List.flatMap_def, List.flatMap_def, List.map_congr_left ih]

theorem reached_all {n x : Node} : Reached (fun _ => true) n x ↔ x ∈ preorder n := by
  induction n using tree_ind with
  | h n ih =>
    rw [preorder_eq, List.mem_cons, List.mem_flatMap]
    constructor
    · rintro (_ | ⟨_, hk, h⟩)
      · exact Or.inl rfl
      · exact Or.inr ⟨_, hk, (ih _ hk).1 h⟩
    · rintro (rfl | ⟨k, hk, h⟩)
      · exact .root _
      · exact .under rfl hk ((ih _ hk).2 h)

/-- The calls of a complete walk whose visitors continue as told by `d`. -/
theorem walked_pruned {d : Node → Bool} (n : Node) : ∀ {log}, Walked n log →
    (∀ e ∈ log, e.2 = d e.1) →
    log.map Prod.fst = pruned d n ∧ ∀ x, Reached d n x → d x = true → Known x := by
  induction n using tree_ind with
  | h n ih =>
    intro log hw hd
    rw [pruned_eq]
    cases hw with
    | stop =>
      have hn : false = d n := hd _ (List.mem_singleton.2 rfl)
      rw [← hn]
      refine ⟨rfl, fun x hx hdx => ?_⟩
      cases hx with
      | root => rw [← hn] at hdx; cases hdx
      | under h => rw [← hn] at h; cases h
    | @into _ log b hk hall =>
      have hn : true = d n := hd (n, true) (by simp)
      rw [← hn, if_pos rfl]
      have aux : ∀ xs log, (∀ k ∈ xs, ∀ {log}, Walked k log → (∀ e ∈ log, e.2 = d e.1) →
            log.map Prod.fst = pruned d k ∧ ∀ x, Reached d k x → d x = true → Known x) →
          WalkedAll xs log → (∀ e ∈ log, e.2 = d e.1) →
          log.map Prod.fst = xs.flatMap (pruned d) ∧
            ∀ k ∈ xs, ∀ x, Reached d k x → d x = true → Known x := by
        intro xs
        induction xs with
        | nil => intro log _ h _; cases h; exact ⟨rfl, nofun⟩
        | cons x xs ihx =>
          intro log hx h hd
          cases h with
          | cons h1 h2 =>
            have a := hx x List.mem_cons_self h1 fun e he => hd e (List.mem_append_left _ he)
            have b := ihx _ (fun k hk => hx k (List.mem_cons_of_mem _ hk)) h2
              fun e he => hd e (List.mem_append_right _ he)
            refine ⟨by rw [List.map_append, a.1, b.1, List.flatMap_cons], fun k hk => ?_⟩
            rcases List.mem_cons.1 hk with rfl | hk
            · exact a.2
            · exact b.2 k hk
      have := aux _ _ ih hall fun e he => hd e (by simp [he])
      refine ⟨by simp [this.1], fun x hx hdx => ?_⟩
      cases hx with
      | root => exact hk
      | under _ hk hr => exact this.2 _ hk x hr hdx

theorem stuck_reached {d : Node → Bool} {n : Node} {log} (h : Stuck n log) :
    (∀ e ∈ log, e.2 = d e.1) → ∃ x, Reached d n x ∧ d x = true ∧ ¬ Known x := by
  induction h with
  | @here n hk => intro hd; exact ⟨n, .root n, (hd (n, true) (by simp)).symm, hk⟩
  | @under n pre k post l m hk hkids _ _ ih =>
    intro hd
    obtain ⟨x, h1, h2, h3⟩ := ih fun e he => hd e (by simp [he])
    exact ⟨x, .under (hd (n, true) (by simp)).symm (by rw [hkids]; simp) h1, h2, h3⟩

/-- Opening calls less closing calls, with `Visit(nil)` closing. -/
def depth (calls : List Node) : Int :=
  (calls.map fun x => if x.isNil then (-1 : Int) else 1).sum

theorem depth_cons (x : Node) (xs) : depth (x :: xs) = (if x.isNil then -1 else 1) + depth xs := rfl

theorem depth_append (xs ys : List Node) : depth (xs ++ ys) = depth xs + depth ys := by
  unfold depth; rw [List.map_append, List.sum_append]

/-- The calls of the walk of a tree without missing elements are balanced. -/
theorem bracket_balanced (n : Node) : (∀ x ∈ preorder n, x.isNil = false) →
    (bracket n).filter (fun x => !x.isNil) = preorder n ∧ depth (bracket n) = 0 ∧
    ∀ k, 0 < k → k < (bracket n).length → 0 < depth ((bracket n).take k) := by
  induction n using tree_ind with
  | h n ih =>
    rw [bracket_eq, preorder_eq]
    intro hn
    have hn0 : n.isNil = false := hn n List.mem_cons_self
    have aux : ∀ xs : List Node, (∀ k ∈ xs, (bracket k).filter (fun x => !x.isNil) = preorder k ∧
          depth (bracket k) = 0 ∧
          ∀ i, 0 < i → i < (bracket k).length → 0 < depth ((bracket k).take i)) →
        (xs.flatMap bracket).filter (fun x => !x.isNil) = xs.flatMap preorder ∧
        depth (xs.flatMap bracket) = 0 ∧ ∀ i, 0 ≤ depth ((xs.flatMap bracket).take i) := by
      intro xs
      induction xs with
      | nil => intro _; exact ⟨rfl, rfl, fun i => by simp [depth]⟩
      | cons x xs ihx =>
        intro h
        have a := h x List.mem_cons_self
        have b := ihx fun k hk => h k (List.mem_cons_of_mem _ hk)
        simp only [List.flatMap_cons]
        refine ⟨by rw [List.filter_append, a.1, b.1], by rw [depth_append, a.2.1, b.2.1]; rfl,
          fun i => ?_⟩
        rw [List.take_append, depth_append]
        have hb := b.2.2 (i - (bracket x).length)
        by_cases hi : i < (bracket x).length
        · rcases Nat.eq_zero_or_pos i with rfl | h0
          · simp [depth]
          · have := a.2.2 i h0 hi
            omega
        · rw [List.take_of_length_le (by omega), a.2.1]
          omega
    have := aux (kids n) fun k hk => ih k hk fun x hx =>
      hn x (List.mem_cons_of_mem _ (List.mem_flatMap.2 ⟨k, hk, hx⟩))
    refine ⟨?_, ?_, ?_⟩
    · rw [List.cons_append, List.filter_cons, List.filter_append, this.1, hn0]
      exact congrArg (n :: ·) (List.append_nil _)
    · rw [List.cons_append, depth_cons, depth_append, this.2.1, hn0]
      rfl
    · intro k h0 hk
      obtain ⟨j, rfl⟩ : ∃ j, k = j + 1 := ⟨k - 1, by omega⟩
      rw [List.cons_append, List.take_succ_cons, depth_cons, hn0, List.take_append]
      simp only [List.cons_append, List.length_cons, List.length_append, List.length_nil] at hk
      rw [show j - ((kids n).flatMap bracket).length = 0 by omega]
      have := this.2.2 j
      simp only [List.take_zero, List.append_nil]
      simp only [Bool.false_eq_true, if_false]
      omega

/-- Lists below `x` have no missing elements. -/
def FullLists (x : Node) : Prop := match x with
  | .array _ xs | .cddl _ xs | .group _ xs | .map _ xs => ∀ y ∈ xs, y.isNil = false
  | _ => True

theorem mem_subs_self {x : Node} (h : x.isNil = false) : x ∈ subs x := by
  cases x
  case nil => cases h
  all_goals simp [subs]

/-- A child is a leaf made by `Walk`, or all its nodes are nodes of its parent. -/
theorem kids_subs {n k : Node} (hn : FullLists n) (h : k ∈ kids n) :
    k.isNil = false ∧ ((∃ i, k = .ident i) ∨ (∃ c, k = .comment c) ∨ (∃ u, k = .uintLit u) ∨
      ∀ y ∈ subs k, y ∈ subs n) := by
  cases n <;>
    simp only [kids, kids.present, List.mem_filter, List.mem_cons, List.not_mem_nil, or_false,
      List.mem_map, Bool.not_eq_true'] at h
  case array | cddl | group | map =>
    refine ⟨hn k h, Or.inr (Or.inr (Or.inr fun y hy => ?_))⟩
    simp only [subs, List.mem_cons, mem_subsList]
    exact Or.inr ⟨k, h, hy⟩
  case commentGroup cs =>
    obtain ⟨c, _, rfl⟩ := h
    exact ⟨rfl, Or.inr (Or.inl ⟨c, rfl⟩)⟩
  all_goals refine ⟨h.2, ?_⟩
  case entry p n v c | rule p n v c =>
    obtain ⟨rfl | rfl | rfl, h⟩ := h
    · exact Or.inl ⟨_, rfl⟩
    · refine Or.inr (Or.inr (Or.inr fun y hy => ?_))
      simp only [subs, List.mem_cons]; exact Or.inr hy
    · cases c with
      | none => cases h
      | some d => exact Or.inr (Or.inl ⟨d, rfl⟩)
  case nm p t a b i | tag p t a b i =>
    obtain ⟨rfl | rfl | rfl, h⟩ := h
    · cases a with
      | none => cases h
      | some d => exact Or.inr (Or.inr (Or.inl ⟨d, rfl⟩))
    · cases b with
      | none => cases h
      | some d => exact Or.inr (Or.inr (Or.inl ⟨d, rfl⟩))
    · refine Or.inr (Or.inr (Or.inr fun y hy => ?_))
      simp only [subs, List.mem_cons]; exact Or.inr hy
  case regexp p t b r =>
    obtain ⟨rfl | rfl, h⟩ := h <;> refine Or.inr (Or.inr (Or.inr fun y hy => ?_))
    · simp only [subs, List.mem_singleton] at hy; subst hy; simp [subs]
    · simp [subs, hy]
  case bits | comparator | groupChoice | range | typeChoice | size =>
    obtain ⟨rfl | rfl, _⟩ := h <;> refine Or.inr (Or.inr (Or.inr fun y hy => ?_)) <;> simp [subs, hy]
  case badNode | enumeration | optional | unwrap =>
    obtain ⟨rfl, _⟩ := h
    refine Or.inr (Or.inr (Or.inr fun y hy => ?_))
    simp [subs, hy]

theorem preorder_subs (n : Node) : n.isNil = false → (∀ y ∈ subs n, FullLists y) →
    ∀ x ∈ preorder n, (∃ i, x = .ident i) ∨ (∃ c, x = .comment c) ∨ (∃ u, x = .uintLit u) ∨ x ∈ subs n := by
  induction n using tree_ind with
  | h n ih =>
    intro hn hf x hx
    rw [preorder_eq, List.mem_cons, List.mem_flatMap] at hx
    rcases hx with rfl | ⟨k, hk, hx⟩
    · exact Or.inr (Or.inr (Or.inr (mem_subs_self hn)))
    · have ⟨h1, h2⟩ := kids_subs (hf n (mem_subs_self hn)) hk
      rcases h2 with ⟨i, rfl⟩ | ⟨i, rfl⟩ | ⟨i, rfl⟩ | h2
      · rw [preorder_eq] at hx; simp only [kids, List.flatMap_nil, List.mem_singleton] at hx
        exact Or.inl ⟨i, hx⟩
      · rw [preorder_eq] at hx; simp only [kids, List.flatMap_nil, List.mem_singleton] at hx
        exact Or.inr (Or.inl ⟨i, hx⟩)
      · rw [preorder_eq] at hx; simp only [kids, List.flatMap_nil, List.mem_singleton] at hx
        exact Or.inr (Or.inr (Or.inl ⟨i, hx⟩))
      · rcases ih k hk h1 (fun y hy => hf y (h2 y hy)) x hx with h | h | h | h
        · exact Or.inl h
        · exact Or.inr (Or.inl h)
        · exact Or.inr (Or.inr (Or.inl h))
        · exact Or.inr (Or.inr (Or.inr (h2 x h)))

theorem full {x y : Node} (h : x ∈ subs y) : y.isNil = false := by
  cases y
  case nil => simp [subs] at h
  all_goals rfl

theorem subs_kids {n x : Node} (h : x ∈ subs n) : x = n ∨ ∃ k ∈ kids n, x ∈ subs k := by
  cases n <;> simp only [subs, List.mem_cons, List.mem_append, mem_subsList, List.not_mem_nil, or_false] at h
  case array | cddl | group | map => exact h
  case regexp p t b r =>
    rcases h with rfl | rfl | h
    · exact Or.inl rfl
    · exact Or.inr ⟨.tstr b, by simp [kids, kids.present, Node.isNil], by simp [subs]⟩
    · exact Or.inr ⟨r, by simp [kids, kids.present, full h], h⟩
  case bits | comparator | groupChoice | range | typeChoice | size =>
    rcases h with rfl | h | h
    · exact Or.inl rfl
    · exact Or.inr ⟨_, by simp [kids, kids.present, full h], h⟩
    · exact Or.inr ⟨_, by simp [kids, kids.present, full h], h⟩
  case badNode | enumeration | optional | unwrap | entry | rule | nm | tag =>
    rcases h with rfl | h
    · exact Or.inl rfl
    · exact Or.inr ⟨_, by simp [kids, kids.present, full h], h⟩
  all_goals exact Or.inl h

theorem subs_preorder (n : Node) : ∀ x ∈ subs n, x ∈ preorder n := by
  induction n using tree_ind with
  | h n ih =>
    intro x hx
    rw [preorder_eq, List.mem_cons, List.mem_flatMap]
    rcases subs_kids hx with rfl | ⟨k, hk, hx⟩
    · exact Or.inl rfl
    · exact Or.inr ⟨k, hk, ih k hk x hx⟩

/-- A node made of tokens has no missing list elements, and if `Walk` does not know it, it is of one
of the kinds named. -/
theorem made_known [Unicode] {l : Lexer} {y : Node} (h : FromTokens l y) : FullLists y ∧
    (Known y ↔ y.kind ∉ [NodeKind.boolLit, .uintType, .commentGroup, .bits, .enumeration]) := by
  have ge : ∀ {y : Node}, listable y.kind = true → y.isNil = false := by
    intro y hy; cases y <;> first | rfl | cases hy
  cases y <;> simp only [FromTokens] at h
  case typedNil k => exact ⟨trivial, by rw [h.1]; simp [Known, Node.kind]⟩
  all_goals
    first
    | exact h.elim
    | exact ⟨trivial, by simp [Known, Node.kind]⟩
    | exact ⟨fun y hy => ge (h.2 y hy), by simp [Known, Node.kind]⟩
    | exact ⟨h.2, by simp [Known, Node.kind]⟩

end Cddlc
