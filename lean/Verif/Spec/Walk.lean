import Verif.Model.Walk

/-! Walking a tree, independently of `Walk`: the children of a node, the order of the calls, and
which nodes a walk can enter. -/

namespace Cddlc.Spec

/-- The direct children of a node as written, from left to right; absent children left out. -/
def kids : Node → List Node
  | .array _ xs | .cddl _ xs | .group _ xs | .map _ xs => xs
  | .badNode _ _ b _ => present [b]
  | .commentGroup cs => cs.map .comment
  | .bits _ _ a b | .comparator _ _ _ a b | .groupChoice _ _ a b | .range _ _ a b
  | .typeChoice _ _ a b => present [a, b]
  | .regexp _ _ b r => present [.tstr b, r]
  | .size _ _ s t => present [t, s]
  | .entry _ n v c | .rule _ n v c => present [.ident n, v, someComment c]
  | .enumeration _ _ x | .optional _ _ x | .unwrap _ _ x => present [x]
  | .nm _ _ a b x | .tag _ _ a b x => present [someUint a, someUint b, x]
  | _ => []
where
  /-- Those that are there. -/
  present (xs : List Node) : List Node := xs.filter fun x => !x.isNil

theorem pos_size (p : Pos) : 0 < sizeOf p := by
  cases p; simp only [Pos.mk.sizeOf_spec]; omega

/-- A child is smaller than its parent. -/
theorem kids_lt {n k : Node} (h : k ∈ kids n) : sizeOf k < sizeOf n := by
  cases n <;>
    simp only [kids, kids.present, List.mem_filter, List.mem_cons, List.not_mem_nil, or_false,
      List.mem_map] at h
  case array | cddl | group | map =>
    have := List.sizeOf_lt_of_mem h
    simp only [Node.array.sizeOf_spec, Node.cddl.sizeOf_spec, Node.group.sizeOf_spec,
      Node.map.sizeOf_spec]
    omega
  case commentGroup cs =>
    obtain ⟨c, hc, rfl⟩ := h
    have := List.sizeOf_lt_of_mem hc
    simp only [Node.comment.sizeOf_spec, Node.commentGroup.sizeOf_spec]
    omega
  case regexp p t b r =>
    have := pos_size p
    obtain ⟨rfl | rfl, _⟩ := h <;>
      simp only [Node.regexp.sizeOf_spec, Node.tstr.sizeOf_spec] <;> omega
  case entry p n v c =>
    have := pos_size p
    obtain ⟨rfl | rfl | rfl, h⟩ := h
    · simp only [Node.entry.sizeOf_spec, Node.ident.sizeOf_spec]; omega
    · simp only [Node.entry.sizeOf_spec]; omega
    · cases c with
      | none => cases h
      | some d =>
        simp only [Node.entry.sizeOf_spec, someComment, Node.comment.sizeOf_spec,
          Option.some.sizeOf_spec]
        omega
  case rule p n v c =>
    have := pos_size p
    obtain ⟨rfl | rfl | rfl, h⟩ := h
    · simp only [Node.rule.sizeOf_spec, Node.ident.sizeOf_spec]; omega
    · simp only [Node.rule.sizeOf_spec]; omega
    · cases c with
      | none => cases h
      | some d =>
        simp only [Node.rule.sizeOf_spec, someComment, Node.comment.sizeOf_spec,
          Option.some.sizeOf_spec]
        omega
  case nm p t a b i =>
    obtain ⟨rfl | rfl | rfl, h⟩ := h
    · cases a with
      | none => cases h
      | some d => simp only [Node.nm.sizeOf_spec, someUint, Node.uintLit.sizeOf_spec,
          Option.some.sizeOf_spec]; omega
    · cases b with
      | none => cases h
      | some d => simp only [Node.nm.sizeOf_spec, someUint, Node.uintLit.sizeOf_spec,
          Option.some.sizeOf_spec]; omega
    · simp only [Node.nm.sizeOf_spec]; omega
  case tag p t a b i =>
    obtain ⟨rfl | rfl | rfl, h⟩ := h
    · cases a with
      | none => cases h
      | some d => simp only [Node.tag.sizeOf_spec, someUint, Node.uintLit.sizeOf_spec,
          Option.some.sizeOf_spec]; omega
    · cases b with
      | none => cases h
      | some d => simp only [Node.tag.sizeOf_spec, someUint, Node.uintLit.sizeOf_spec,
          Option.some.sizeOf_spec]; omega
    · simp only [Node.tag.sizeOf_spec]; omega
  case bits | comparator | groupChoice | range | typeChoice | size =>
    obtain ⟨rfl | rfl, _⟩ := h <;>
      simp only [Node.bits.sizeOf_spec, Node.comparator.sizeOf_spec, Node.groupChoice.sizeOf_spec,
        Node.range.sizeOf_spec, Node.typeChoice.sizeOf_spec, Node.size.sizeOf_spec] <;> omega
  case badNode | enumeration | optional | unwrap =>
    obtain ⟨rfl, _⟩ := h
    simp only [Node.badNode.sizeOf_spec, Node.enumeration.sizeOf_spec, Node.optional.sizeOf_spec,
      Node.unwrap.sizeOf_spec]
    omega

/-- Induction over a tree along `kids`. -/
theorem tree_ind {P : Node → Prop} (h : ∀ n, (∀ k ∈ kids n, P k) → P n) (n : Node) : P n :=
  h n fun k _ => tree_ind h k
termination_by sizeOf n
decreasing_by exact kids_lt (by assumption)

/-- The nodes of a tree, parents before children, children from left to right. -/
def preorder (n : Node) : List Node :=
  n :: (kids n).attach.flatMap fun k => preorder k.1
termination_by sizeOf n
decreasing_by exact kids_lt k.2

/-- What `Visit` is called with when nothing is left out: each node, then its children, then
nil. -/
def bracket (n : Node) : List Node :=
  n :: ((kids n).attach.flatMap fun k => bracket k.1) ++ [.nil]
termination_by sizeOf n
decreasing_by exact kids_lt k.2

/-- What `Visit` is called with when it continues exactly on the nodes in `d`. -/
def pruned (d : Node → Bool) (n : Node) : List Node :=
  if d n then n :: ((kids n).attach.flatMap fun k => pruned d k.1) ++ [.nil] else [n]
termination_by sizeOf n
decreasing_by exact kids_lt k.2

/-- The nodes a walk that continues exactly on the nodes in `d` gets to: those all of whose proper
ancestors are in `d`. -/
inductive Reached (d : Node → Bool) : Node → Node → Prop
  | root (n) : Reached d n n
  | under {n k x} : d n = true → k ∈ kids n → Reached d k x → Reached d n x

/-- The kinds of nodes `Walk` knows. A nil pointer has a known kind, but only one of a kind without
children can be walked. -/
def Known : Node → Prop
  | .nil | .badNode .. | .boolLit .. | .commentGroup _ | .bits .. | .enumeration .. | .uintType ..
      => False
  | .typedNil k => k ∈ [.boolType, .bytes, .bstr, .comment, .floatType, .floatLit, .ident,
      .intType, .nintType, .intLit, .null, .textLit, .tstr, .uintLit]
  | _ => True

mutual
/-- `log` is the complete sequence of calls of `Visit` of a walk of a tree, each with whether it
returned a visitor: after nil none of the tree, after a visitor the children and `Visit(nil)`. -/
inductive Walked : Node → List (Node × Bool) → Prop
  | stop (n) : Walked n [(n, false)]
  | into {n log} (b) : Known n → WalkedAll (kids n) log → Walked n ((n, true) :: log ++ [(.nil, b)])
/-- The same for the trees of a list, one after the other. -/
inductive WalkedAll : List Node → List (Node × Bool) → Prop
  | nil : WalkedAll [] []
  | cons {x xs l m} : Walked x l → WalkedAll xs m → WalkedAll (x :: xs) (l ++ m)
end

/-- `log` is the sequence of calls up to a node that `Walk` does not know. -/
inductive Stuck : Node → List (Node × Bool) → Prop
  | here {n} : ¬ Known n → Stuck n [(n, true)]
  | under {n pre k post l m} : Known n → kids n = pre ++ k :: post → WalkedAll pre l → Stuck k m →
      Stuck n ((n, true) :: (l ++ m))

end Cddlc.Spec
