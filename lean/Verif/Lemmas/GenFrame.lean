import Verif.Props.Layout

/-! What the generator does for a node does not depend on what it did before. -/

namespace Cddlc
open Spec
variable [Unicode]

/-- The generator with imports and declarations added. -/
def Generator.plus (g : Generator) (is : List GoImport) (ds : List GoDecl) : Generator :=
  { g with imports := g.imports ++ is, file := { g.file with decls := g.file.decls ++ ds } }

/-- The step adds imports and declarations, and these and its outcome are the same in all states. -/
def Framed {α : Type} (a : Act Generator α) : Prop := ∃ is ds o, ∀ g, a g = (g.plus is ds, o)

omit [Unicode] in
theorem plus_nil (g : Generator) : g.plus [] [] = g := by
  simp [Generator.plus]

omit [Unicode] in
theorem plus_plus (g : Generator) (is js ds es) : (g.plus is ds).plus js es = g.plus (is ++ js) (ds ++ es) := by
  simp [Generator.plus]

omit [Unicode] in
theorem Framed.pure {α : Type} {a : Act Generator α} (o : Out α) (h : ∀ g, a g = (g, o)) : Framed a :=
  ⟨[], [], o, fun g => by rw [h, plus_nil]⟩

omit [Unicode] in
theorem Framed.ret {α : Type} (a : α) : Framed (Act.ret a : Act Generator α) := .pure (.ok a) fun _ => rfl

omit [Unicode] in
theorem Framed.fail {α : Type} (w : PanicKind) : Framed (Act.fail w : Act Generator α) := .pure (.panic w) fun _ => rfl

omit [Unicode] in
theorem Framed.bind {α β : Type} {a : Act Generator α} {f : α → Act Generator β} (ha : Framed a) (hf : ∀ x, Framed (f x)) :
    Framed (.bind a f) := by
  obtain ⟨is, ds, o, h⟩ := ha
  cases o with
  | ok x =>
    obtain ⟨js, es, o, h'⟩ := hf x
    exact ⟨is ++ js, ds ++ es, o, fun g => by rw [Act.bind, h]; simp only; rw [h', plus_plus]⟩
  | panic w => exact ⟨is, ds, .panic w, fun g => by rw [Act.bind, h]⟩
  | hang => exact ⟨is, ds, .hang, fun g => by rw [Act.bind, h]⟩

omit [Unicode] in
theorem framed_deref (s : Option Structure) : Framed (Act.deref s) := by
  cases s
  · exact .pure (.panic .nilDeref) fun _ => rfl
  · exact .pure (.ok _) fun _ => rfl

omit [Unicode] in
theorem framed_asExpr (n : GoNode) : Framed (Act.asExpr n) := by
  cases n <;> first | exact .pure (.ok _) fun _ => rfl | exact .pure (.panic .typeAssert) fun _ => rfl

omit [Unicode] in
theorem framed_asField (n : GoNode) : Framed (Act.asField n) := by
  cases n <;> first | exact .pure (.ok _) fun _ => rfl | exact .pure (.panic .typeAssert) fun _ => rfl

omit [Unicode] in
theorem framed_asFields (n : GoNode) : Framed (Act.asFields n) := by
  cases n <;> first | exact .pure (.ok _) fun _ => rfl | exact .pure (.panic .typeAssert) fun _ => rfl

omit [Unicode] in
theorem framed_orPanic {α : Type} (r : Except Unit α) : Framed (Act.orPanic r) := by
  cases r <;> first | exact .pure (.ok _) fun _ => rfl | exact .pure (.panic .explicit) fun _ => rfl

theorem framed_name (lib : GoLib) (i : Ident) : Framed (Act.name lib i) := .pure _ fun _ => rfl

omit [Unicode] in
theorem framed_nilPointer (k : NodeKind) : Framed (transpileNilPointer k) := by
  cases k <;> first | exact .ret _ | exact .fail _

omit [Unicode] in
theorem framed_sizeValidator (k : NodeKind) (s : Option Int) (t : Structure) : Framed (sizeValidator k s t) := by
  have : ∀ n, ∀ g : Generator, ((g.addImport validatorPkg [],
      Out.ok (Except.ok (some (t.addValidatorCall b!"validators" b!"CheckSize" [b!"self", decInt n])))) : Generator × Out Made) =
      (g.plus [⟨none, b!"\"" ++ validatorPkg ++ b!"\""⟩] [],
        Out.ok (Except.ok (some (t.addValidatorCall b!"validators" b!"CheckSize" [b!"self", decInt n])))) := by
    intro n g
    simp [Generator.addImport, Generator.plus]
  cases k <;> cases s <;>
    first
    | exact .pure (.panic .nilDeref) fun _ => rfl
    | exact .pure (.panic .explicit) fun _ => rfl
    | exact ⟨_, _, _, this _⟩

omit [Unicode] in
theorem framed_sizeLiteral (n : Node) : Framed (sizeLiteral n) := by
  unfold sizeLiteral
  split <;> first | exact .ret _ | exact .fail _

omit [Unicode] in
theorem framed_groupStruct (r : Made) : Framed (groupStruct r) := by
  cases r with
  | error e => exact .ret _
  | ok s => exact .bind (framed_deref s) fun s => .bind (framed_asFields _) fun _ => .ret _

omit [Unicode] in
theorem framed_arrayStruct (r : Made) : Framed (arrayStruct r) := by
  cases r with
  | error e => exact .ret _
  | ok s => exact .bind (framed_deref s) fun s => .bind (framed_asFields _) fun _ => .ret _

omit [Unicode] in
theorem framed_entryField (i : Bytes) (r : Made) : Framed (entryField i r) := by
  cases r with
  | error e => exact .ret _
  | ok s => exact .bind (framed_deref s) fun s => .bind (framed_asExpr _) fun _ => .ret _

omit [Unicode] in
theorem framed_occurrenceArray (r : Made) : Framed (occurrenceArray r) :=
  .bind (framed_orPanic r) fun s => .bind (framed_deref s) fun s => .bind (framed_asExpr _) fun _ => .ret _

mutual
theorem framed_node (lib : GoLib) : (x : Node) → Framed (transpileNode lib x)
  | .nil => by rw [transpileNode]; exact .ret _
  | .typedNil k => by rw [transpileNode]; exact framed_nilPointer k
  | .group _ es => by rw [transpileNode]; exact .bind (framed_list lib es) fun _ => framed_groupStruct _
  | .array _ es => by rw [transpileNode]; exact .bind (framed_list lib es) fun _ => framed_arrayStruct _
  | .entry _ n v _ => by
    rw [transpileNode]
    exact .bind (framed_name lib n) fun _ => .bind (framed_node lib v) fun _ => framed_entryField _ _
  | .ident i => by rw [transpileNode]; exact .bind (framed_name lib i) fun _ => .ret _
  | .nm _ _ _ _ v => by
    rw [transpileNode]
    exact .bind (.bind (framed_node lib v) fun _ => framed_occurrenceArray _) fun _ => .ret _
  | .size _ _ s t => by
    rw [transpileNode]
    refine .bind (framed_sizeLiteral s) fun _ => .bind (framed_node lib t) fun r => ?_
    cases r with
    | error e => exact .ret _
    | ok s => exact .bind (framed_deref s) fun _ => framed_sizeValidator _ _ _
  | .boolType .. | .tstr .. | .bytes .. | .comment .. | .null .. | .intType .. | .uintType .. | .intLit .. | .boolLit .. | .textLit ..
  | .floatLit .. => by rw [transpileNode]; exact .ret _
  | .badNode .. | .bstr .. | .cddl .. | .commentGroup .. | .bits .. | .comparator .. | .regexp .. | .enumeration ..
  | .floatType .. | .groupChoice .. | .nintType .. | .map .. | .optional .. | .range .. | .rule .. | .tag ..
  | .typeChoice .. | .uintLit .. | .unwrap .. => by simp only [transpileNode]; exact .fail _
theorem framed_list (lib : GoLib) : (xs : List Node) → Framed (transpileGroupLike lib xs)
  | [] => by rw [transpileGroupLike]; exact .ret _
  | x :: xs => by
    have ih := framed_list lib xs
    cases x with
    | entry _ n v c =>
      rw [transpileGroupLike]
      exact .bind (.bind (framed_name lib n) fun _ => .bind (framed_node lib v) fun _ => framed_entryField _ _) fun r =>
        .bind (framed_orPanic r) fun s => .bind (framed_deref s) fun s => .bind (framed_asField _) fun _ => .bind ih fun _ => .ret _
    | optional _ _ v =>
      rw [transpileGroupLike]
      refine .bind (framed_node lib v) fun r => ?_
      cases r with
      | error e => exact .ret _
      | ok s =>
        refine .bind (framed_deref s) fun s => ?_
        cases optionalField s with
        | none => exact .ret _
        | some f => exact .bind ih fun _ => .ret _
    | ident i => rw [transpileGroupLike]; exact .bind (framed_name lib i) fun _ => .bind ih fun _ => .ret _
    | nm _ _ _ _ v =>
      rw [transpileGroupLike]
      exact .bind (.bind (framed_node lib v) fun _ => framed_occurrenceArray _) fun _ => .bind ih fun _ => .ret _
    | typedNil k => cases k <;> exact .fail _
    | _ => exact .fail _
end

omit [Unicode] in
theorem framed_declare (d : GoDecl) : Framed (Act.declare d) :=
  ⟨[], [d], .ok (), fun g => by simp [Act.declare, Generator.plus]⟩

theorem framed_rule (lib : GoLib) (name : Ident) (value : Node) : Framed (visitRule lib name value) := by
  unfold visitRule
  refine .bind (framed_node lib value) fun r => .bind (framed_orPanic r) fun s => .bind (framed_deref s) fun s => ?_
  cases s.node with
  | expr e =>
    exact .bind (framed_name lib name) fun _ => .bind (framed_declare _) fun _ => .bind (.bind (framed_name lib name) fun _ => .ret _) framed_declare
  | _ => exact .fail _

mutual
theorem framed_visit (lib : GoLib) : (x : Node) → Framed (visit lib x)
  | .rule _ n v _ => by rw [visit]; exact framed_rule lib n v
  | .cddl _ rs => by rw [visit]; exact framed_visitList lib rs
  | .typedNil k => by cases k <;> first | exact .fail _ | exact .ret _
  | .nil | .badNode .. | .boolType .. | .boolLit .. | .bstr .. | .bytes .. | .comment .. | .commentGroup .. | .bits ..
  | .comparator .. | .regexp .. | .enumeration .. | .floatType .. | .floatLit .. | .groupChoice ..
  | .intType .. | .nintType .. | .intLit .. | .map .. | .null .. | .optional .. | .range .. | .tag .. | .textLit .. | .tstr ..
  | .typeChoice .. | .uintType .. | .uintLit .. | .unwrap .. | .ident _ | .group .. | .array .. | .entry .. | .nm ..
  | .size .. => .ret ()
theorem framed_visitList (lib : GoLib) : (xs : List Node) → Framed (visitList lib xs)
  | [] => by rw [visitList]; exact .ret _
  | x :: xs => by rw [visitList]; exact .bind (framed_visit lib x) fun _ => framed_visitList lib xs
end

omit [Unicode] in
theorem act_bind_assoc {α β γ : Type} (a : Act Generator α) (f : α → Act Generator β) (h : β → Act Generator γ) :
    Act.bind (Act.bind a f) h = Act.bind a fun x => Act.bind (f x) h := by
  funext g
  unfold Act.bind
  cases hx : a g with
  | mk g' o => cases o <;> rfl

theorem visitList_append (lib : GoLib) (xs ys : List Node) :
    visitList lib (xs ++ ys) = Act.bind (visitList lib xs) fun _ => visitList lib ys := by
  induction xs with
  | nil => rw [visitList]; rfl
  | cons x xs ih => rw [List.cons_append, visitList, ih, visitList, act_bind_assoc]

end Cddlc
