import Verif.Lemmas.JsonFit
import Verif.Lemmas.JsonText

/-! The JSON text of whole files: that it is JSON, how deeply it is nested, and how it is read back. -/

set_option linter.unusedSectionVars false

namespace Cddlc
open Spec

/-! ### Numbers -/

theorem decInt_numsOk (v : Int) : (JVal.int v).NumsOk := decInt_number v

theorem tok_numsOk (t : Tok) : t.json.NumsOk := decInt_numsOk _
theorem pos_numsOk (p : Pos) : p.json.NumsOk :=
  ⟨trivial, decInt_numsOk _, decInt_numsOk _, decInt_numsOk _, trivial⟩
theorem range_numsOk (r : PosRange) : r.json.NumsOk := ⟨pos_numsOk _, pos_numsOk _, trivial⟩
theorem ident_numsOk (i : Ident) : i.json.NumsOk := ⟨pos_numsOk _, trivial, trivial⟩
theorem comment_numsOk (c : Comment) : c.json.NumsOk := ⟨pos_numsOk _, trivial, trivial⟩
theorem uint_numsOk (u : UintLit) : u.json.NumsOk := ⟨pos_numsOk _, tok_numsOk _, decInt_numsOk _, trivial⟩
theorem tstr_numsOk (t : Tstr) : t.json.NumsOk := ⟨pos_numsOk _, tok_numsOk _, trivial⟩
theorem optComment_numsOk (c : Option Comment) : (commentJson c).NumsOk := by
  cases c
  · trivial
  · exact comment_numsOk _
theorem optUint_numsOk (c : Option UintLit) : (uintJson c).NumsOk := by
  cases c
  · trivial
  · exact uint_numsOk _
theorem slice_numsOk {xs : List JVal} (h : numsOks xs) : (sliceJson xs).NumsOk := by
  cases xs
  · trivial
  · exact h
theorem comments_numsOk (cs : List Comment) : numsOks (cs.map Comment.json) := by
  induction cs with
  | nil => trivial
  | cons c cs ih => exact ⟨comment_numsOk c, ih⟩

section
variable {float : FloatVal → Bytes} (hf : ∀ v, JNumber (float v))
include hf

mutual
theorem node_numsOk : ∀ x : Node, (x.json float).NumsOk
  | .nil | .typedNil _ => trivial
  | .array _ es | .group _ es => ⟨pos_numsOk _, slice_numsOk (nodes_numsOk es), trivial⟩
  | .map _ es => ⟨pos_numsOk _, tok_numsOk _, slice_numsOk (nodes_numsOk es), trivial⟩
  | .cddl _ es => ⟨pos_numsOk _, nodes_numsOk es, trivial⟩
  | .badNode _ _ b _ => ⟨pos_numsOk _, tok_numsOk _, node_numsOk b, pos_numsOk _, trivial⟩
  | .boolType .. | .bstr .. | .bytes .. | .intType .. | .nintType .. | .null .. =>
    ⟨pos_numsOk _, tok_numsOk _, trivial⟩
  | .boolLit .. => ⟨range_numsOk _, trivial, trivial⟩
  | .comment c => comment_numsOk c
  | .commentGroup cs => ⟨slice_numsOk (comments_numsOk cs), trivial⟩
  | .bits _ _ a b | .size _ _ a b | .groupChoice _ _ a b | .range _ _ a b | .typeChoice _ _ a b =>
    ⟨pos_numsOk _, tok_numsOk _, node_numsOk a, node_numsOk b, trivial⟩
  | .comparator _ _ _ a b => ⟨pos_numsOk _, tok_numsOk _, trivial, node_numsOk a, node_numsOk b, trivial⟩
  | .regexp _ _ _ r => ⟨pos_numsOk _, tok_numsOk _, tstr_numsOk _, node_numsOk r, trivial⟩
  | .entry _ _ v _ | .rule _ _ v _ =>
    ⟨pos_numsOk _, ident_numsOk _, node_numsOk v, optComment_numsOk _, trivial⟩
  | .enumeration _ _ v | .optional _ _ v | .unwrap _ _ v => ⟨pos_numsOk _, tok_numsOk _, node_numsOk v, trivial⟩
  | .floatType .. => ⟨pos_numsOk _, tok_numsOk _, decInt_numsOk 0, trivial⟩
  | .floatLit _ _ v => ⟨range_numsOk _, tok_numsOk _, hf v, trivial⟩
  | .ident i => ident_numsOk i
  | .intLit _ _ v => ⟨pos_numsOk _, tok_numsOk _, decInt_numsOk v, trivial⟩
  | .nm _ _ _ _ i | .tag _ _ _ _ i =>
    ⟨pos_numsOk _, tok_numsOk _, optUint_numsOk _, optUint_numsOk _, node_numsOk i, trivial⟩
  | .textLit .. => ⟨pos_numsOk _, tok_numsOk _, trivial, trivial⟩
  | .tstr t => tstr_numsOk t
  | .uintType .. => ⟨range_numsOk _, tok_numsOk _, trivial⟩
  | .uintLit u => uint_numsOk u
theorem nodes_numsOk : ∀ xs : List Node, numsOks (nodesJson float xs)
  | [] => trivial
  | x :: xs => ⟨node_numsOk x, nodes_numsOk xs⟩
end

theorem cddl_numsOk (c : Option (List Node)) : (cddlJson float c).NumsOk := by
  cases c
  · trivial
  · exact node_numsOk hf _
end

/-! ### Nesting -/

theorem slice_depth (xs : List JVal) : (sliceJson xs).depth ≤ depthVals xs + 1 := by
  cases xs
  · simp [sliceJson, JVal.depth]
  · exact Nat.le_refl _

theorem optComment_depth (c : Option Comment) : (commentJson c).depth ≤ 2 := by
  cases c <;> simp [commentJson, JVal.depth, Comment.json, depthFields, Pos.json, JVal.int]
theorem optUint_depth (c : Option UintLit) : (uintJson c).depth ≤ 2 := by
  cases c <;> simp [uintJson, JVal.depth, UintLit.json, depthFields, Pos.json, JVal.int, Tok.json]
theorem comments_depth (cs : List Comment) : depthVals (cs.map Comment.json) ≤ 2 := by
  induction cs with
  | nil => simp [depthVals]
  | cons c cs ih =>
    have := optComment_depth (some c)
    simp only [List.map, depthVals, commentJson] at this ⊢
    omega

/-- The depth of the parts that are no nodes. -/
macro "depth_simp" : tactic =>
  `(tactic| (simp [Node.json, JVal.depth, depthFields, Pos.json, PosRange.json, Ident.json, Comment.json,
    UintLit.json, Tstr.json, Tok.json, JVal.int, height] <;> omega))

mutual
theorem node_depth (float : FloatVal → Bytes) : ∀ x : Node, (x.json float).depth ≤ 2 * height x + 1
  | .nil | .typedNil _ => by depth_simp
  | .array _ es => by
    have := nodes_depth float es
    have := slice_depth (nodesJson float es)
    depth_simp
  | .group _ es => by
    have := nodes_depth float es
    have := slice_depth (nodesJson float es)
    depth_simp
  | .map _ es => by
    have := nodes_depth float es
    have := slice_depth (nodesJson float es)
    depth_simp
  | .cddl _ es => by
    have := nodes_depth float es
    depth_simp
  | .badNode _ _ x _ => by
    have := node_depth float x
    depth_simp
  | .regexp _ _ _ x => by
    have := node_depth float x
    depth_simp
  | .enumeration _ _ x => by
    have := node_depth float x
    depth_simp
  | .optional _ _ x => by
    have := node_depth float x
    depth_simp
  | .unwrap _ _ x => by
    have := node_depth float x
    depth_simp
  | .entry _ _ x c => by
    have := node_depth float x
    have := optComment_depth c
    depth_simp
  | .rule _ _ x c => by
    have := node_depth float x
    have := optComment_depth c
    depth_simp
  | .nm _ _ a b x => by
    have := node_depth float x
    have := optUint_depth a
    have := optUint_depth b
    depth_simp
  | .tag _ _ a b x => by
    have := node_depth float x
    have := optUint_depth a
    have := optUint_depth b
    depth_simp
  | .bits _ _ a b => by
    have := node_depth float a
    have := node_depth float b
    depth_simp
  | .comparator _ _ _ a b => by
    have := node_depth float a
    have := node_depth float b
    depth_simp
  | .size _ _ a b => by
    have := node_depth float a
    have := node_depth float b
    depth_simp
  | .groupChoice _ _ a b => by
    have := node_depth float a
    have := node_depth float b
    depth_simp
  | .range _ _ a b => by
    have := node_depth float a
    have := node_depth float b
    depth_simp
  | .typeChoice _ _ a b => by
    have := node_depth float a
    have := node_depth float b
    depth_simp
  | .commentGroup cs => by
    have := comments_depth cs
    have := slice_depth (cs.map Comment.json)
    depth_simp
  | .boolType .. | .bstr .. | .bytes .. | .intType .. | .nintType .. | .null .. | .boolLit .. | .comment _
  | .floatType .. | .floatLit .. | .ident _ | .intLit .. | .textLit .. | .tstr _ | .uintType .. | .uintLit _ => by
    depth_simp
theorem nodes_depth (float : FloatVal → Bytes) : ∀ xs : List Node, depthVals (nodesJson float xs) ≤ 2 * heightL xs + 1
  | [] => by simp [nodesJson, depthVals]
  | x :: xs => by
    have := node_depth float x
    have := nodes_depth float xs
    simp only [nodesJson, depthVals, heightL]
    omega
end

theorem cddl_depth (float : FloatVal → Bytes) (rules : List Node) :
    (cddlJson float (some rules)).depth ≤ 2 * heightL rules + 3 := by
  have := nodes_depth float rules
  simp only [cddlJson]
  depth_simp

/-! ### Reading back -/

theorem readComments_json {cs : List Comment} (h : ∀ c ∈ cs, OkComment c) :
    readAll readComment (toJsons (cs.map Comment.json)) = some cs := by
  induction cs with
  | nil => rfl
  | cons c cs ih =>
    simp only [List.map, toJsons, readAll, readComment_json (h c List.mem_cons_self),
      ih fun x hx => h x (List.mem_cons_of_mem _ hx)]
    rfl

/-- A rule or comment that can be read back. -/
def FitTop : Node → Prop
  | .comment c => OkComment c
  | .commentGroup cs => ∀ c ∈ cs, OkComment c
  | .rule p n v c => p.file = [] ∧ OkIdent n ∧ (∀ x ∈ c, OkComment x) ∧ Fit v
  | _ => False

section
variable {float : FloatVal → Bytes} {unfloat : Bytes → FloatVal} {rep : FloatVal → FloatVal}
variable (hf : ∀ v, unfloat (float v) = rep v)
include hf

theorem readTop_json {x : Node} {n : Nat} (hn : sizeOf x < n) (h : FitTop x) :
    readTop unfloat n (x.json float).toJson = some (floats rep x) := by
  unfold FitTop at h
  split at h
  · have := readComment_json h
    read_simp [Node.json, Comment.json, readTop, floats, readComment, readPos_json h.1, enc_chars h.2]
  · have := readSlice_json (readComments_json h)
    read_simp [Node.json, readTop, floats, this]
  · obtain ⟨h1, h2, h3, h4⟩ := h
    have := readNode_json hf _ n (by simp at hn; omega) h4
    read_simp [Node.json, readTop, floats, readPos_json h1, readIdent_json h2, orNull_comment h3, this]
  · exact h.elim

theorem readTops_json {n : Nat} : ∀ {xs : List Node}, sizeOf xs < n → (∀ x ∈ xs, FitTop x) →
    readAll (readTop unfloat n) (toJsons (nodesJson float xs)) = some (floatsL rep xs)
  | [], _, _ => rfl
  | x :: xs, hn, h => by
    have h1 := readTop_json hf (x := x) (n := n) (by simp at hn; omega) (h x List.mem_cons_self)
    have h2 := readTops_json (n := n) (xs := xs) (by simp at hn; omega) fun y hy => h y (List.mem_cons_of_mem _ hy)
    simp [nodesJson, toJsons, readAll, floatsL, h1, h2]

theorem readFile_json {n : Nat} {c : Option (List Node)} (hn : sizeOf c < n)
    (h : ∀ rules, c = some rules → ∀ x ∈ rules, FitTop x) :
    readFile unfloat n (cddlJson float c).toJson = some (c.map (floatsL rep)) := by
  cases c with
  | none => rfl
  | some rules =>
    have := readTops_json hf (n := n) (xs := rules) (by simp at hn; omega) (h rules rfl)
    have e : readSlice (readTop unfloat n) (.arr (toJsons (nodesJson float rules))) = some (floatsL rep rules) := this
    read_simp [cddlJson, Node.json, readFile, e]
end

/-- The trees of the parser can be read back, unless a string is not terminated. -/
theorem parsed_fit [Unicode] {n : Nat} {src : Bytes} {env : Env} {res : PState.FileResult} {rules}
    (h : parseSource n src env = .ok res) (ht : res.cddl = some rules) (he : NoLexErrors src) :
    ∀ x ∈ rules, FitTop x := by
  have hu : ∀ t, Tk (Lexer.new src) t → Utf8 t.lit := fun t => tk_utf8 (C02_no_tree h ht) he
  intro x hx
  have hr : Real x := by
    obtain ⟨p, q, hp, _, _, _, hr, _⟩ := tree_run h ht
    exact run_real hr x hx
  rcases C59_made_of_tokens h ht x hx with ⟨c, rfl, hc⟩ | ⟨cs, rfl, hc⟩ | ⟨name, v, tc, a, rfl, h1, _, h2, h3⟩
  · exact ⟨tk_file hc, hu _ hc⟩
  · exact fun c hcs => ⟨tk_file (hc c hcs), hu _ (hc c hcs)⟩
  · obtain ⟨ts, a, l', hs, _⟩ := h1
    have hk : Tk (Lexer.new src) ⟨.IDENT, name.pos, name.name⟩ := by
      have : Scans (Lexer.new src) ((ts ++ [⟨.IDENT, name.pos, name.name⟩]) ++ [a]) l' := by simpa using hs
      obtain ⟨l1, hs, _⟩ := scans_split this
      exact ⟨ts, l1, hs⟩
    refine ⟨rfl, ⟨tk_file hk, hu _ hk⟩, fun c hc => ⟨tk_file (h2 c hc), hu _ (h2 c hc)⟩, ?_⟩
    exact fit_of hu v (real_kid hr rfl (fun _ _ _ _ _ h => by cases h)
      (fun hn => by simp [kids, kids.present, hn]) fun y hy => by simp [subs, hy]) h3

end Cddlc
