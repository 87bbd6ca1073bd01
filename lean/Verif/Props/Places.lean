import Verif.Lemmas.Places
import Verif.Props.Parser

/-! C121: a tree is in the order of the text. -/

namespace Cddlc
open Spec
variable [Unicode]

/-- **C121** (order): the places recorded in the rules that are returned, read from left to right, are places of
tokens of the source, in the order in which these stand there and each at most once; so their offsets strictly
increase. This holds of every source, with diagnostics or without. -/
theorem C121_order {n : Nat} {src : Bytes} {env : Env} {res : PState.FileResult} {rules}
    (h : parseSource n src env = .ok res) (ht : res.cddl = some rules) :
    (∃ ts l, Scans (Lexer.new src) ts l ∧
      (placesList rules).Sublist ((ts.filter (·.tok ≠ .EOF)).map (·.pos))) ∧
    (placesList rules).Pairwise (fun a b => a.offset < b.offset) := by
  obtain ⟨p, q, hp, _, _, _, hr, _⟩ := tree_run h ht
  obtain ⟨ext, h1, h2⟩ := spelt_run (l0 := Lexer.new src) hr [] hp
  have hc : Clean src := on_clean (run_end hr ⟨_, hp⟩).1 (run_end hr ⟨_, hp⟩).2
  have hs : Scans (Lexer.new src) ((ext ++ [q.curTok]) ++ [q.peekTok]) q.lx := by
    rw [List.append_assoc]; exact h1
  obtain ⟨m, hs, _⟩ := scans_split hs
  refine ⟨⟨_, m, hs, h2⟩, ?_⟩
  refine List.Pairwise.sublist h2 ?_
  exact List.pairwise_map.mpr (C13_offsets hc hs).1

/-- **C121** (parts): the same holds of every part of the tree: an operator stands behind its left operand and
before its right one, entries stand one behind the other in the order of the list, and so on. -/
theorem C121_parts {n : Nat} {src : Bytes} {env : Env} {res : PState.FileResult} {rules}
    (h : parseSource n src env = .ok res) (ht : res.cddl = some rules) {e y} (he : e ∈ rules) (hy : y ∈ subs e) :
    (places y).Pairwise (fun a b => a.offset < b.offset) :=
  List.Pairwise.sublist ((places_subs e hy).trans (placesList_mem he)) (C121_order h ht).2

/-- **C121** (start): where the `Start` of a node is known, nothing that belongs to the node stands before it, and
nothing else at it. -/
theorem C121_start {n : Nat} {src : Bytes} {env : Env} {res : PState.FileResult} {rules}
    (h : parseSource n src env = .ok res) (ht : res.cddl = some rules) {e y s} (he : e ∈ rules) (hy : y ∈ subs e)
    (hs : y.start = .ok s) : ∃ ws, places y = s :: ws ∧ ∀ w ∈ ws, s.offset < w.offset := by
  have hg : ∀ z ∈ subs y, z ≠ .commentGroup [] := by
    rintro z hz rfl
    have hz := subs_trans e hy hz
    obtain ⟨p, q, hp, _, _, _, hr, _⟩ := tree_run h ht
    rcases run_nodes hr ⟨_, hp⟩ e he with ⟨cs, hne, rfl, _⟩ | ⟨name, v, tc, a, rfl, _, _, _, hv⟩
    · unfold PState.commentNode at hz
      split at hz
      · simp [subs] at hz
      · simp [subs] at hz; exact hne hz
    · simp only [subs, List.mem_cons, reduceCtorEq, false_or] at hz
      rcases hv with rfl | hv
      · simp [subs] at hz
      · exact (hv.2 _ hz).1
  obtain ⟨ws, h1⟩ := places_start hs hg
  refine ⟨ws, h1, ?_⟩
  have := C121_parts h ht he hy
  rw [h1, List.pairwise_cons] at this
  exact this.1

/-- **C121** (choice, an instance): both sides of a choice in a tree are apart in the text, the operator between
them. -/
theorem C121_choice {n : Nat} {src : Bytes} {env : Env} {res : PState.FileResult} {rules}
    (h : parseSource n src env = .ok res) (ht : res.cddl = some rules) {e pos t a b} (he : e ∈ rules)
    (hy : Node.typeChoice pos t a b ∈ subs e) :
    (∀ x ∈ places a, x.offset < pos.offset) ∧ (∀ y ∈ places b, pos.offset < y.offset) := by
  have := C121_parts h ht he hy
  rw [places, List.pairwise_append, List.pairwise_cons] at this
  exact ⟨fun x hx => this.2.2 x hx pos (by simp), this.2.1.1⟩

/-- **C121** (lists, an instance): the parts of an array, a group or a map are apart in the text, in the order of the
list, behind the bracket. -/
theorem C121_lists {n : Nat} {src : Bytes} {env : Env} {res : PState.FileResult} {rules}
    (h : parseSource n src env = .ok res) (ht : res.cddl = some rules) {e pos es} (he : e ∈ rules)
    (hy : Node.array pos es ∈ subs e ∨ Node.group pos es ∈ subs e ∨ Node.map pos es ∈ subs e) :
    es.Pairwise (fun a b => ∀ x ∈ places a, ∀ y ∈ places b, x.offset < y.offset) ∧
    ∀ a ∈ es, ∀ x ∈ places a, pos.offset < x.offset := by
  have hp : (pos :: placesList es).Pairwise (fun a b => a.offset < b.offset) := by
    rcases hy with hy | hy | hy <;> · have := C121_parts h ht he hy; rwa [places] at this
  rw [List.pairwise_cons] at hp
  refine ⟨?_, fun a ha x hx => hp.1 x ((placesList_mem ha).subset hx)⟩
  have := hp.2
  clear hp hy
  induction es with
  | nil => exact .nil
  | cons a es ih =>
    rw [placesList, List.pairwise_append] at this
    exact List.pairwise_cons.mpr
      ⟨fun b hb x hx y hy => this.2.2 x hx y ((placesList_mem hb).subset hy), ih this.2.1⟩

-- a source with a choice, a map with keys and comments, an occurrence, a range and a tag
example : letI := asciiOnly; ∃ res rules,
    parseSource 80 b!"a = uint / [ 2*b, ? tstr ]\nb = { x : 1..9 ; d\n y: #6.3(a), 7 : text .size 4 } ; e" = .ok res ∧
    res.cddl = some rules ∧ res.errs.length = 0 ∧ (placesList rules).map (·.offset) =
      [0, 4, 9, 11, 13, 14, 15, 18, 20, 27, 31, 33, 35, 37, 38, 40, 42, 47, 48, 50, 51, 55, 61, 63, 68, 74, 78] :=
  letI := asciiOnly
  have ⟨res, rules, h1, h2, h3⟩ := of_parses (n := 80)
    (src := b!"a = uint / [ 2*b, ? tstr ]\nb = { x : 1..9 ; d\n y: #6.3(a), 7 : text .size 4 } ; e")
    (f := fun rules errs => decide (errs.length = 0 ∧ (placesList rules).map (·.offset) =
      [0, 4, 9, 11, 13, 14, 15, 18, 20, 27, 31, 33, 35, 37, 38, 40, 42, 47, 48, 50, 51, 55, 61, 63, 68, 74, 78])) (by decide_cbv)
  ⟨res, rules, h1, h2, of_decide_eq_true h3⟩
-- a source with two diagnostics: the rules that could be read are in order still
example : letI := asciiOnly; ∃ res rules,
    parseSource 80 b!"a = [ x: b, % ]\nb = uint .lt 5 ; k\nq\nd = &( x: 1, y: ~b )" = .ok res ∧
    res.cddl = some rules ∧ res.errs.length = 2 ∧ (placesList rules).map (·.offset) =
      [0, 16, 25, 29, 31, 37, 41, 42, 44, 45, 47, 50, 51, 53, 54] :=
  letI := asciiOnly
  have ⟨res, rules, h1, h2, h3⟩ := of_parses (n := 80)
    (src := b!"a = [ x: b, % ]\nb = uint .lt 5 ; k\nq\nd = &( x: 1, y: ~b )")
    (f := fun rules errs => decide (errs.length = 2 ∧ (placesList rules).map (·.offset) =
      [0, 16, 25, 29, 31, 37, 41, 42, 44, 45, 47, 50, 51, 53, 54])) (by decide_cbv)
  ⟨res, rules, h1, h2, of_decide_eq_true h3⟩

end Cddlc
