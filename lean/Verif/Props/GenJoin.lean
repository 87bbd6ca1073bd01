import Verif.Lemmas.GenFrame
import Verif.Props.Join
import Verif.Props.Codegen

/-! C109: the code generated for a file is the code generated for its parts. -/

namespace Cddlc
variable [Unicode]
open Spec PState

/-- The code for the rules of two trees, one behind the other. -/
theorem code_parts (lib : GoLib) (pkg : Bytes) {xs ys zs : List Node} (h : noPosL zs = noPosL (xs ++ ys)) :
    (∀ gA gB, visit lib (.cddl {} xs) (.new pkg) = (gA, .ok ()) → visit lib (.cddl {} ys) (.new pkg) = (gB, .ok ()) →
      visit lib (.cddl {} zs) (.new pkg) =
        (⟨pkg, gA.imports ++ gB.imports, ⟨pkg, [], gA.file.decls ++ gB.file.decls⟩⟩, .ok ())) ∧
    ∀ w, (visit lib (.cddl {} zs) (.new pkg)).2 = .panic w ↔ (visit lib (.cddl {} xs) (.new pkg)).2 = .panic w ∨
      (visit lib (.cddl {} xs) (.new pkg)).2 = .ok () ∧ (visit lib (.cddl {} ys) (.new pkg)).2 = .panic w := by
  have hz : visitList lib zs = Act.bind (visitList lib xs) fun _ => visitList lib ys := by
    rw [← visitList_noPos, h, visitList_noPos, visitList_append]
  simp only [visit, hz]
  obtain ⟨is, ds, o, hx⟩ := framed_visitList lib xs
  obtain ⟨js, es, o', hy⟩ := framed_visitList lib ys
  simp only [Act.bind, hx, hy]
  cases o with
  | panic w => simp
  | hang => simp
  | ok u =>
    simp only [plus_plus, Prod.mk.injEq, and_imp]
    constructor
    · rintro gA gB rfl _ rfl rfl
      refine ⟨?_, rfl⟩
      simp [Generator.plus, Generator.new]
    · intro w
      simp

theorem parse_unique {n m : Nat} {src : Bytes} {env : Env} {r r' : FileResult} (h : parseSource n src env = .ok r)
    (h' : parseSource m src env = .ok r') : r = r' := by
  rcases parseSource_le (Nat.le_max_left n m) (src := src) (env := env) with h1 | h1
  · rw [h1] at h; cases h
  · rcases parseSource_le (Nat.le_max_right n m) (src := src) (env := env) with h2 | h2
    · rw [h2] at h'; cases h'
    · rw [h] at h1; rw [h', ← h1] at h2; cases h2; rfl

/-- **C109**: let a source be accepted, and another be accepted with the bindings that the first leaves, and the text of both.
The code for the text of both is the code for the first followed by the code for the second: the declarations in this
order, and the imports. If code cannot be generated for the first, or else for the second, neither can it for both, with the
same panic, and in no other case. -/
theorem C109_join {A B : List Char} (hA : Whole A) (hB : '\uFFFD' ∉ B) {rA rB r : FileResult} {xs ys : List Node} {na nb n : Nat}
    (pA : parseSource na (enc A) = .ok rA) (tA : rA.cddl = some xs) (eA : rA.errs = [])
    (pB : parseSource nb (enc B) rA.final.env = .ok rB) (tB : rB.cddl = some ys) (eB : rB.errs = [])
    (p : parseSource n (enc (A ++ B)) = .ok r) (e : r.errs = []) (lib : GoLib) (pkg : Bytes) :
    ∃ zs, r.cddl = some zs ∧
    (∀ gA gB, visit lib (.cddl {} xs) (.new pkg) = (gA, .ok ()) → visit lib (.cddl {} ys) (.new pkg) = (gB, .ok ()) →
      ∃ g, Generated lib n (enc (A ++ B)) pkg zs g ∧ g.file.name = pkg ∧ g.file.decls = gA.file.decls ++ gB.file.decls ∧
        g.imports = gA.imports ++ gB.imports) ∧
    ∀ w, (visit lib (.cddl {} zs) (.new pkg)).2 = .panic w ↔ (visit lib (.cddl {} xs) (.new pkg)).2 = .panic w ∨
      (visit lib (.cddl {} xs) (.new pkg)).2 = .ok () ∧ (visit lib (.cddl {} ys) (.new pkg)).2 = .panic w := by
  obtain ⟨m, r', zs, h1, h2, h3, _⟩ := C106_join hA hB pA tA eA pB tB eB
  obtain rfl := parse_unique p h1
  obtain ⟨k1, k2⟩ := code_parts lib pkg h3
  refine ⟨zs, h2, fun gA gB ha hb => ⟨_, ⟨r, p, h2, e, k1 gA gB ha hb⟩, rfl, rfl, rfl⟩, k2⟩

/-- **C109**, in either order: two sources that declare no common name, of which each alone has no errors but those of the
checks at the end. If code is generated for the one behind the other, so is it in the other order: the same declarations, first
those of the one and then those of the other, and the same imports. -/
theorem C109_order {A B : List Char} (hA : Whole A) (hB : Whole B) {rA rB : FileResult} {xs ys : List Node} {na nb : Nat}
    (pA : parseSource na (enc A) = .ok rA) (wA : ReadWell rA xs) (pB : parseSource nb (enc B) = .ok rB) (wB : ReadWell rB ys)
    (hd : ∀ k, rA.final.env.exists? k = true → rB.final.env.exists? k = true → False)
    {lib : GoLib} {n : Nat} {pkg : Bytes} {zs : List Node} {g : Generator} (hg : Generated lib n (enc (A ++ B)) pkg zs g) :
    ∃ ds es is js m ws g', g.file.decls = ds ++ es ∧ g.imports = is ++ js ∧ Generated lib m (enc (B ++ A)) pkg ws g' ∧
      g'.file.decls = es ++ ds ∧ g'.imports = js ++ is ∧ g'.file.name = g.file.name := by
  obtain ⟨m, r, r', zs', ws, h1, h2, h3, h4, h5, h6, h7, _⟩ := C107_order hA hB pA wA pB wB fun k a b => (hd k a b).elim
  obtain ⟨r0, k1, k2, k3, k4⟩ := hg
  obtain rfl := parse_unique k1 h1
  rw [k2] at h3
  cases h3
  have he : r'.errs = [] := by
    rw [k3] at h7
    simpa using h7
  have hcat : visit lib (.cddl {} zs) (.new pkg) = (Act.bind (visitList lib xs) fun _ => visitList lib ys) (.new pkg) := by
    rw [visit, ← visitList_noPos, h5, visitList_noPos, visitList_append]
  obtain ⟨is, ds, o, hx⟩ := framed_visitList lib xs
  obtain ⟨js, es, o', hy⟩ := framed_visitList lib ys
  rw [k4] at hcat
  simp only [Act.bind, hx, hy] at hcat
  cases o with
  | panic w => simp at hcat
  | hang => simp at hcat
  | ok u =>
    simp only [plus_plus, Prod.mk.injEq] at hcat
    obtain ⟨rfl, rfl⟩ := hcat
    refine ⟨ds, es, is, js, m, ws, (Generator.new pkg).plus (js ++ is) (es ++ ds), ?_, ?_, ⟨r', h2, h4, he, ?_⟩, ?_, ?_, rfl⟩
    · simp [Generator.plus, Generator.new]
    · simp [Generator.plus, Generator.new]
    · rw [visit, ← visitList_noPos, h6, visitList_noPos, visitList_append]
      simp only [Act.bind, hx, hy, plus_plus]
    · simp [Generator.plus, Generator.new]
    · simp [Generator.plus, Generator.new]

/-- The hypotheses of `C109_join` hold, and code is generated for both sources. -/
example : letI := asciiOnly; ∃ rA rB r xs ys gA gB, Whole "a = int\nb = [ x: a ]\n".toList ∧ '\uFFFD' ∉ "c = tstr .size 4".toList ∧
    parseSource 60 (enc "a = int\nb = [ x: a ]\n".toList) = .ok rA ∧ rA.cddl = some xs ∧ rA.errs = [] ∧
    parseSource 60 (enc "c = tstr .size 4".toList) rA.final.env = .ok rB ∧ rB.cddl = some ys ∧ rB.errs = [] ∧
    parseSource 60 (enc ("a = int\nb = [ x: a ]\n".toList ++ "c = tstr .size 4".toList)) = .ok r ∧ r.errs = [] ∧
    visit demoLib (.cddl {} xs) (.new b!"p") = (gA, .ok ()) ∧ visit demoLib (.cddl {} ys) (.new b!"p") = (gB, .ok ()) ∧
    gA.file.decls.length = 4 ∧ gB.file.decls.length = 2 ∧ gB.imports.length = 1 := by
  let := asciiOnly
  let code : Option (List Node) → Nat → Nat → Bool := fun t d i => match t with
    | none => false
    | some xs => match visit demoLib (.cddl {} xs) (.new b!"p") with
      | (g, .ok _) => decide (g.file.decls.length = d) && decide (g.imports.length = i)
      | _ => false
  have hcode : ∀ {t d i}, code t d i = true → ∃ xs g, t = some xs ∧ visit demoLib (.cddl {} xs) (.new b!"p") = (g, .ok ()) ∧
      g.file.decls.length = d ∧ g.imports.length = i := by
    intro t d i h
    cases t with
    | none => cases h
    | some xs =>
      simp only [code] at h
      split at h
      · rename_i g _ hv
        simp only [Bool.and_eq_true, decide_eq_true_eq] at h
        exact ⟨xs, g, rfl, hv, h⟩
      · cases h
  obtain ⟨rA, h1, h2⟩ := Out.of_check (o := parseSource 60 (enc "a = int\nb = [ x: a ]\n".toList)) (f := fun r =>
    decide (r.errs = []) && code r.cddl 4 0 && (parseSource 60 (enc "c = tstr .size 4".toList) r.final.env).check fun r =>
      decide (r.errs = []) && code r.cddl 2 1) (by decide_cbv)
  simp only [Bool.and_eq_true, decide_eq_true_eq] at h2
  obtain ⟨⟨h2, h3⟩, h4⟩ := h2
  obtain ⟨rB, h5, h6⟩ := Out.of_check h4
  simp only [Bool.and_eq_true, decide_eq_true_eq] at h6
  obtain ⟨r, h7, h8⟩ := Out.of_check (o := parseSource 60 (enc ("a = int\nb = [ x: a ]\n".toList ++ "c = tstr .size 4".toList)))
    (f := fun r => decide (r.errs = [])) (by decide_cbv)
  obtain ⟨xs, gA, a1, a2, a3, a4⟩ := hcode h3
  obtain ⟨ys, gB, b1, b2, b3, b4⟩ := hcode h6.2
  exact ⟨rA, rB, r, xs, ys, gA, gB, of_wholeCheck (n := 10) (by decide_cbv), by decide, h1, a1, h2, h5, b1, h6.1, h7,
    of_decide_eq_true h8, a2, b2, a3, b3, b4⟩

/-- Code is generated for two sources of which the first uses a name of the second (the other hypotheses of `C109_order` are
those of C107). -/
example : letI := asciiOnly; ∃ rules g, Generated demoLib 30 (enc "a = [ x: b ]\nb = int\n".toList) b!"p" rules g ∧
    (decide (g.file.decls.length = 4)) = true :=
  of_generates (src := enc "a = [ x: b ]\nb = int\n".toList) (f := fun ds => decide (ds.length = 4)) (by decide_cbv)

end Cddlc
