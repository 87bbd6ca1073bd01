import Verif.Lemmas.Respell
import Verif.Props.Language

/-! C26 for every accepted source: where comments can be left out. -/

namespace Cddlc
open Spec
variable [Unicode]

omit [Unicode] in
theorem removable_end {ts : List Token} {eof : Token} (he : eof.tok = .EOF) (h : Removable ts) : Removable (ts ++ [eof]) := by
  intro A l gs r B heq hg hc hl hr
  rcases List.eq_nil_or_concat B with rfl | ⟨B, b, rfl⟩
  · have : ts ++ [eof] = (A ++ l :: gs) ++ [r] := by rw [heq]
    obtain ⟨-, h2⟩ := List.append_inj' this rfl
    obtain rfl : eof = r := by simpa using h2
    exact ⟨by simp [he, infixes], by simp [he], by simp [he], by simp [he], by simp [he]⟩
  · have : ts ++ [eof] = (A ++ l :: gs ++ r :: B) ++ [b] := by rw [heq]; simp
    obtain ⟨h1, -⟩ := List.append_inj' this rfl
    exact h A l gs r B h1 hg hc hl hr

omit [Unicode] in
theorem declaredKind_same {ds ds' env : List (Bytes × Node)}
    (h : ds'.map (fun d => (d.1, d.2.kind)) = ds.map (fun d => (d.1, d.2.kind))) :
    declaredKind (ds' ++ env) = declaredKind (ds ++ env) := by
  funext k
  unfold declaredKind
  induction ds generalizing ds' with
  | nil =>
    obtain rfl : ds' = [] := by simpa using h
    rfl
  | cons d ds ih =>
    obtain ⟨d', ds', rfl, h1, h2⟩ := List.map_eq_cons_iff.mp h
    simp only [Prod.mk.injEq] at h1
    simp only [List.cons_append, List.find?_cons, h1.1]
    split
    · simp [h1.2]
    · exact ih h2

/-- **C26**, what holds for every source that is accepted: if comments stand only where an operator, a second comma, an
upper bound, or a part of a tag does not follow, and nothing stands behind the comment of a rule before the next comment
or the end, and parentheses are closed, then a source with the same tokens, but without the comments, is accepted too,
with the same rules up to positions and comments. -/
theorem C26_removed_partial {src src' : Bytes} {ts ts' eof eof' L L'} {env : Env} {n res rules}
    (hs : Scans (Lexer.new src) (ts ++ [eof]) L) (he : eof.tok = .EOF) (hc : ∀ t ∈ ts, t.tok ≠ .EOF)
    (hs' : Scans (Lexer.new src') (ts' ++ [eof']) L') (he' : eof'.tok = .EOF)
    (heq : ts'.map (fun t => (t.tok, t.lit)) = (code ts).map fun t => (t.tok, t.lit))
    (hh : Removable ts) (hp : Closed ts) (hr : parseSource n src env = .ok res) (ht : res.cddl = some rules)
    (hl : NothingLost ts rules) (hn : res.errs = []) :
    ∃ n' res' rules', parseSource n' src' env = .ok res' ∧ res'.cddl = some rules' ∧ res'.errs = [] ∧
      noPosL rules' = noPosL (uncommented rules) := by
  obtain ⟨ds, cs, h1, h2, h3, h4⟩ := (C112_language hs he hc).mp ⟨n, res, hr, ht, hn⟩
  have hec : eof.tok ≠ .COMMENT := by rw [he]; decide
  obtain ⟨-, h5⟩ := uncomment_rules he (removable_end he hh) h1 [] rfl hl
  have hle : spelling eof' = spelling eof := by
    rw [spelling_iff]
    exact ⟨he'.trans he.symm, (C03_eof_absorbing hs' he').1.trans (C03_eof_absorbing hs he).1.symm⟩
  obtain ⟨rules', ds', k1, k2, k3⟩ := respell_rules hec hle (h5 hp) (fun t ht => by
    simpa using (List.mem_filter.mp ht).2) ts' heq
  have hd : ds'.map (fun d => (d.1, d.2.kind)) = ds.map (fun d => (d.1, d.2.kind)) := by
    have := congrArg (List.map fun d => (d.1, d.2.kind)) k3
    simpa [noPosD, Function.comp_def, noPos_kind, noNotes_kind] using this
  have hm : ds'.map (·.1) = ds.map (·.1) := by
    have := congrArg (List.map (·.1)) hd
    simpa [Function.comp_def] using this
  have hne : ∀ t ∈ ts', t.tok ≠ .EOF := by
    intro t ht hte
    have : (t.tok, t.lit) ∈ (code ts).map fun t => (t.tok, t.lit) := heq ▸ List.mem_map_of_mem ht
    obtain ⟨u, hu, h⟩ := List.mem_map.mp this
    simp only [Prod.mk.injEq] at h
    exact hc u (List.mem_filter.mp hu).1 (h.1.trans hte)
  obtain ⟨n', res', j1, j2, j3⟩ := (C112_language (env := env) hs' he' hne).mpr
    ⟨ds', cs, k1, by rw [hm]; exact h2, fun d hd' => by
      have : d.1 ∈ ds.map (·.1) := hm ▸ List.mem_map_of_mem hd'
      obtain ⟨e, he, h⟩ := List.mem_map.mp this
      rw [← h]
      exact h3 e he, by rw [declaredKind_same hd]; exact h4⟩
  exact ⟨n', res', rules', j1, j2, j3, k2⟩

/-! ### Example -/

instance (l r : Token) : Decidable (Apart l r) :=
  decidable_of_iff ((r.tok ∈ infixes → (r.tok = .ZERO_OR_MORE ∨ r.tok = .ONE_OR_MORE) ∧ l.tok ∈ breaks) ∧
    (r.tok = .COMMA → l.tok ≠ .COMMA) ∧ (l.tok = .ZERO_OR_MORE ∨ l.tok = .ONE_OR_MORE → ¬ (r.tok = .INT ∧ r.lit ≠ b!"int")) ∧
    (l.tok = .HASH → r.tok ≠ .INT ∧ r.tok ≠ .FLOAT) ∧
    (r.tok = .LPAREN → l.tok ≠ .HASH ∧ ¬ (l.tok = .INT ∧ l.lit ≠ b!"int" ∨ l.tok = .FLOAT ∧ l.lit ≠ b!"float")))
    ⟨fun ⟨a, b, c, d, e⟩ => ⟨a, b, c, d, e⟩, fun ⟨a, b, c, d, e⟩ => ⟨a, b, c, d, e⟩⟩

instance (ts : List Token) : Decidable (Closed ts) := inferInstanceAs (Decidable (_ = _))

/-- Whether comments stand only where they can be left out (for the example). -/
def removable : Option Token → Bool → List Token → Bool
  | _, _, [] => true
  | l, seen, t :: ts =>
    if t.tok = .COMMENT then removable l true ts
    else (match l with
      | some l => !seen || decide (Apart l t)
      | none => true) && removable (some t) false ts

omit [Unicode] in
theorem removable_sound {ts : List Token} {o : Option Token} {seen : Bool} (h : removable o seen ts = true) : Removable ts := by
  intro A l gs r B heq hg hc hl hr
  induction A generalizing ts o seen with
  | cons a A ih =>
    subst heq
    simp only [List.cons_append, removable] at h
    split at h
    · exact ih h (by simp)
    · exact ih (Bool.and_eq_true .. ▸ h).2 (by simp)
  | nil =>
    subst heq
    simp only [List.nil_append, List.cons_append, removable, hl, if_false, Bool.and_eq_true] at h
    have key : ∀ gs : List Token, (∀ g ∈ gs, g.tok = .COMMENT) → ∀ b, b = true ∨ gs ≠ [] →
        removable (some l) b (gs ++ r :: B) = true → Apart l r := by
      intro gs
      induction gs with
      | nil =>
        intro _ b hb h
        simp only [ne_eq, not_true, or_false] at hb
        subst hb
        simp only [List.nil_append, removable, hr, if_false, Bool.and_eq_true] at h
        simpa using h.1
      | cons g gs ih =>
        intro hc b _ h
        simp only [List.cons_append, removable, hc g (by simp), if_true] at h
        exact ih (fun g hg => hc g (by simp [hg])) true (.inl rfl) h
    exact key gs hc false (.inr hg) h.2

/-- Whether the comments of rules swallow nothing (for the example). -/
def nothingLost (rules : List Node) : List Token → Bool
  | [] => true
  | c :: B => (B.head?.all (·.tok = .COMMENT) || rules.all fun
      | .rule _ _ _ (some k) => decide (c.pos ≠ k.pos)
      | _ => true) && nothingLost rules B

omit [Unicode] in
theorem nothingLost_sound {ts : List Token} {rules} (h : nothingLost rules ts = true) : NothingLost ts rules := by
  intro p n v k hk A c B heq hp d hd
  induction A generalizing ts with
  | cons a A ih =>
    subst heq
    simp only [List.cons_append, nothingLost, Bool.and_eq_true] at h
    exact ih h.2 rfl
  | nil =>
    subst heq
    simp only [List.nil_append, nothingLost, Bool.and_eq_true, Bool.or_eq_true] at h
    rcases h.1 with h | h
    · rw [Option.mem_def.mp hd] at h
      simpa using h
    · have := List.all_eq_true.mp h _ hk
      simp [hp] at this

/-- A source with comments before a rule, behind entries, before a closing bracket, before an operand and behind rules. -/
def commentedSource : Bytes :=
  b!"; first\na = { ? x: uint .size 4, ; size\n b => [* tstr] ; list\n} ; one\n; two\nb = ; three\n #6.1(a) / 1..5\nb /= ~a ; last"

/-- The same without comments, on other lines. -/
def bareSource : Bytes := b!"a = { ? x: uint .size 4, b => [* tstr] }\nb = #6.1(a)\n / 1..5 b /= ~a"

set_option maxRecDepth 100000 in
set_option cbv.maxSteps 2000000 in
omit [Unicode] in
/-- `C26_removed_partial` gives the tree of `bareSource` from that of `commentedSource`. -/
example : letI := asciiOnly; ∃ n res rules n' res' rules', parseSource n commentedSource = .ok res ∧
    res.cddl = some rules ∧ rules.length = 4 ∧ parseSource n' bareSource = .ok res' ∧ res'.cddl = some rules' ∧ res'.errs = [] ∧
    noPosL rules' = noPosL (uncommented rules) := by
  let := asciiOnly
  obtain ⟨res, rules, h1, h2, h3⟩ := of_parses (n := 60) (src := commentedSource)
    (f := fun rules es => es.isEmpty && decide (rules.length = 4) && match tokensOf 39 commentedSource with
      | some ts => nothingLost rules ts
      | none => false) (by decide_cbv)
  have ht : ((tokensOf 39 commentedSource).any fun ts => removable none false ts && decide (Closed ts) &&
      (tokensOf 32 bareSource).any fun ts' => ts'.map (fun t => (t.tok, t.lit)) = (code ts).map fun t => (t.tok, t.lit)) = true := by
    decide_cbv
  have any : ∀ {α : Type} {o : Option α} {p : α → Bool}, o.any p = true → ∃ x, o = some x ∧ p x = true := by
    intro α o p h
    cases o with
    | none => cases h
    | some x => exact ⟨x, rfl, h⟩
  obtain ⟨ts, k1, k2⟩ := any ht
  simp only [Bool.and_eq_true, decide_eq_true_eq] at k2
  obtain ⟨⟨k2, k3⟩, k4⟩ := k2
  obtain ⟨ts', k4, k5⟩ := any k4
  simp only [decide_eq_true_eq] at k5
  simp only [k1, Bool.and_eq_true, List.isEmpty_iff, decide_eq_true_eq] at h3
  obtain ⟨eof, L, i1, i2, i3⟩ := tokensOf_scans k1
  obtain ⟨eof', L', j1, j2, -⟩ := tokensOf_scans k4
  obtain ⟨n', res', rules', l⟩ := C26_removed_partial i1 i2 i3 j1 j2 k5 (removable_sound k2) k3 h1 h2
    (nothingLost_sound h3.2) h3.1.1
  exact ⟨60, res, rules, n', res', rules', h1, h2, h3.1.2, l⟩

end Cddlc
