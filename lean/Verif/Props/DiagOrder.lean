import Verif.Spec.DiagOrder
import Verif.Props.Once

/-! C122: in what order diagnostics are listed. -/

namespace Cddlc
open Spec
variable [Unicode]

/-- **C122**, what holds: diagnostics are listed in two parts, first those of the rules, then those of the names.
Diagnostics of rules are in the order of the text, no two at one place. So are diagnostics of names, but two may be
at one name, and not those that compare two names. -/
theorem C122_order_partial {n : Nat} {src : Bytes} {env : Env} {res : PState.FileResult} (hc : Clean src)
    (h : parseSource n src env = .ok res) : ∃ rules names, res.errs = rules ++ names ∧
      (∀ d ∈ rules, ¬ OfCheck (Lexer.new src) d) ∧ (∀ d ∈ names, OfCheck (Lexer.new src) d) ∧
      rules.Pairwise Before ∧ (names.filter (!comparesTwo ·.msg)).Pairwise (fun d e => ¬ Before e d) := by
  obtain ⟨es, ts, ks, he, ⟨k, is, h1, h2, -⟩, h3, -, h4⟩ := errs_keyed h
  refine ⟨es, _, he, ?_, ?_, ?_, ?_⟩
  · rintro d hd hof
    obtain ⟨i, -, b1, j, u, -, -, c3, c4, c5⟩ := forall₂_mem h1 hd
    rcases hof with hof | ⟨hm, lit, ts, l', ht⟩
    · rw [b1] at hof; cases hof
    · have hi : Idx (Lexer.new src) ts.length ⟨.IDENT, d.start, lit⟩ := ⟨ts, l', rfl, ht⟩
      have hji := idx_pos hc c3 hi (by simp) c4
      subst hji
      exact c5 hm (by rw [c3.unique hi])
  · intro d hd
    obtain ⟨t, ht, hd⟩ := List.mem_filterMap.mp hd
    obtain ⟨κ, -, hk⟩ := forall₂_mem h3 ht
    obtain ⟨a, ⟨us, l', -, a1⟩, a2⟩ := task_says hk hd
    rcases a2 with ⟨-, x⟩ | ⟨-, _, _, _, _, _, x⟩ | ⟨-, -, x | x⟩
    · exact .inl (by rw [x]; rfl)
    · exact .inl (by rw [x]; rfl)
    · exact .inl (by rw [x]; rfl)
    · simp only [List.mem_cons, List.not_mem_nil, or_false] at x
      rcases x with x | x | x | x
      · exact .inr ⟨.inl x, a, us, l', a1⟩
      · exact .inr ⟨.inr x, a, us, l', a1⟩
      · exact .inl (by rw [x]; rfl)
      · exact .inl (by rw [x]; rfl)
  · refine pairwise_forall₂ ?_ h1 h2
    rintro d i e j ⟨-, i', t, a1, a2, a3, a4, -⟩ ⟨-, j', u, b1, b2, b3, b4, -⟩ ⟨m, v, c1, c2, c3, c4⟩
    cases (by omega : i = i')
    cases (by omega : j = j')
    have := idx_rise hc a3 b3 (by omega) (idx_eof a3 c3 c1 c4)
    rwa [a4, b4] at this
  · refine List.pairwise_filter.mpr (List.pairwise_filterMap.mpr (pairwise_forall₂ ?_ h3 h4))
    intro t κ t' κ' hk hk' hle d hd e hd' hcd hce hlt
    obtain ⟨a, a1, a2⟩ := task_says hk hd
    obtain ⟨b, b1, b2⟩ := task_says hk' hd'
    have n1 : κ.1 ≠ 1 := by
      rcases a2 with ⟨x, -⟩ | ⟨-, _, _, _, _, _, x⟩ | ⟨x, -⟩
      · omega
      · rw [x] at hcd; cases hcd
      · omega
    have n2 : κ'.1 ≠ 1 := by
      rcases b2 with ⟨x, -⟩ | ⟨-, _, _, _, _, _, x⟩ | ⟨x, -⟩
      · omega
      · rw [x] at hce; cases hce
      · omega
    have hle := hle n1 n2
    unfold Before at hlt
    rcases Nat.lt_or_eq_of_le hle with hle | hle
    · have := idx_rise hc a1 b1 hle (by simp)
      dsimp only at this
      omega
    · have := (hle ▸ a1).unique b1
      simp only [Token.mk.injEq, true_and] at this
      rw [this.1] at hlt
      omega

/-- **C122**, for one phase: if all diagnostics are of rules (or none compares two names and all are of names), they
are listed in the order of the text. -/
theorem C122_rules_partial {n : Nat} {src : Bytes} {env : Env} {res : PState.FileResult} (hc : Clean src)
    (h : parseSource n src env = .ok res) (hr : ∀ d ∈ res.errs, ¬ OfCheck (Lexer.new src) d) :
    res.errs.Pairwise Before := by
  obtain ⟨rules, names, h1, h2, h3, h4, -⟩ := C122_order_partial hc h
  cases names with
  | nil => rw [h1, List.append_nil]; exact h4
  | cons d ds => exact absurd (h3 d (by simp)) (hr d (by rw [h1]; simp))

theorem C122_names_partial {n : Nat} {src : Bytes} {env : Env} {res : PState.FileResult} (hc : Clean src)
    (h : parseSource n src env = .ok res)
    (hr : ∀ d ∈ res.errs, OfCheck (Lexer.new src) d ∧ comparesTwo d.msg = false) :
    res.errs.Pairwise (fun d e => ¬ Before e d) := by
  obtain ⟨rules, names, h1, h2, h3, -, h4⟩ := C122_order_partial hc h
  cases rules with
  | nil =>
    rw [List.nil_append] at h1
    rw [h1] at hr ⊢
    rwa [List.filter_eq_self.mpr (fun d hd => by simp [(hr d hd).2])] at h4
  | cons d ds => exact absurd (hr d (by rw [h1]; simp)).1 (h2 d (by simp))

omit [Unicode] in
/-- **C122** is false: a name that is not there is listed behind an error further down in the text. -/
theorem C122_refuted : letI := asciiOnly; Clean b!"a = x\n= 1" ∧ ∃ res d e, parseSource 20 b!"a = x\n= 1" = .ok res ∧
    res.errs = d ++ e ∧ ∃ f ∈ d, ∃ g ∈ e, Before g f := by
  let _ := asciiOnly
  refine ⟨clean_enc (cs := "a = x\n= 1".toList) (by decide), ?_⟩
  obtain ⟨res, rules, h1, h2, h3⟩ := of_parses (n := 20) (src := b!"a = x\n= 1")
    (f := fun _ errs => match errs with
      | [d, e, f] => decide (f.start.offset < d.start.offset)
      | _ => false) (by decide_cbv)
  split at h3
  · next d e f hd => exact ⟨res, [d, e], [f], h1, hd, d, by simp, f, by simp, (of_decide_eq_true h3 : f.start.offset < d.start.offset)⟩
  · cases h3

omit [Unicode] in
/-- And among the diagnostics of names, that two have different types is listed behind that the second of them is
not there, though it is at the first. -/
theorem C122_names_refuted : letI := asciiOnly; Clean b!"b = \"t\"\na = [b .. x, y]" ∧ ∃ res d e f,
    parseSource 30 b!"b = \"t\"\na = [b .. x, y]" = .ok res ∧ res.errs = [d, e, f] ∧
    (∀ d ∈ res.errs, onlyDeferred d.msg = true) ∧ comparesTwo e.msg = true ∧ Before e d ∧ Before d f := by
  let _ := asciiOnly
  refine ⟨clean_enc (cs := "b = \"t\"\na = [b .. x, y]".toList) (by decide), ?_⟩
  obtain ⟨res, rules, h1, h2, h3⟩ := of_parses (n := 30) (src := b!"b = \"t\"\na = [b .. x, y]")
    (f := fun _ errs => match errs with
      | [d, e, f] => decide (onlyDeferred d.msg = true ∧ onlyDeferred e.msg = true ∧ onlyDeferred f.msg = true ∧
          comparesTwo e.msg = true ∧ e.start.offset < d.start.offset ∧ d.start.offset < f.start.offset)
      | _ => false) (by decide_cbv)
  split at h3
  · next d e f hd =>
    obtain ⟨i1, i2, i3, i4, i5, i6⟩ := of_decide_eq_true h3
    refine ⟨res, d, e, f, h1, hd, ?_, i4, i5, i6⟩
    rw [hd]
    simp [i1, i2, i3]
  · cases h3

omit [Unicode] in
/-- Diagnostics of rules alone, and diagnostics of names alone, each in order. -/
example : letI := asciiOnly; (Clean b!"= 1 )" ∧ ∃ res, parseSource 20 b!"= 1 )" = .ok res ∧ res.errs.length = 3 ∧
      res.errs.Pairwise Before) ∧
    Clean b!"a = [x, 1..y, z]" ∧ ∃ res, parseSource 30 b!"a = [x, 1..y, z]" = .ok res ∧ res.errs.length = 4 ∧
      res.errs.Pairwise (fun d e => ¬ Before e d) := by
  let _ := asciiOnly
  have c1 : Clean b!"= 1 )" := clean_enc (cs := "= 1 )".toList) (by decide)
  have c2 : Clean b!"a = [x, 1..y, z]" := clean_enc (cs := "a = [x, 1..y, z]".toList) (by decide)
  obtain ⟨r1, _, h1, -, h3⟩ := of_parses (n := 20) (src := b!"= 1 )")
    (f := fun _ errs => decide (errs.length = 3 ∧ ∀ d ∈ errs, onlyDeferred d.msg = false ∧
      d.msg ≠ .floatInIntRange ∧ d.msg ≠ .intInFloatRange)) (by decide_cbv)
  obtain ⟨r2, _, g1, -, g3⟩ := of_parses (n := 30) (src := b!"a = [x, 1..y, z]")
    (f := fun _ errs => decide (errs.length = 4 ∧ ∀ d ∈ errs, onlyDeferred d.msg = true ∧
      comparesTwo d.msg = false)) (by decide_cbv)
  have h3 := of_decide_eq_true h3
  have g3 := of_decide_eq_true g3
  refine ⟨⟨c1, r1, h1, h3.1, C122_rules_partial c1 h1 ?_⟩, c2, r2, g1, g3.1, C122_names_partial c2 g1 ?_⟩
  · intro d hd hof
    obtain ⟨j1, j2, j3⟩ := h3.2 d hd
    rcases hof with hof | ⟨hof | hof, -⟩
    · rw [j1] at hof; cases hof
    · exact j2 hof
    · exact j3 hof
  · exact fun d hd => ⟨.inl (g3.2 d hd).1, (g3.2 d hd).2⟩

end Cddlc
