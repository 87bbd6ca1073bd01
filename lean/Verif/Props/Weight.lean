import Verif.Lemmas.Weight
import Verif.Spec.Weight
import Verif.Props.Parser
import Mathlib.Data.List.Induction

/-! C123: how many nodes a tree can have. -/

namespace Cddlc
open Spec

theorem ruleSize_sum (rules : List Node) : (rules.map ruleSize).sum = nodes rules + (rules.filter isRule).length := by
  unfold nodes
  induction rules with
  | nil => simp [subsList]
  | cons x xs ih =>
    rw [List.map_cons, List.sum_cons, ih, subsList, List.length_append, List.filter_cons]
    have : ruleSize x = (subs x).length + if isRule x then 1 else 0 := by
      unfold ruleSize
      split
      · simp only [subs, List.length_cons, isRule, if_true]; omega
      · rename_i hx
        have : isRule x = false := by
          unfold isRule
          split
          · exact absurd rfl (hx _ _ _ _)
          · rfl
        simp [this]
    rw [this]
    by_cases hr : isRule x = true
    · simp only [hr, if_true, List.length_cons]; omega
    · rw [if_neg hr, if_neg hr]; omega

variable [Unicode]

/-- What stands in front of the end of the file. -/
theorem scans_front {src : Bytes} {ts l} (h : Scans (Lexer.new src) ts l) :
    ∃ us m, Scans (Lexer.new src) us m ∧ (∀ t ∈ us, t.tok ≠ .EOF) ∧
      (ts.filter (·.tok ≠ .EOF)).length = us.length := by
  induction ts using List.reverseRecOn generalizing l with
  | nil => exact ⟨[], _, .nil _, by simp, rfl⟩
  | append_singleton ts t ih =>
    obtain ⟨m, h1, h2⟩ := scans_split h
    by_cases ht : ∃ e ∈ ts, e.tok = .EOF
    · obtain ⟨us, m', h3, h4, h5⟩ := ih h1
      obtain ⟨e, he, hE⟩ := ht
      obtain ⟨as, bs, rfl⟩ := List.append_of_mem he
      have h' := h
      rw [show as ++ e :: bs ++ [t] = (as ++ [e]) ++ (bs ++ [t]) by simp] at h'
      obtain ⟨m2, i1, i2⟩ := scans_split h'
      obtain ⟨_, _, _, _, i3⟩ := C03_eof_absorbing i1 hE
      have : t = e := (i3 _ _ i2).1 t (by simp)
      refine ⟨us, m', h3, h4, ?_⟩
      rw [List.filter_append, List.length_append, h5, this]
      simp [hE]
    · have hts : ∀ e ∈ ts, e.tok ≠ .EOF := fun e he h => ht ⟨e, he, h⟩
      have hf : ts.filter (·.tok ≠ .EOF) = ts := List.filter_eq_self.mpr fun e he => by simpa using hts e he
      by_cases hE : t.tok = .EOF
      · refine ⟨ts, m, h1, hts, ?_⟩
        rw [List.filter_append, hf]
        simp [hE]
      · refine ⟨ts ++ [t], l, h, ?_, ?_⟩
        · intro e he
          rcases List.mem_append.mp he with he | he
          · exact hts e he
          · rw [List.mem_singleton] at he; rwa [he]
        · rw [List.filter_append, hf]
          simp [hE]

/-- **C123** (tokens): a tree has no more nodes than the source has tokens, even if every rule is counted twice. This
holds of every source, with diagnostics or without. -/
theorem C123_tokens {n : Nat} {src : Bytes} {env : Env} {res : PState.FileResult} {rules}
    (h : parseSource n src env = .ok res) (ht : res.cddl = some rules) :
    ∃ ts l, Scans (Lexer.new src) ts l ∧ (∀ t ∈ ts, t.tok ≠ .EOF) ∧
      nodes rules + (rules.filter isRule).length ≤ ts.length := by
  obtain ⟨p, q, hp, _, _, _, hr, _⟩ := tree_run h ht
  obtain ⟨ws, h0, hw⟩ := weighs_run (l0 := Lexer.new src) hr
  obtain ⟨ext, h1, h2⟩ := hw [] hp
  have hs : Scans (Lexer.new src) ((ext ++ [q.curTok]) ++ [q.peekTok]) q.lx := by
    rw [List.append_assoc]; exact h1
  obtain ⟨m, hs, _⟩ := scans_split hs
  obtain ⟨us, m', g1, g2, g3⟩ := scans_front hs
  refine ⟨us, m', g1, g2, ?_⟩
  rw [← ruleSize_sum, ← g3]
  have := h2.length_le
  simp only [tokPlaces, List.length_map] at this
  omega

/-- **C123** (bytes): a tree has no more nodes than the source has bytes. -/
theorem C123_bytes {n : Nat} {src : Bytes} {env : Env} {res : PState.FileResult} {rules}
    (h : parseSource n src env = .ok res) (ht : res.cddl = some rules) :
    nodes rules + (rules.filter isRule).length ≤ src.length := by
  obtain ⟨ts, l, h1, h2, h3⟩ := C123_tokens h ht
  exact Nat.le_trans h3 (C01_bound (C02_no_tree h ht) h1 h2)

omit [Unicode] in
/-- Both bounds are reached: a rule, four operators and three operands, in nine tokens of one byte each. -/
example : letI := asciiOnly; ∃ res rules, parseSource 20 b!"a=1/#/?~1" = .ok res ∧ res.cddl = some rules ∧
    res.errs = [] ∧ nodes rules + (rules.filter isRule).length = b!"a=1/#/?~1".length := by
  let _ := asciiOnly
  obtain ⟨res, rules, h1, h2, h3⟩ := of_parses (n := 20) (src := b!"a=1/#/?~1")
    (f := fun rules errs => decide (errs = [] ∧
      nodes rules + (rules.filter isRule).length = b!"a=1/#/?~1".length)) (by decide_cbv)
  have h3 := of_decide_eq_true h3
  exact ⟨res, rules, h1, h2, h3.1, h3.2⟩

end Cddlc
