import Verif.Lemmas.Work
import Verif.Props.Weight

/-! C124: how often `parseEntry` is called. -/

namespace Cddlc
open Spec PState
variable [Unicode]

theorem rulesWith_covers {rec : Rec} (hc : CF rec) {n : Nat} {src : Bytes} {env : Env} {rules q}
    (h : rulesWith rec n src env = .ok (rules, q)) :
    ∃ ts l, Scans (Lexer.new src) ts l ∧ (∀ t ∈ ts, t.tok ≠ .EOF) ∧ q.errors.length ≤ ts.length := by
  unfold rulesWith at h
  obtain ⟨p, hp, h⟩ := Out.bind_eq_ok.mp h
  obtain ⟨h1, -, h3, h4⟩ := PState.new_synced p hp
  have hw : Covers (Lexer.new src) 0 p := ⟨[], h1, by simp [h3]⟩
  obtain ⟨⟨us, g1, g2⟩, -⟩ := loopOut_wp (I := fun s => Covers (Lexer.new src) 0 s.2)
    (Q := fun t => Covers (Lexer.new src) 0 t.2 ∧ t.2.cur = .EOF)
    (fun s hw => (stepWith_covers hc hw).mono fun r h => by cases r <;> exact h) n _ hw _ h
  dsimp only at g1 g2
  unfold Synced at g1
  obtain ⟨m, g1, -⟩ := scans_split g1
  obtain ⟨ts, l, i1, i2, i3⟩ := scans_front g1
  refine ⟨ts, l, i1, i2, ?_⟩
  rw [← i3]
  unfold counted at g2
  omega

/-- **C124** (calls): whatever note `d` is made of each call of `parseEntry`, the parser with notes returns the same
rules as the parser, and its diagnostics are those of the parser and the `k` notes. There are no more of both than
tokens in front of the end of the file. -/
theorem C124_calls {n : Nat} {src : Bytes} {env : Env} {res : FileResult} {rules}
    (h : parseSource n src env = .ok res) (ht : res.cddl = some rules) (d : Diag) :
    ∃ p k early late ts l, rulesWith (notedEntry d n) n src env = .ok (rules, p) ∧
      res.errs = early ++ late ∧ p.errors.Perm (early ++ List.replicate k d) ∧
      Scans (Lexer.new src) ts l ∧ (∀ t ∈ ts, t.tok ≠ .EOF) ∧ early.length + k ≤ ts.length := by
  unfold parseSource at h
  obtain ⟨p, hp, h⟩ := Out.bind_eq_ok.mp h
  unfold parseFile at h
  split at h
  · cases h; cases ht
  · obtain ⟨⟨rs, q⟩, hq, h⟩ := Out.bind_eq_ok.mp h
    cases h
    cases ht
    have hnear : (notedTwins d).near p ⟨p.lx, p.peek, p.peekPos, p.peekLit, p.errors, p.env, p.tasks⟩ :=
      ⟨p.errors, 0, by simp, rfl⟩
    obtain ⟨m, ⟨es, k, h1, rfl⟩, h2⟩ := noted_file n hnear hq
    have hrun : rulesWith (notedEntry d n) n src env = .ok (rules, { q with errors := es }) := by
      unfold rulesWith
      rw [hp]
      exact h2
    obtain ⟨ts, l, g1, g2, g3⟩ := rulesWith_covers (notedEntry_fair d n) hrun
    refine ⟨_, k, q.errors, _, ts, l, hrun, rfl, h1, g1, g2, ?_⟩
    have := h1.length_eq
    simp only [List.length_append, List.length_replicate] at this
    dsimp only at g3
    omega

/-- **C124** (bytes): `parseEntry` is called at most once for every byte of the source; diagnostics that are found
while the rules are read count like calls. -/
theorem C124_bytes {n : Nat} {src : Bytes} {env : Env} {res : FileResult} {rules}
    (h : parseSource n src env = .ok res) (ht : res.cddl = some rules) (d : Diag) :
    ∃ p, rulesWith (notedEntry d n) n src env = .ok (rules, p) ∧ p.errors.length ≤ src.length := by
  obtain ⟨p, k, early, late, ts, l, h1, -, h3, h4, h5, h6⟩ := C124_calls h ht d
  refine ⟨p, h1, ?_⟩
  have := h3.length_eq
  simp only [List.length_append, List.length_replicate] at this
  have := C01_bound (C02_no_tree h ht) h4 h5
  omega

/-- Without notes these are the functions of the parser. -/
theorem rulesWith_plain {n : Nat} {src : Bytes} {env : Env} {res : FileResult} {rules}
    (h : parseSource n src env = .ok res) (ht : res.cddl = some rules) :
    ∃ p, rulesWith (parseEntry n) n src env = .ok (rules, p) ∧ res.final = p.runTasks := by
  unfold parseSource at h
  obtain ⟨p, hp, h⟩ := Out.bind_eq_ok.mp h
  unfold parseFile at h
  split at h
  · cases h; cases ht
  · obtain ⟨⟨rs, q⟩, hq, h⟩ := Out.bind_eq_ok.mp h
    cases h
    cases ht
    refine ⟨q, ?_, rfl⟩
    unfold rulesWith
    rw [hp]
    exact hq

omit [Unicode] in
/-- The bound is reached: six tokens of one byte each; the entry of the rule and one for each bracket, and a
diagnostic for the missing rest. -/
example : letI := asciiOnly; ∃ res rules p, parseSource 20 b!"a=((((" = .ok res ∧ res.cddl = some rules ∧
    rulesWith (notedEntry ⟨.expectedIntLit, {}, {}⟩ 20) 20 b!"a=((((" = .ok (rules, p) ∧
    p.errors.length = b!"a=((((".length ∧ p.errors.count ⟨.expectedIntLit, {}, {}⟩ = 5 := by
  let _ := asciiOnly
  obtain ⟨res, rules, h1, h2, _⟩ := of_parses (n := 20) (src := b!"a=((((") (f := fun _ _ => true) (by decide_cbv)
  obtain ⟨p, h3, _⟩ := C124_bytes h1 h2 ⟨.expectedIntLit, {}, {}⟩
  have h4 : (match rulesWith (notedEntry ⟨.expectedIntLit, {}, {}⟩ 20) 20 b!"a=((((" with
      | .ok r => decide (r.2.errors.length = 6 ∧ r.2.errors.count ⟨.expectedIntLit, {}, {}⟩ = 5)
      | _ => false) = true := by decide_cbv
  rw [h3] at h4
  have h4 := of_decide_eq_true h4
  exact ⟨res, rules, p, h1, h2, h3, h4.1, h4.2⟩

end Cddlc
