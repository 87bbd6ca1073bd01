import Verif.Lemmas.Sentence
import Verif.Lemmas.Check
import Verif.Props.Total

/-! C98 (a grammar of what is accepted), C99 (matching brackets) and C100 (words that are never accepted). -/

namespace Cddlc
open Spec
variable [Unicode]

/-! ### C98 -/

/-- **C98**: the tokens of a source that the parser accepts, up to the end of the file, form a sentence of the
grammar of `Spec.Sentence`. The only freedom is the token behind a comment that is kept behind a rule. -/
theorem C98_sentence {n : Nat} {src : Bytes} {env : Env} {res : PState.FileResult} {rules}
    (h : parseSource n src env = .ok res) (ht : res.cddl = some rules) (he : res.errs = []) :
    ∃ ts eof l, Scans (Lexer.new src) (ts ++ [eof]) l ∧ eof.tok = .EOF ∧ (∀ t ∈ ts, t.tok ≠ .EOF) ∧
      Sentence (∃ e ∈ rules, ∃ pos name x c, e = .rule pos name x (some c)) (ts.map (·.tok)) := by
  obtain ⟨p, q, hs, -, -, -, hr, -, hq⟩ := tree_run h ht
  have hq' : q.errors = [] := by
    rw [he] at hq
    exact (List.append_eq_nil_iff.mp hq.symm).1
  obtain ⟨vs, e, h1, h2, us, w, h3, h4⟩ := run_says hr ⟨_, hs⟩ hq'
    (lax := ∃ e ∈ rules, ∃ pos name x c, e = .rule pos name x (some c)) fun e hm ht => ⟨e, hm, ht⟩
  have hw : Synced (Lexer.new src) ([] ++ us) w := h3 _ _ hs
  unfold Synced at hw
  rw [show [] ++ us ++ [w.curTok, w.peekTok] = (us ++ [w.curTok]) ++ [w.peekTok] by simp, ← h4] at hw
  obtain ⟨m, h5, -⟩ := scans_split hw
  refine ⟨vs, e, m, h5, h2, fun t ht hE => ?_, h1⟩
  exact sentence_no_eof h1 (hE ▸ List.mem_map_of_mem ht)

omit [Unicode] in
-- a comment, a map with an optional entry, a tag, a control, a choice, a range, an array
example : letI := asciiOnly; ∃ res rules, parseSource 60
    b!"; c\na = { ? x: uint .size 4, b => [* tstr] }\nb = #6.1(a) / 1..5\nb /= ~a" = .ok res ∧
    res.cddl = some rules ∧ res.errs = [] ∧ rules.length = 4 := by
  letI := asciiOnly
  obtain ⟨res, rules, h1, h2, h3⟩ := of_parses (n := 60)
    (src := b!"; c\na = { ? x: uint .size 4, b => [* tstr] }\nb = #6.1(a) / 1..5\nb /= ~a")
    (f := fun rules errs => decide (errs = []) && decide (rules.length = 4)) (by decide_cbv)
  simp only [Bool.and_eq_true, decide_eq_true_eq] at h3
  exact ⟨res, rules, h1, h2, h3.1, h3.2⟩

-- the grammar is not everything: it knows no rule without a name, and no entry that starts with a comma
example : ¬ Sentence True [.ASSIGN, .INT] := by
  generalize h : [Tok.ASSIGN, .INT] = ts
  intro hs
  cases hs <;> simp at h

/-! ### C99 -/

omit [Unicode] in
/-- **C99** is false: the bracket of a tag need not be closed, and the token behind a comment that is kept behind
a rule is passed over, even a bracket. -/
theorem C99_refuted : letI := asciiOnly; ∀ src ∈ [b!"a = #6.1(int", b!"a = int ; c\n]\nb = int"],
    Clean src ∧ ∃ ts eof l res rules, Scans (Lexer.new src) (ts ++ [eof]) l ∧ eof.tok = .EOF ∧
      (∀ t ∈ ts, t.tok ≠ .EOF) ∧ parseSource 30 src = .ok res ∧ res.cddl = some rules ∧ res.errs = [] ∧
      ¬ Matched (ts.map (·.tok)) := by
  letI := asciiOnly
  intro src hs
  simp only [List.mem_cons, List.not_mem_nil, or_false] at hs
  rcases hs with rfl | rfl
  · refine ⟨clean_enc (cs := "a = #6.1(int".toList) (by decide), ?_⟩
    obtain ⟨res, rules, h1, h2, h3⟩ := of_parses (n := 30) (src := b!"a = #6.1(int")
      (f := fun rules errs => decide (errs = [])) (by decide_cbv)
    exact ⟨_, _, _, res, rules, scanList_scans (n := 7) (ts := [_, _, _, _, _, _] ++ [_]) rfl, rfl,
      by decide, h1, h2, of_decide_eq_true h3, by unfold Matched; decide⟩
  · refine ⟨clean_enc (cs := "a = int ; c\n]\nb = int".toList) (by decide), ?_⟩
    obtain ⟨res, rules, h1, h2, h3⟩ := of_parses (n := 30) (src := b!"a = int ; c\n]\nb = int")
      (f := fun rules errs => decide (errs = [])) (by decide_cbv)
    exact ⟨_, _, _, res, rules, scanList_scans (n := 9) (ts := [_, _, _, _, _, _, _, _] ++ [_]) rfl, rfl,
      by decide, h1, h2, of_decide_eq_true h3, by unfold Matched; decide⟩

/-- **C99**, what holds: in an accepted source whose tree keeps no comment behind a rule, and that opens no
bracket behind a tag, the brackets match. -/
theorem C99_matched_partial {n : Nat} {src : Bytes} {env : Env} {res : PState.FileResult} {rules}
    (h : parseSource n src env = .ok res) (ht : res.cddl = some rules) (he : res.errs = [])
    (hc : ∀ e ∈ rules, ∀ pos name x c, e ≠ .rule pos name x (some c)) :
    ∃ ts eof l, Scans (Lexer.new src) (ts ++ [eof]) l ∧ eof.tok = .EOF ∧ (∀ t ∈ ts, t.tok ≠ .EOF) ∧
      ((∀ x y, ts.map (·.tok) ≠ x ++ .HASH :: .LPAREN :: y ∧ ts.map (·.tok) ≠ x ++ .HASH :: .INT :: .LPAREN :: y ∧
        ts.map (·.tok) ≠ x ++ .HASH :: .FLOAT :: .LPAREN :: y) → Matched (ts.map (·.tok))) := by
  obtain ⟨ts, eof, l, h1, h2, h3, h4⟩ := C98_sentence h ht he
  refine ⟨ts, eof, l, h1, h2, h3, fun hn => ?_⟩
  have : (∃ e ∈ rules, ∃ pos name x c, e = .rule pos name x (some c)) ↔ False := by
    simp only [iff_false]
    rintro ⟨e, hm, pos, name, x, c, rfl⟩
    exact hc _ hm pos name x c rfl
  rw [propext this] at h4
  simpa [openAfter, Matched] using sentence_neutral h4 hn [] []

/-- **C99**, with exactly the two exceptions: in an accepted source the brackets match, if some of the brackets
that open behind a tag are left out and, if the tree keeps a comment behind a rule, some tokens behind comments. -/
theorem C99_exceptions_partial {n : Nat} {src : Bytes} {env : Env} {res : PState.FileResult} {rules}
    (h : parseSource n src env = .ok res) (ht : res.cddl = some rules) (he : res.errs = []) :
    ∃ ts eof l us, Scans (Lexer.new src) (ts ++ [eof]) l ∧ eof.tok = .EOF ∧ (∀ t ∈ ts, t.tok ≠ .EOF) ∧
      Without (∃ e ∈ rules, ∃ pos name x c, e = .rule pos name x (some c)) (ts.map (·.tok)) us ∧ Matched us := by
  obtain ⟨ts, eof, l, h1, h2, h3, h4⟩ := C98_sentence h ht he
  obtain ⟨u, h5, h6⟩ := sentence_without h4
  exact ⟨ts, eof, l, u, h1, h2, h3, h5, by simpa [openAfter, Matched] using h6 [] []⟩

-- leaving out is needed, and does not make everything match
omit [Unicode] in
example : Without False [.IDENT, .ASSIGN, .HASH, .FLOAT, .LPAREN, .INT] [.IDENT, .ASSIGN, .HASH, .FLOAT, .INT] ∧
    Matched [.IDENT, .ASSIGN, .HASH, .FLOAT, .INT] ∧ ¬ Matched [.IDENT, .ASSIGN, .HASH, .FLOAT, .LPAREN, .INT] ∧
    ∀ us, Without True [.IDENT, .ASSIGN, .LBRACK, .INT] us → ¬ Matched us := by
  refine ⟨.keep (.keep (.tag (n := [.FLOAT]) (by decide) (.refl _))), by unfold Matched; decide,
    by unfold Matched; decide, ?_⟩
  intro us h
  have : us = [.IDENT, .ASSIGN, .LBRACK, .INT] := by
    cases h with
    | keep h => cases h with
      | keep h => cases h with
        | keep h => cases h with
          | keep h => cases h; rfl
  subst this
  unfold Matched; decide

omit [Unicode] in
-- brackets of all kinds inside each other, and a comment before a rule
example : letI := asciiOnly; ∃ res rules, parseSource 60 b!"; c )\na = { x: [* (y: int, z: {})] }" = .ok res ∧
    res.cddl = some rules ∧ res.errs = [] ∧ ∀ e ∈ rules, ∀ pos name x c, e ≠ .rule pos name x (some c) := by
  letI := asciiOnly
  obtain ⟨res, rules, h1, h2, h3⟩ := of_parses (n := 60) (src := b!"; c )\na = { x: [* (y: int, z: {})] }")
    (f := fun rules errs => decide (errs = []) && rules.all fun e => match e with
      | .rule _ _ _ (some _) => false
      | _ => true) (by decide_cbv)
  simp only [Bool.and_eq_true, decide_eq_true_eq, List.all_eq_true] at h3
  refine ⟨res, rules, h1, h2, h3.1, ?_⟩
  rintro e hm pos name x c rfl
  simpa using h3.2 _ hm

/-! ### C100 -/

/-- **C100**: a source with one of these tokens (`any`, `<`, `>`, `-`, `.`, a control other than sizes, bits,
expressions and comparisons, an illegal one) is not accepted, unless a comment is kept behind a rule. -/
theorem C100_unsupported {n : Nat} {src : Bytes} {env : Env} {res : PState.FileResult} {rules ts l} {t : Token}
    (h : parseSource n src env = .ok res) (hr : res.cddl = some rules)
    (hc : ∀ e ∈ rules, ∀ pos name x c, e ≠ .rule pos name x (some c))
    (hs : Scans (Lexer.new src) ts l) (ht : t ∈ ts) (hu : t.tok ∈ unsupported) : res.errs ≠ [] := by
  intro he
  obtain ⟨us, eof, l', h1, h2, h3, h4⟩ := C98_sentence h hr he
  have hf : (∃ e ∈ rules, ∃ pos name x c, e = .rule pos name x (some c)) ↔ False := by
    simp only [iff_false]
    rintro ⟨e, hm, pos, name, x, c, rfl⟩
    exact hc _ hm pos name x c rfl
  rw [propext hf] at h4
  have hmem : t ∈ us ++ [eof] := by
    by_cases hl : ts.length ≤ (us ++ [eof]).length
    · exact (scans_det hs h1 hl).subset ht
    · obtain ⟨vs, hv⟩ := scans_det h1 hs (by omega)
      rw [← hv] at hs ht
      rcases List.mem_append.mp ht with h | h
      · exact h
      · obtain ⟨m, g1, g2⟩ := scans_split hs
        obtain ⟨_, _, _, _, g3⟩ := C03_eof_absorbing g1 h2
        rw [(g3 _ _ g2).1 t h]
        simp
  rcases List.mem_append.mp hmem with h | h
  · exact sentence_supported h4 _ (List.mem_map_of_mem h) hu
  · rw [List.mem_singleton] at h
    rw [h, h2] at hu
    exact absurd hu (by decide)

omit [Unicode] in
/-- The words behind these tokens are those that a schema would use. -/
example : letI := asciiOnly; ∃ ts l, Scans (Lexer.new b!"a = any b = int .default 1 c = a .and b d = bstr .cbor a") ts l ∧
    (ts.map (·.tok)).filter (· ∈ unsupported) = [.ANY, .DEFAULT, .AND, .CBOR] :=
  letI := asciiOnly; ⟨_, _, scanList_scans (n := 18) rfl, by decide⟩

omit [Unicode] in
/-- With a comment behind the rule before it, an illegal token is passed over. -/
example : letI := asciiOnly; ∃ res rules, parseSource 30 b!"a = int ; c\nany b = int" = .ok res ∧
    res.cddl = some rules ∧ res.errs = [] ∧ rules.length = 2 := by
  letI := asciiOnly
  obtain ⟨res, rules, h1, h2, h3⟩ := of_parses (n := 30) (src := b!"a = int ; c\nany b = int")
    (f := fun rules errs => decide (errs = []) && decide (rules.length = 2)) (by decide_cbv)
  simp only [Bool.and_eq_true, decide_eq_true_eq] at h3
  exact ⟨res, rules, h1, h2, h3.1, h3.2⟩

end Cddlc
