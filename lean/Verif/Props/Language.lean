import Verif.Lemmas.LangWhole
import Verif.Lemmas.Check
import Verif.Props.GenJoin

/-! C112: exactly which sources are accepted, and with which trees. -/

namespace Cddlc
open Spec
variable [Unicode]

/-- **C112**: a source is accepted, with the tree `rules`, if and only if its tokens form a file of
the grammar of `Spec.Rules` with that tree, no name is declared twice (or is declared in the environment already),
and none of the checks fails. -/
theorem C112_language {src : Bytes} {ts eof L} {env : Env} {rules}
    (hs : Scans (Lexer.new src) (ts ++ [eof]) L) (he : eof.tok = .EOF)
    (hc : ∀ t ∈ ts, t.tok ≠ .EOF) :
    (∃ n res, parseSource n src env = .ok res ∧ res.cddl = some rules ∧ res.errs = []) ↔
      ∃ ds cs, Rules eof ts rules ds cs ∧ (ds.map (·.1)).Nodup ∧ (∀ d ∈ ds, d.1 ∉ env.symbols.map (·.1)) ∧
        ∀ c ∈ cs, c.failure (declaredKind (ds ++ env.symbols)) = none := by
  constructor
  · rintro ⟨n, res, h1, h2, h3⟩
    obtain ⟨ds, cs, k1, k2, k3, -⟩ := lang_sound hs he hc h1 ⟨h2, by simp [h3]⟩
    obtain ⟨f1, f2⟩ := fresh_exists.mp k2
    refine ⟨ds, cs, k1, f1, f2, ?_⟩
    rw [h3, List.map_nil] at k3
    exact List.filterMap_eq_nil_iff.mp k3.symm
  · rintro ⟨ds, cs, k1, k2, k3, k4⟩
    obtain ⟨N, h⟩ := lang_complete hs he k1 (fresh_exists.mpr ⟨k2, k3⟩)
    obtain ⟨res, h1, h2, h3, -⟩ := h N (Nat.le_refl _)
    rw [List.filterMap_eq_nil_iff.mpr k4] at h3
    exact ⟨N, res, h1, h2, List.map_eq_nil_iff.mp h3⟩

/-- **C112**, what is reported: if the tokens form a file of the grammar in which no name is declared twice, the
parser gives that tree with every sufficient bound; the messages are those of the checks that fail, in order; and the
environment holds what is declared, the last first. -/
theorem C112_checks {src : Bytes} {ts eof L} {env : Env} {rules ds cs}
    (hs : Scans (Lexer.new src) (ts ++ [eof]) L) (he : eof.tok = .EOF) (hr : Rules eof ts rules ds cs)
    (hd : (ds.map (·.1)).Nodup) (hn : ∀ d ∈ ds, d.1 ∉ env.symbols.map (·.1)) :
    ∃ N, ∀ n, N ≤ n → ∃ res, parseSource n src env = .ok res ∧ res.cddl = some rules ∧
      res.errs.map (noPosMsg ·.msg) = cs.filterMap (Check.failure (declaredKind (ds ++ env.symbols))) ∧
      res.final.env.symbols = ds.reverse ++ env.symbols :=
  lang_complete hs he hr (fresh_exists.mpr ⟨hd, hn⟩)

/-- **C112**, the grammar is unambiguous: the tokens of a source have one tree and declare one list of
names and types. -/
theorem C112_unambiguous {src : Bytes} {ts eof L} {rules rules' ds ds' cs cs'}
    (hs : Scans (Lexer.new src) (ts ++ [eof]) L) (he : eof.tok = .EOF) (h : Rules eof ts rules ds cs)
    (h' : Rules eof ts rules' ds' cs') (hd : (ds.map (·.1)).Nodup) (hd' : (ds'.map (·.1)).Nodup) : rules = rules' ∧ ds = ds' := by
  obtain ⟨N, k⟩ := C112_checks (env := .new) hs he h hd (by simp [Env.new])
  obtain ⟨M, k'⟩ := C112_checks (env := .new) hs he h' hd' (by simp [Env.new])
  obtain ⟨r, k1, k2, -, k3⟩ := k N (Nat.le_refl _)
  obtain ⟨r', k1', k2', -, k3'⟩ := k' M (Nat.le_refl _)
  have := parse_unique k1 k1'
  subst this
  rw [k2] at k2'
  rw [k3] at k3'
  simp only [Env.new, List.append_nil] at k3'
  exact ⟨Option.some.inj k2', List.reverse_inj.mp k3'⟩

/-- Every source with a tree has tokens up to an end. -/
theorem tree_tokens {n : Nat} {src : Bytes} {env : Env} {res : PState.FileResult} {rules}
    (h : parseSource n src env = .ok res) (ht : res.cddl = some rules) :
    ∃ ts eof L, Scans (Lexer.new src) (ts ++ [eof]) L ∧ eof.tok = .EOF ∧ ∀ t ∈ ts, t.tok ≠ .EOF := by
  obtain ⟨p, q, hp, _, _, _, hr, _⟩ := tree_run h ht
  obtain ⟨⟨us, hq⟩, he⟩ := run_end hr ⟨_, hp⟩
  unfold Synced at hq
  have key : ∀ us : List Token, (∃ t ∈ us, t.tok = .EOF) →
      ∃ ts eof vs, us = ts ++ [eof] ++ vs ∧ eof.tok = .EOF ∧ ∀ t ∈ ts, t.tok ≠ .EOF := by
    intro us
    induction us with
    | nil => rintro ⟨t, ht, _⟩; cases ht
    | cons a us ih =>
      rintro ⟨t, ht, hte⟩
      by_cases ha : a.tok = .EOF
      · exact ⟨[], a, us, rfl, ha, nofun⟩
      · obtain ⟨ts, eof, vs, h1, h2, h3⟩ := ih ⟨t, by
          rcases List.mem_cons.mp ht with rfl | ht
          · exact absurd hte ha
          · exact ht, hte⟩
        refine ⟨a :: ts, eof, vs, by rw [h1]; rfl, h2, fun t ht => ?_⟩
        rcases List.mem_cons.mp ht with rfl | ht
        · exact ha
        · exact h3 t ht
  obtain ⟨ts, eof, vs, h1, h2, h3⟩ := key (us ++ [q.curTok, q.peekTok]) ⟨q.curTok, by simp, he⟩
  rw [h1] at hq
  obtain ⟨m, h4, -⟩ := scans_split hq
  exact ⟨ts, eof, m, h4, h2, h3⟩

/-- **C112**, for every source there is: it is accepted, with the tree `rules`, if and only if it has tokens up to an
end, and these tokens form a file of the grammar. -/
theorem C112_accepted {src : Bytes} {env : Env} {rules} :
    (∃ n res, parseSource n src env = .ok res ∧ res.cddl = some rules ∧ res.errs = []) ↔
      ∃ ts eof L ds cs, Scans (Lexer.new src) (ts ++ [eof]) L ∧ eof.tok = .EOF ∧ (∀ t ∈ ts, t.tok ≠ .EOF) ∧
        Rules eof ts rules ds cs ∧ (ds.map (·.1)).Nodup ∧ (∀ d ∈ ds, d.1 ∉ env.symbols.map (·.1)) ∧
        ∀ c ∈ cs, c.failure (declaredKind (ds ++ env.symbols)) = none := by
  constructor
  · rintro ⟨n, res, h1, h2, h3⟩
    obtain ⟨ts, eof, L, k1, k2, k3⟩ := tree_tokens h1 h2
    obtain ⟨ds, cs, h⟩ := (C112_language k1 k2 k3).mp ⟨n, res, h1, h2, h3⟩
    exact ⟨ts, eof, L, ds, cs, k1, k2, k3, h⟩
  · rintro ⟨ts, eof, L, ds, cs, k1, k2, k3, h⟩
    exact (C112_language k1 k2 k3).mpr ⟨ds, cs, h⟩

/-! ### Examples -/

/-- The tokens of a source (for the examples). -/
def tokensOf (n : Nat) (src : Bytes) : Option (List Token) :=
  match scanList (n + 1) (Lexer.new src) with
  | some (ts, _) =>
    match ts.reverse with
    | e :: us => if e.tok = .EOF ∧ ∀ t ∈ us, t.tok ≠ .EOF then some us.reverse else none
    | [] => none
  | none => none

theorem tokensOf_scans {n : Nat} {src : Bytes} {ts} (h : tokensOf n src = some ts) :
    ∃ eof L, Scans (Lexer.new src) (ts ++ [eof]) L ∧ eof.tok = .EOF ∧ ∀ t ∈ ts, t.tok ≠ .EOF := by
  unfold tokensOf at h
  split at h
  · rename_i us L hs
    split at h
    · rename_i e vs hv
      split at h
      · rename_i he
        cases h
        refine ⟨e, L, ?_, he.1, fun t ht => he.2 t (by simpa using ht)⟩
        have : us = vs.reverse ++ [e] := by rw [← List.reverse_reverse us, hv]; simp
        rw [← this]
        exact scanList_scans hs
      · cases h
    · cases h
  · cases h

set_option maxRecDepth 100000 in
set_option cbv.maxSteps 2000000 in
omit [Unicode] in
/-- Comments, a map, a choice, a tag, a range and an array: `C112_language` gives the derivation. -/
example : letI := asciiOnly; ∃ ts eof L rules ds cs,
    Scans (Lexer.new b!"; one\n; two\na = { ? x: uint .size 4, ; size\n b => [* tstr] }\nb = #6.1(a) / 1..5\nb /= ~a") (ts ++ [eof]) L ∧
    eof.tok = .EOF ∧ (∀ t ∈ ts, t.tok ≠ .EOF) ∧ ts.length = 35 ∧ Rules eof ts rules ds cs ∧ rules.length = 4 := by
  let := asciiOnly
  obtain ⟨res, rules, h1, h2, h3⟩ := of_parses (n := 60)
    (src := b!"; one\n; two\na = { ? x: uint .size 4, ; size\n b => [* tstr] }\nb = #6.1(a) / 1..5\nb /= ~a")
    (f := fun rules es => es.isEmpty && decide (rules.length = 4)) (by decide_cbv)
  simp only [Bool.and_eq_true, List.isEmpty_iff, decide_eq_true_eq] at h3
  have ht : ((tokensOf 35 b!"; one\n; two\na = { ? x: uint .size 4, ; size\n b => [* tstr] }\nb = #6.1(a) / 1..5\nb /= ~a").map (·.length)) = some 35 := by
    decide_cbv
  obtain ⟨ts, ht, hl⟩ := Option.map_eq_some_iff.mp ht
  obtain ⟨eof, L, k1, k2, k3⟩ := tokensOf_scans ht
  obtain ⟨ds, cs, k, _⟩ := (C112_language k1 k2 k3).mp ⟨60, res, h1, h2, h3.1⟩
  exact ⟨ts, eof, L, rules, ds, cs, k1, k2, k3, hl, k, h3.2⟩

omit [Unicode] in
/-- The bracket of a tag need not be closed; the grammar says so, and the parser accepts `a = #6.1(int`. -/
example : letI := asciiOnly; ∃ n res, parseSource n b!"a = #6.1(int" = .ok res ∧ res.errs = [] ∧ res.cddl.isSome := by
  let := asciiOnly
  have key : ∀ (a e h n o t eof : Token) L, Scans (Lexer.new b!"a = #6.1(int") ([a, e, h, n, o, t] ++ [eof]) L →
      eof.tok = .EOF → a.tok = .IDENT → e.tok = .ASSIGN → h.tok = .HASH → n.tok = .FLOAT → n.lit = b!"6.1" →
      o.tok = .LPAREN → t.tok = .INT → t.lit = b!"int" →
      ∃ n res, parseSource n b!"a = #6.1(int" = .ok res ∧ res.errs = [] ∧ res.cddl.isSome := by
    intro a e h n o t eof L hs he h1 h2 h3 h4 h5 h6 h7 h8
    have hr : Rules eof [a, e, h, n, o, t] _ _ _ := .declare (us := []) (ts := [h, n] ++ o :: [t]) h1 h2 (.unclosed h3
      (.both h4 (by rw [h5]; rfl : splitDots n.lit = [b!"6", b!"1"]) (v := 6) (w := 1) rfl rfl) h6 (by show eof.tok ≠ _; rw [he]; decide)
      (.only (.single (.int h7 h8)) (by show eof.tok ∉ _; rw [he]; decide) (by show eof.tok ≠ _; rw [he]; decide)))
      (.none fun h => by have := h.1.symm.trans he; cases this) .nil
    obtain ⟨n, res, h1, h2, h3⟩ := (C112_language (env := .new) hs he (by simp [h1, h2, h3, h4, h6, h7])).mpr
      ⟨_, _, hr, by simp, by simp [Env.new], by simp⟩
    exact ⟨n, res, h1, h3, by rw [h2]; rfl⟩
  exact key _ _ _ _ _ _ _ _ (scanList_scans (n := 7) rfl) rfl rfl rfl rfl rfl rfl rfl rfl rfl

omit [Unicode] in
/-- Behind a comment on the line of a rule a token is passed over: the grammar says so, and `a = 1 ; one` is read
with the stray `}` below it. -/
example : letI := asciiOnly; ∃ n res, parseSource n b!"a = tstr ; one\n}" = .ok res ∧ res.errs = [] ∧ res.cddl.isSome := by
  let := asciiOnly
  have key : ∀ (a e t c r eof : Token) L, Scans (Lexer.new b!"a = tstr ; one\n}") ([a, e, t, c, r] ++ [eof]) L →
      eof.tok = .EOF → a.tok = .IDENT → e.tok = .ASSIGN → t.tok = .TSTR → c.tok = .COMMENT →
      t.pos.line = c.pos.line → r.tok = .RBRACE →
      ∃ n res, parseSource n b!"a = tstr ; one\n}" = .ok res ∧ res.errs = [] ∧ res.cddl.isSome := by
    intro a e t c r eof L hs he h1 h2 h3 h5 h6 h7
    have hr : Rules eof [a, e, t, c, r] _ _ _ := .declare (ts := [t]) (us := [c, r]) h1 h2
      (.only (.single (.text (.inl h3))) (by show c.tok ∉ _; rw [h5]; decide) (by show c.tok ≠ _; rw [h5]; decide))
      (.some ⟨h5, t, rfl, h6⟩) .nil
    obtain ⟨n, res, h1, h2, h3⟩ := (C112_language (env := .new) hs he (by simp [h1, h2, h3, h5, h7])).mpr
      ⟨_, _, hr, by simp, by simp [Env.new], by simp⟩
    exact ⟨n, res, h1, h3, by rw [h2]; rfl⟩
  exact key _ _ _ _ _ _ _ (scanList_scans (n := 6) rfl) rfl rfl rfl rfl rfl rfl rfl

omit [Unicode] in
/-- The tokens of `a = [ 5` do not form a file of the grammar. -/
example : letI := asciiOnly; ∃ ts eof L, Scans (Lexer.new b!"a = [ 5") (ts ++ [eof]) L ∧ eof.tok = .EOF ∧
    ∀ rules ds, (ds.map (·.1)).Nodup → ¬ Rules eof ts rules ds [] := by
  let := asciiOnly
  obtain ⟨res, rules, h1, h2, h3⟩ := of_parses (n := 60) (src := b!"a = [ 5") (f := fun _ es => !es.isEmpty) (by decide_cbv)
  have ht : (tokensOf 4 b!"a = [ 5").isSome := by decide_cbv
  obtain ⟨ts, ht⟩ := Option.isSome_iff_exists.mp ht
  obtain ⟨eof, L, k1, k2, k3⟩ := tokensOf_scans ht
  refine ⟨ts, eof, L, k1, k2, fun rules ds hd hr => ?_⟩
  obtain ⟨n, r, j1, j2, j3⟩ := (C112_language (env := .new) k1 k2 k3).mpr ⟨ds, [], hr, hd, by simp [Env.new], by simp⟩
  rw [parse_unique j1 h1] at j3
  simp [j3] at h3

end Cddlc
