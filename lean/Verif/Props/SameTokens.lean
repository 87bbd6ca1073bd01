import Verif.Lemmas.SameTokens
import Verif.Lemmas.Check
import Verif.Props.Errors
import Verif.Props.Lexer

/-! C103, C104: the tree depends on the tokens only; what becomes of a string that is not closed. -/

namespace Cddlc
variable [Unicode]

/-- Both lexers have returned the same tokens and then EOF. -/
theorem eof_follows {src src' : Bytes} {ts : List Token} {e : Token} {L L' : Lexer}
    (h : Scans (Lexer.new src) (ts ++ [e]) L) (h' : Scans (Lexer.new src') (ts ++ [e]) L') (he : e.tok = .EOF) :
    Follows (Lexer.new src) (Lexer.new src') := by
  refine sim_follows (S := fun l m => (∃ us, Scans l us L ∧ Scans m us L') ∨
    (∃ vs, Scans (Lexer.new src) (vs ++ [e]) l ∧ Scans (Lexer.new src') (vs ++ [e]) m)) ?_ (.inl ⟨_, h, h'⟩)
  have eofs : ∀ {l m t x s l'} {vs : List Token}, Scans (Lexer.new src) (vs ++ [e]) l → Scans (Lexer.new src') (vs ++ [e]) m →
      l.scan = .ok (t, x, s, l') → ∃ m', m.scan = .ok (t, x, s, m') ∧
        ∃ vs, Scans (Lexer.new src) (vs ++ [e]) l' ∧ Scans (Lexer.new src') (vs ++ [e]) m' := by
    intro l m t x s l' vs h1 h2 hs
    obtain ⟨g1, k, g2, _, g3⟩ := C03_eof_absorbing h1 he
    obtain ⟨_, k', g4, _⟩ := C03_eof_absorbing h2 he
    have hee : e = ⟨.EOF, e.pos, []⟩ := by cases e; cases he; cases g1; rfl
    rw [g2] at hs
    cases hs
    refine ⟨k', g4, vs ++ [e], ?_, ?_⟩
    · have := scans_push h1 g2
      rwa [← hee] at this
    · have := scans_push h2 g4
      rwa [← hee] at this
  rintro l m t x s l' (⟨us, h1, h2⟩ | ⟨vs, h1, h2⟩) hs
  · cases h1 with
    | nil =>
      cases h2
      obtain ⟨m', g1, g2⟩ := eofs h h' hs
      exact ⟨m', g1, .inr g2⟩
    | cons k1 k2 =>
      rw [k1] at hs
      cases hs
      cases h2 with
      | cons k3 k4 => exact ⟨_, k3, .inl ⟨_, k2, k4⟩⟩
  · obtain ⟨m', g1, g2⟩ := eofs h1 h2 hs
    exact ⟨m', g1, .inr g2⟩

/-- **C103**: if two sources have the same tokens (kinds, texts and positions) up to the end, and the lexer
recorded no error while it read the first two, then they are parsed to the same tree, with the same
diagnostics and the same declarations; errors that the lexer records later make no difference. -/
theorem C103_same_tokens {n : Nat} {src src' : Bytes} {env : Env} {ts : List Token} {e : Token} {l l' : Lexer}
    {res : PState.FileResult} (hs : Scans (Lexer.new src) (ts ++ [e]) l) (hs' : Scans (Lexer.new src') (ts ++ [e]) l')
    (he : e.tok = .EOF)
    (hn : ∀ a b m, Scans (Lexer.new src) [a, b] m → m.errors = [])
    (hn' : ∀ a b m, Scans (Lexer.new src') [a, b] m → m.errors = [])
    (h : parseSource n src env = .ok res) : ∃ res', parseSource n src' env = .ok res' ∧ res'.cddl = res.cddl ∧
      res'.errs = res.errs ∧ res'.final.env = res.final.env :=
  source_same (eof_follows hs hs' he) (fun a b m m' h1 h2 => by simp [hn a b m h1, hn' a b m' h2]) h

theorem scans_scanList {l l' : Lexer} {ts : List Token} (h : Scans l ts l') : scanList ts.length l = some (ts, l') := by
  induction h with
  | nil => rfl
  | cons h1 _ ih =>
    rw [List.length_cons, scanList, h1]
    dsimp only
    rw [ih]

/-- The sources have the same `k + 1` tokens, the last is EOF, and nothing is wrong with the first two. -/
def sameTokens (k : Nat) (src src' : Bytes) : Bool :=
  match scanList k (Lexer.new src), scanList k (Lexer.new src') with
  | some (ts, l), some (ts', l') =>
    match l.scan, l'.scan, scanList 2 (Lexer.new src), scanList 2 (Lexer.new src') with
    | .ok (t, x, s, m), .ok (t', x', s', _), some (_, l2), some (_, l2') =>
      ts = ts' && t = .EOF && t' = .EOF && x = x' && s = s' && l2.errors.isEmpty && l2'.errors.isEmpty &&
        m.errors.length = 1
    | _, _, _, _ => false
  | _, _ => false

omit [Unicode] in
/-- A case of it: one of the two sources has an error of the lexer, in the string. -/
example : letI := asciiOnly; ∃ ts e l l', Scans (Lexer.new b!"a = \"xyz\nb = 1") (ts ++ [e]) l ∧
    Scans (Lexer.new b!"a = \"xy\"\nb\t= 1") (ts ++ [e]) l' ∧ e.tok = .EOF ∧
    (∀ a b m, Scans (Lexer.new b!"a = \"xyz\nb = 1") [a, b] m → m.errors = []) ∧
    (∀ a b m, Scans (Lexer.new b!"a = \"xy\"\nb\t= 1") [a, b] m → m.errors = []) ∧ l.errors.length = 1 := by
  let := asciiOnly
  have h : sameTokens 6 b!"a = \"xyz\nb = 1" b!"a = \"xy\"\nb\t= 1" = true := by decide_cbv
  unfold sameTokens at h
  split at h
  · rename_i ts l ts' l' h1 h2
    split at h
    · rename_i t x s m t' x' s' m' _ l2 _ l2' h3 h4 h5 h6
      simp only [Bool.and_eq_true, decide_eq_true_eq, List.isEmpty_iff] at h
      obtain ⟨⟨⟨⟨⟨⟨⟨rfl, rfl⟩, rfl⟩, rfl⟩, rfl⟩, h7⟩, h8⟩, h9⟩ := h
      have two : ∀ {l0 l2 : Lexer} {ts}, scanList 2 l0 = some (ts, l2) → l2.errors = [] →
          ∀ a b m, Scans l0 [a, b] m → m.errors = [] := by
        intro l0 l2 ts h0 he a b m hs
        have := scans_scanList hs
        rw [show [a, b].length = 2 from rfl, h0] at this
        cases this
        exact he
      exact ⟨ts, _, m, m', scans_push (scanList_scans h1) h3, scans_push (scanList_scans h2) h4, rfl, two h5 h7, two h6 h8, h9⟩
    · cases h
  · cases h

/-- **C22**, exactly: there is no tree if and only if the lexer recorded an error while it read the first two
tokens. -/
theorem C22_exact_partial {n : Nat} {src : Bytes} {env : Env} {a b : Token} {l : Lexer} {res : PState.FileResult}
    (hs : Scans (Lexer.new src) [a, b] l) (h : parseSource n src env = .ok res) : res.cddl = none ↔ l.errors ≠ [] := by
  refine ⟨fun hr => ?_, fun he => C22_first_two_partial hs he h⟩
  obtain ⟨p, _, h0, _, _, _, _, hc⟩ := parseSource_run res h
  have hp : Scans (Lexer.new src) [p.curTok, p.peekTok] p.lx := by simpa [Synced] using h0
  cases hs with
  | cons h1 hs =>
  cases hs with
  | cons h2 hs =>
  cases hs
  cases hp with
  | cons k1 hp =>
  cases hp with
  | cons k2 hp =>
  cases hp
  rw [h1] at k1
  cases k1
  rw [h2] at k2
  injection k2 with k2
  simp only [Prod.mk.injEq] at k2
  rcases hc with ⟨he, _⟩ | ⟨_, rules, q, _, rfl⟩
  · rw [k2.2.2.2]; exact he
  · cases hr

/-- **C104**: a string that the end of its line (or of the source) cuts off, and that is not one of the first two
tokens, is parsed exactly like the string closed one character earlier, with a quote in place of its last
character: the same tree, the same diagnostics, the same declarations. So no error is reported for it, and
its last character is lost. `ts` are the tokens before the string; the last character `c` is ASCII. -/
theorem C104_cut_string {n : Nat} {pre body rest : List Char} {c : Char} {ts : List Token} {t : Token} {l : Lexer} {env : Env}
    (hg : '\uFFFD' ∉ pre ++ body ++ rest) (hq : '"' ∉ body) (hn : '\n' ∉ body)
    (hc : c.toNat < 128) (hcq : c ≠ '"') (hcn : c ≠ '\n') (hr : rest = [] ∨ rest.head? = some '\n')
    (hs : Scans (Lexer.new (enc (pre ++ '"' :: (body ++ c :: rest)))) (ts ++ [t]) l) (ht : t.pos.offset = (enc pre).length)
    (h2 : 2 ≤ ts.length) :
    (∀ res, parseSource n (enc (pre ++ '"' :: (body ++ c :: rest))) env = .ok res →
      ∃ res', parseSource n (enc (pre ++ '"' :: (body ++ '"' :: rest))) env = .ok res' ∧ res'.cddl = res.cddl ∧
        res'.errs = res.errs ∧ res'.final.env = res.final.env) ∧
    (∀ res, parseSource n (enc (pre ++ '"' :: (body ++ '"' :: rest))) env = .ok res →
      ∃ res', parseSource n (enc (pre ++ '"' :: (body ++ c :: rest))) env = .ok res' ∧ res'.cddl = res.cddl ∧
        res'.errs = res.errs ∧ res'.final.env = res.final.env) := by
  have hcg : c ≠ '\uFFFD' := by rintro rfl; exact absurd hc (by decide)
  simp only [List.mem_append, not_or] at hg
  have h3 : '\uFFFD' ∉ pre ++ '"' :: (body ++ c :: rest) := by simp [hg, Ne.symm hcg]
  have h4 : '\uFFFD' ∉ pre ++ '"' :: (body ++ '"' :: rest) := by simp [hg]
  exact ⟨fun res h => pair_source h3 h4 (cutPair hq hn hc hcq hcn hr) hs ht h2 h,
    fun res h => pair_source_back h3 h4 (cutPair hq hn hc hcq hcn hr) hs ht h2 h⟩

omit [Unicode] in
/-- A case of it: the parser goes on with the next line, and reports nothing. -/
example : letI := asciiOnly; ∃ res rules, parseSource 30 (enc ("a = ".toList ++ '"' :: ("xy".toList ++ 'z' :: "\nb = 1".toList))) = .ok res ∧
    res.cddl = some rules ∧ res.errs = [] ∧ rules.length = 2 ∧
    ∃ ts t l, Scans (Lexer.new (enc ("a = ".toList ++ '"' :: ("xy".toList ++ 'z' :: "\nb = 1".toList)))) (ts ++ [t]) l ∧
      t.pos.offset = ((enc "a = ".toList).length : Int) ∧ 2 ≤ ts.length := by
  let := asciiOnly
  obtain ⟨res, rules, h1, h2, h3⟩ := of_parses (n := 30) (src := enc ("a = ".toList ++ '"' :: ("xy".toList ++ 'z' :: "\nb = 1".toList)))
    (f := fun rules errs => decide (errs = [] ∧ rules.length = 2)) (by decide_cbv)
  obtain ⟨h3, h4⟩ := of_decide_eq_true h3
  have h5 : (match scanList 2 (Lexer.new (enc ("a = ".toList ++ '"' :: ("xy".toList ++ 'z' :: "\nb = 1".toList)))) with
      | some (ts, l) => match l.scan with
        | .ok (_, x, _, _) => ts.length = 2 && x.offset = ((enc "a = ".toList).length : Int)
        | _ => false
      | none => false) = true := by decide_cbv
  split at h5
  · rename_i ts l h6
    split at h5
    · rename_i h7
      simp only [Bool.and_eq_true, decide_eq_true_eq] at h5
      exact ⟨res, rules, h1, h2, h3, h4, _, _, _, scans_push (scanList_scans h6) h7, h5.2, by omega⟩
    · cases h5
  · cases h5

end Cddlc
