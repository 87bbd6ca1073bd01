import Verif.Lemmas.Prefix
import Verif.Lemmas.PrefixLex
import Verif.Lemmas.Check
import Verif.Props.Lexer

/-! C101: what comes later in the source leaves the items before it alone. -/

namespace Cddlc
variable [Unicode]

/-- **C101**: if two sources begin with the same tokens, up to and including the first token `t` of a
rule or comment `e` of the one, and both are parsed to a tree, then everything before `e` in the tree of
the one stands, at the same place and with the same positions, at the start of the tree of the other.
Whatever follows `t`, in either source, plays no part in it. -/
theorem C101_items_before {src src' : Bytes} {env : Env} {ts : List Token} {t : Token} {l l' : Lexer} {n n' : Nat}
    {res res' : PState.FileResult} {as bs rules' : List Node} {e : Node} (hc : Clean src)
    (hs : Scans (Lexer.new src) (ts ++ [t]) l) (hs' : Scans (Lexer.new src') (ts ++ [t]) l')
    (ht : t.tok ≠ .EOF) (hp : parseSource n src env = .ok res) (hr : res.cddl = some (as ++ e :: bs))
    (he : headPos e = t.pos) (hp' : parseSource n' src' env = .ok res') (hr' : res'.cddl = some rules') :
    as <+: rules' := by
  have hne : ∀ u ∈ ts ++ [t], u.tok ≠ .EOF := by
    intro u hu heof
    obtain ⟨xs, ys, hxy⟩ := List.append_of_mem hu
    rw [hxy] at hs
    obtain ⟨m, h1, h2⟩ := scans_split (ts := xs ++ [u]) (us := ys) (by simpa using hs)
    have := ((C03_eof_absorbing h1 heof).2.choose_spec.2.2 ys l h2).1
    have hlast : t ∈ u :: ys := by
      have h1 : (ts ++ [t]).getLast? = (u :: ys).getLast? := by rw [hxy, List.getLast?_append]; simp [List.getLast?_cons]
      rw [List.getLast?_concat] at h1
      exact List.mem_of_getLast? h1.symm
    rcases List.mem_cons.mp hlast with rfl | h
    · exact ht heof
    · rw [this t h] at ht; exact ht heof
  obtain ⟨done, rest, h1, h2, h3⟩ := source_prefix hc hs hs' hne hp hr hp' hr'
  rcases Nat.lt_or_ge done.length as.length with hlt | hge
  · exfalso
    have hi : rest[as.length - done.length]? = some e := by
      have := congrArg (fun l => l[as.length]?) h1
      simp only [List.getElem?_append_right (Nat.le_refl as.length), Nat.sub_self, List.getElem?_cons_zero] at this
      rw [List.getElem?_append_right (by omega)] at this
      exact this.symm
    obtain ⟨j, hj⟩ : ∃ j, as.length - done.length = j + 1 := ⟨as.length - done.length - 1, by omega⟩
    rw [hj] at hi
    obtain ⟨vs, a, l1, g1, g2, g3, g4⟩ := h3 j e hi
    have := offset_lt hc hs g1 (by simp at g2; omega) ht g4
    rw [g3, he] at this
    omega
  · have : as <+: done := by
      refine List.prefix_of_prefix_length_le (l₃ := as ++ e :: bs) (List.prefix_append _ _) ?_ hge
      rw [h1]; exact List.prefix_append _ _
    exact this.trans h2

/-- **C101**, in lines: text on later lines has no effect on what stands before the last rule or comment
that begins on the lines before. -/
theorem C101_later_lines {a b b' : List Char} {env : Env} {n n' : Nat} {res res' : PState.FileResult}
    {as bs rules' : List Node} {e : Node} (ha : '\uFFFD' ∉ a) (hb : '\uFFFD' ∉ b) (hb' : '\uFFFD' ∉ b')
    (hp : parseSource n (enc (a ++ '\n' :: b)) env = .ok res) (hr : res.cddl = some (as ++ e :: bs))
    (he : (headPos e).offset < (enc a).length)
    (hp' : parseSource n' (enc (a ++ '\n' :: b')) env = .ok res') (hr' : res'.cddl = some rules') :
    as <+: rules' := by
  have hg : '\uFFFD' ∉ a ++ '\n' :: b := by simp [ha, hb]
  have hg' : '\uFFFD' ∉ a ++ '\n' :: b' := by simp [ha, hb']
  obtain ⟨p, q, hs, _, _, _, hrun, _⟩ := tree_run hp hr
  obtain ⟨vs, t, l, h1, _, h2, h3⟩ := run_heads hrun hs (i := as.length) (e := e) (by simp)
  obtain ⟨l', h4⟩ := scans_common_lines (t := a) (done := []) h1 (Lexer.clean_new hg) (Lexer.clean_new hg')
    (by rw [h2]; simpa [blen] using he)
  exact C101_items_before ⟨_, hg, rfl⟩ h1 h4 h3 hp hr h2.symm hp' hr'

/-- The rule has no body: it was given up. -/
def givenUp : Node → Bool
  | .rule _ _ .nil _ => true
  | _ => false

omit [Unicode] in
/-- A case of it: the text behind the third line differs, in one case with an error. The rule `a` and the comment
are the same, down to their positions; the rule `b` is not. -/
example : letI := asciiOnly; ∃ res res' as e bs rules',
    parseSource 40 (enc ("a = int\n; about b\nb = [tstr".toList ++ '\n' :: ", c: bool]\nc = 1".toList)) = .ok res ∧
    res.cddl = some (as ++ e :: bs) ∧ as.length = 2 ∧
    (headPos e).offset < (enc "a = int\n; about b\nb = [tstr".toList).length ∧
    parseSource 40 (enc ("a = int\n; about b\nb = [tstr".toList ++ '\n' :: ") ]".toList)) = .ok res' ∧
    res'.cddl = some rules' ∧ rules'[2]? ≠ some e ∧ res'.errs ≠ [] := by
  letI := asciiOnly
  obtain ⟨res, rules, h1, h2, h3⟩ := of_parses (n := 40)
    (src := enc ("a = int\n; about b\nb = [tstr".toList ++ '\n' :: ", c: bool]\nc = 1".toList))
    (f := fun rules _ => match rules with
      | [_, _, e, _] => decide ((headPos e).offset < 27) && !givenUp e
      | _ => false) (by decide_cbv)
  obtain ⟨res', rules', h1', h2', h3'⟩ := of_parses (n := 40)
    (src := enc ("a = int\n; about b\nb = [tstr".toList ++ '\n' :: ") ]".toList))
    (f := fun rules errs => (rules[2]?.map givenUp).getD false && decide (errs ≠ [])) (by decide_cbv)
  split at h3
  · rename_i x y e d
    simp only [Bool.and_eq_true, decide_eq_true_eq, Bool.not_eq_true'] at h3 h3'
    refine ⟨res, res', [x, y], e, [d], rules', h1, h2, rfl, ?_, h1', h2', ?_, h3'.2⟩
    · rw [show (enc "a = int\n; about b\nb = [tstr".toList).length = 27 by decide]
      exact h3.1
    intro h
    rw [h] at h3'
    simp [h3.2] at h3'
  · cases h3

omit [Unicode] in
/-- The rule `e` itself is not covered, and nor is the last rule: a rule goes on until something follows that
does not belong to it. -/
example : letI := asciiOnly; ∃ res res' r r',
    parseSource 40 (enc ("a = int".toList ++ '\n' :: [])) = .ok res ∧ res.cddl = some [r] ∧
    parseSource 40 (enc ("a = int".toList ++ '\n' :: "/ tstr".toList)) = .ok res' ∧ res'.cddl = some [r'] ∧ r ≠ r' := by
  letI := asciiOnly
  obtain ⟨res, rules, h1, h2, h3⟩ := of_parses (n := 40) (src := enc ("a = int".toList ++ '\n' :: []))
    (f := fun rules _ => match rules with
      | [.rule _ _ (.typeChoice ..) _] => false
      | [_] => true
      | _ => false) (by decide_cbv)
  obtain ⟨res', rules', h1', h2', h3'⟩ := of_parses (n := 40) (src := enc ("a = int".toList ++ '\n' :: "/ tstr".toList))
    (f := fun rules _ => match rules with
      | [.rule _ _ (.typeChoice ..) _] => true
      | _ => false) (by decide_cbv)
  split at h3
  · cases h3
  · rename_i r hr
    split at h3'
    · exact ⟨res, res', _, _, h1, h2, h1', h2', fun h => hr _ _ _ _ _ _ _ (by rw [h])⟩
    · cases h3'
  · cases h3

end Cddlc
