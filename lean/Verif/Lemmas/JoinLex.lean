import Verif.Lemmas.PrefixLex
import Verif.Lemmas.Rename

/-! The tokens of a text that ends in a line break, and of the text with more behind it. -/

namespace Cddlc
open Spec Lexer
variable [Unicode]

omit [Unicode] in
theorem drop_stop {t : List Char} (b : List Char) (h : t.dropWhile ws = []) :
    (t ++ '\n' :: b).dropWhile ws = b.dropWhile ws ∧ (t ++ '\n' :: b).takeWhile ws = t ++ '\n' :: b.takeWhile ws := by
  have ht : t.takeWhile ws = t := by
    have := List.takeWhile_append_dropWhile (p := ws) (l := t)
    rwa [h, List.append_nil] at this
  constructor
  · rw [List.dropWhile_append, h]
    rfl
  · rw [List.takeWhile_append, ht, if_pos rfl]
    rfl

/-- One token of the text. -/
theorem scan_both {cs cs' b done t : List Char} {l l' l1 : Lexer} {tok pos lit}
    (hs : l.scan = .ok (tok, pos, lit, l1)) (ht : tok ≠ .EOF) (h : Lexer.Clean cs l done (t ++ ['\n']))
    (h' : Lexer.Clean cs' l' done (t ++ '\n' :: b)) (he : l.errors = l'.errors) :
    ∃ l1' done1 t1, l'.scan = .ok (tok, pos, lit, l1') ∧ done1 ++ t1 = done ++ t ∧
      Lexer.Clean cs l1 done1 (t1 ++ ['\n']) ∧ Lexer.Clean cs' l1' done1 (t1 ++ '\n' :: b) ∧
      l1.errors = l1'.errors ∧ (posAfter done).line ≤ (posAfter done1).line ∧ pos.line ≤ (posAfter done1).line := by
  obtain ⟨x, hx, hxt, hl, hp, hc, hee⟩ := clean_scan_ok h hs
  cases hd : t.dropWhile ws with
  | nil =>
    rw [(drop_stop [] hd).1] at hx
    simp only [List.dropWhile_nil, lexeme, Option.some.injEq] at hx
    exact absurd (by rw [← hxt, ← hx]) ht
  | cons c u =>
    have hw : ∀ b, (t ++ '\n' :: b).takeWhile ws = t.takeWhile ws := by
      intro b
      have hlen := congrArg List.length (List.takeWhile_append_dropWhile (p := ws) (l := t))
      rw [hd] at hlen
      rw [List.takeWhile_append, if_neg (by simp at hlen; omega)]
    have hdd : ∀ b, (t ++ '\n' :: b).dropWhile ws = c :: u ++ '\n' :: b := by
      intro b
      rw [List.dropWhile_append, hd]
      rfl
    have hx' : lexeme ((t ++ '\n' :: b).dropWhile ws) = some x := by
      rw [hdd, ← lexeme_stop u [] b, ← hdd, hx]
    have hlen : x.len ≤ (c :: u).length := by
      have hn := lexeme_no_nl hx
      rw [hdd] at hn
      refine Decidable.byContradiction fun hgt => hn ?_
      rw [List.take_append]
      refine List.mem_append_right _ ?_
      obtain ⟨k, hk⟩ : ∃ k, x.len - (c :: u).length = k + 1 := ⟨x.len - (c :: u).length - 1, by omega⟩
      rw [hk]
      simp
    have hsc := clean_scan h'
    rw [hx'] at hsc
    obtain ⟨l1', hs', hc', hee'⟩ := hsc
    rw [hw, hdd, List.take_append_of_le_length hlen, List.drop_append_of_le_length hlen] at hc hc'
    rw [hw, hdd, List.take_append_of_le_length hlen] at hee hee'
    refine ⟨l1', _, (c :: u).drop x.len, ?_, ?_, hc, hc', ?_, ?_, ?_⟩
    · rw [hs', hxt, hl, hp, hw, hw]
    · rw [List.append_assoc, List.append_assoc, List.take_append_drop, ← hd, List.takeWhile_append_dropWhile]
    · rw [hee, hee', he]
    · simp only [posAfter, List.count_append]
      omega
    · rw [hp, hw]
      simp only [posAfter, List.count_append]
      omega

/-- All the tokens of the text. -/
theorem scans_both {cs cs' b : List Char} {ts : List Token} {m : Lexer} :
    ∀ {l l' : Lexer} {done t : List Char}, Scans l ts m → (∀ x ∈ ts, x.tok ≠ .EOF) →
      Lexer.Clean cs l done (t ++ ['\n']) → Lexer.Clean cs' l' done (t ++ '\n' :: b) → l.errors = l'.errors →
      ∃ m' done1 t1, Scans l' ts m' ∧ done1 ++ t1 = done ++ t ∧ Lexer.Clean cs m done1 (t1 ++ ['\n']) ∧
        Lexer.Clean cs' m' done1 (t1 ++ '\n' :: b) ∧ m.errors = m'.errors ∧
        (posAfter done).line ≤ (posAfter done1).line ∧ ∀ x ∈ ts, x.pos.line ≤ (posAfter done1).line := by
  induction ts with
  | nil =>
    intro l l' done t hs _ h h' he
    cases hs
    exact ⟨l', done, t, .nil _, rfl, h, h', he, Int.le_refl _, by simp⟩
  | cons y ts ih =>
    intro l l' done t hs hne h h' he
    cases hs with
    | cons h1 hs =>
      obtain ⟨l1', done1, t1, g1, g2, g3, g4, g5, g6, g7⟩ := scan_both h1 (hne _ List.mem_cons_self) h h' he
      obtain ⟨m', done2, t2, k1, k2, k3, k4, k5, k6, k7⟩ := ih hs (fun x hx => hne x (by simp [hx])) g3 g4 g5
      refine ⟨m', done2, t2, .cons g1 k1, k2.trans g2, k3, k4, k5, Int.le_trans g6 k6, ?_⟩
      intro x hx
      rcases List.mem_cons.mp hx with rfl | hx
      · exact Int.le_trans g7 k6
      · exact k7 x hx

/-- The tokens of a text are the first tokens of the text with more behind it, and then it goes on with what is
behind it. -/
theorem join_lex {t b : List Char} (hA : '\uFFFD' ∉ t) (hB : '\uFFFD' ∉ b) {ts : List Token} {L L1 : Lexer} {x s}
    (hs : Scans (Lexer.new (enc (t ++ ['\n']))) ts L) (hne : ∀ y ∈ ts, y.tok ≠ .EOF)
    (he : L.scan = .ok (.EOF, x, s, L1)) :
    ∃ L' done r, Scans (Lexer.new (enc (t ++ '\n' :: b))) ts L' ∧ Lexer.Clean (t ++ '\n' :: b) L' done r ∧
      r.dropWhile ws = b.dropWhile ws ∧ '\n' ∈ r.takeWhile ws ∧ L.errors = L'.errors ∧
      ∀ y ∈ ts, y.pos.line ≤ (posAfter done).line := by
  obtain ⟨L', done, t1, h1, _, h3, h4, h5, _, h7⟩ := scans_both (b := b) (cs' := t ++ '\n' :: b) hs hne (clean_new (by simp [hA]))
    (clean_new (by simp [hA, hB])) ((clean_new_errors _).trans (clean_new_errors _).symm)
  have hd : t1.dropWhile ws = [] := by
    obtain ⟨y, hy, hyt, _⟩ := clean_scan_ok h3 he
    cases hd : t1.dropWhile ws with
    | nil => rfl
    | cons c u =>
      exfalso
      rw [List.dropWhile_append, hd] at hy
      have hc : c ≠ '\n' := by
        rintro rfl
        have := List.head?_dropWhile_not ws t1
        rw [hd] at this
        simp [ws] at this
      exact (lexeme_facts hc hy).tok hyt
  obtain ⟨d1, d2⟩ := drop_stop b hd
  exact ⟨L', done, _, h1, h4, d1, by simp [d2], h5, h7⟩

/-- The same text at different places has the same tokens. -/
theorem scans_alike {cs cs' : List Char} {us : List Token} {l m : Lexer} (hs : Scans l us m) :
    ∀ {l' : Lexer} {done done' r r' : List Char}, Lexer.Clean cs l done r → Lexer.Clean cs' l' done' r' →
      r.dropWhile ws = r'.dropWhile ws → (l.errors = [] ↔ l'.errors = []) →
      ∃ us' m' d1 d1' r1 r1', Scans l' us' m' ∧ us'.map (·.tok) = us.map (·.tok) ∧ Lexer.Clean cs m d1 r1 ∧
        Lexer.Clean cs' m' d1' r1' ∧ r1.dropWhile ws = r1'.dropWhile ws ∧ (m.errors = [] ↔ m'.errors = []) := by
  induction hs with
  | nil =>
    intro l' done done' r r' h h' hd he
    exact ⟨[], l', done, done', r, r', .nil _, rfl, h, h', hd, he⟩
  | cons h1 _ ih =>
    intro l' done done' r r' h h' hd he
    obtain ⟨x, hx, ht, _, _, hc, hee⟩ := clean_scan_ok h h1
    have hsc := clean_scan h'
    rw [← hd, hx] at hsc
    obtain ⟨l1', hs', hc', hee'⟩ := hsc
    obtain ⟨us', m', d1, d1', r1, r1', g1, g2, g3⟩ := ih hc hc' rfl (by
      rw [hee, hee']
      cases x.err <;> simp [he])
    exact ⟨_, m', d1, d1', r1, r1', .cons hs' g1, by simp [g2, ht], g3⟩

end Cddlc
