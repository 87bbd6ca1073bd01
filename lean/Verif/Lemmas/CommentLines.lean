import Verif.Lemmas.InsertFile
import Verif.Props.Lexer

/-! Comments that follow each other stand on different lines; the tokens of a source, seen as tokens with comments. -/

namespace Cddlc
open Spec
variable [Unicode]

/-- A comment is what begins with a semicolon. -/
theorem comment_lexeme {r : List Char} {x : Lexeme} (h : lexeme r = some x) (hx : x.tok = .COMMENT) :
    ∃ t, r = ';' :: t ∧ x.len = (t.takeWhile (· ≠ '\n')).length + 1 := by
  have hres : ∀ e ∈ reserved, e.2 ≠ .COMMENT := by decide
  have hword : ∀ w, word w ≠ .COMMENT := by
    intro w hw
    rcases word_cases w with h | ⟨e, he, h, -⟩
    · rw [h] at hw; cases hw
    · exact hres e he (h.symm.trans hw)
  cases r with
  | nil => cases h; cases hx
  | cons c t =>
    by_cases hc : c = ';'
    · subst hc
      refine ⟨t, rfl, ?_⟩
      change some (⟨.COMMENT, _, _, _⟩ : Lexeme) = _ at h
      cases h
      rfl
    · exfalso
      unfold lexeme at h
      change (if idStart c = true then _ else _) = _ at h
      by_cases hi : idStart c = true
      · rw [if_pos hi] at h
        cases h
        change (if _ then _ else Tok.IDENT) = _ at hx
        split at hx
        · exact hword _ hx
        · cases hx
      · rw [if_neg hi] at h
        split at h
        · cases h
          unfold number at hx
          split at hx
          · cases hx
          · cases hx
          · cases hx
          · simp only at hx
            split at hx <;> cases hx
        · split at h
          · rw [(rawOf_string h).1] at hx; cases hx
          · repeat' split at h
            all_goals cases h
            all_goals first
              | cases hx
              | exact hword _ hx
              | (obtain ⟨s, h1, h2, -⟩ := single_plain c
                 simp only at hx
                 exact h2 (h1 ▸ hx))

/-- Whatever follows a comment, but for the end, stands on a later line. -/
theorem comment_line {cs done r : List Char} {l l' : Lexer} {a b : Token} {ts} (h : Lexer.Clean cs l done r)
    (hs : Scans l (a :: b :: ts) l') (ha : a.tok = .COMMENT) (hb : b.tok ≠ .EOF) : a.pos.line < b.pos.line := by
  cases hs with
  | cons h1 hs =>
    cases hs with
    | cons h2 hs =>
      obtain ⟨x, hx, rfl, -, rfl, hc, -⟩ := Lexer.clean_scan_ok h h1
      obtain ⟨y, hy, rfl, -, rfl, -, -⟩ := Lexer.clean_scan_ok hc h2
      obtain ⟨t, ht, hl⟩ := comment_lexeme hx ha
      rw [ht, hl] at hy ⊢
      simp only [List.drop_succ_cons, List.take_succ_cons] at hy ⊢
      have hd : t.drop (t.takeWhile (· ≠ '\n')).length = t.dropWhile (· ≠ '\n') := by
        have := List.takeWhile_append_dropWhile (p := (· ≠ '\n')) (l := t)
        generalize t.takeWhile (· ≠ '\n') = p at *
        generalize t.dropWhile (· ≠ '\n') = q at *
        rw [← this, List.drop_left]
      rw [hd] at hy ⊢
      cases hr : t.dropWhile (· ≠ '\n') with
      | nil => rw [hr] at hy; cases hy; exact absurd rfl hb
      | cons c u =>
        have : c = '\n' := by
          have := List.head?_dropWhile_not (· ≠ '\n') t
          rw [hr] at this; simpa using this
        subst this
        have hw : ('\n' :: u).takeWhile ws = '\n' :: u.takeWhile ws := by
          simp [ws]
        simp only [Lexer.posAfter, hw, List.count_append, List.count_cons]
        simp
        omega

/-- The same for the tokens of a source. -/
theorem comment_lines {src : Bytes} {A B : List Token} {a b : Token} {L} (hc : Clean src)
    (hs : Scans (Lexer.new src) (A ++ a :: b :: B) L) (ha : a.tok = .COMMENT) (hb : b.tok ≠ .EOF) : a.pos.line < b.pos.line := by
  obtain ⟨cs, h1, rfl⟩ := hc
  obtain ⟨m, h2, h3⟩ := scans_split hs
  obtain ⟨done, r, h4, -⟩ := Lexer.clean_reach h1 h2
  exact comment_line h4 h3 ha hb

/-! ### From tokens to tokens with comments -/

omit [Unicode] in
theorem code_flat {D : Deco} (h : ∀ d ∈ D, (∀ g ∈ d.1, g.tok = .COMMENT) ∧ d.2.tok ≠ .COMMENT) : code (flat D) = bare D := by
  induction D with
  | nil => rfl
  | cons d D ih =>
    have hd := h d (List.mem_cons_self ..)
    rw [flat_cons]
    unfold code at *
    have h1 : d.1.filter (fun t => decide (t.tok ≠ .COMMENT)) = [] :=
      List.filter_eq_nil_iff.mpr fun g hg => by simp [hd.1 g hg]
    simp only [List.filter_append, List.filter_cons, h1, List.nil_append, ih fun e he => h e (List.mem_cons_of_mem _ he)]
    simp [hd.2, bare]

omit [Unicode] in
theorem flat_deco (ts : List Token) (eof : Token) : flat ((deco ts).1 ++ [((deco ts).2, eof)]) = ts ++ [eof] := by
  rw [flat_append]
  conv => rhs; rw [← deco_flat ts]
  simp [flat_cons, flat_nil]

omit [Unicode] in
theorem deco_all (ts : List Token) {eof : Token} (he : eof.tok ≠ .COMMENT) :
    ∀ d ∈ (deco ts).1 ++ [((deco ts).2, eof)], (∀ g ∈ d.1, g.tok = .COMMENT) ∧ d.2.tok ≠ .COMMENT := by
  intro d hd
  rcases List.mem_append.mp hd with h | h
  · exact (deco_comments ts).1 d h
  · rw [List.mem_singleton.mp h]
    exact ⟨(deco_comments ts).2, he⟩

omit [Unicode] in
theorem placed_deco {ts : List Token} {eof : Token} (he : eof.tok ≠ .COMMENT) (hw : WellPlaced (ts ++ [eof])) {A gl l gs r B}
    (e : (deco ts).1 ++ [((deco ts).2, eof)] = A ++ (gl, l) :: (gs, r) :: B) (hg : gs ≠ []) : Placed (bare A) l gs r := by
  have hall := deco_all ts he
  have hf := flat_deco ts eof
  rw [e] at hall hf
  have := hw (flat A ++ gl) l gs r (flat B) (by rw [← hf, flat_append, flat_cons, flat_cons]; simp) hg
    (hall (gs, r) (by simp)).1 (hall (gl, l) (by simp)).2 (hall (gs, r) (by simp)).2
  have hc : code (flat A ++ gl) = bare A := by
    have h1 : gl.filter (fun t => decide (t.tok ≠ .COMMENT)) = [] :=
      List.filter_eq_nil_iff.mpr fun g hg => by simp [(hall (gl, l) (by simp)).1 g hg]
    have h2 := code_flat (D := A) fun d hd => hall d (by simp [hd])
    unfold code at *
    rw [List.filter_append, h1, h2, List.append_nil]
  rwa [hc] at this

theorem fit_deco {src : Bytes} {ts : List Token} {eof : Token} {L} (hs : Scans (Lexer.new src) (ts ++ [eof]) L) (he : eof.tok = .EOF)
    (hw : WellPlaced (ts ++ [eof])) : FitIn [] ((deco ts).1 ++ [((deco ts).2, eof)]) := by
  have hec : eof.tok ≠ .COMMENT := by rw [he]; decide
  have hclean : Clean src := Classical.byContradiction fun hn =>
    C02_malformed_no_eof hn hs eof (by simp) he
  have hall := deco_all ts hec
  refine ⟨fun d hd => (hall d hd).1, ?_, fun d hd => (hall d hd).2, fun A gl l gs r B e hg => ?_⟩
  · intro d hd X a b Y hX
    obtain ⟨A, B, hAB⟩ := List.append_of_mem hd
    have hf := flat_deco ts eof
    rw [hAB, flat_append, flat_cons, hX] at hf
    have hd' := (hall d hd).1
    have hb : b.tok = .COMMENT := hd' b (by simp [hX])
    have := comment_lines (A := flat A ++ X) (a := a) (b := b) (B := Y ++ d.2 :: flat B) hclean
      (by rw [← hf] at hs; simpa using hs) (hd' a (by simp [hX])) (by rw [hb]; decide)
    omega
  · simpa using placed_deco hec hw e hg

omit [Unicode] in
theorem sep_deco {ts : List Token} {eof : Token} (he : eof.tok ≠ .COMMENT) (hw : WellPlaced (ts ++ [eof])) (hsep : Separated ts) :
    Sep (deco ts).1 := by
  intro A gl l g n ga a B e hn ha
  have hc := deco_comments ts
  have hf := deco_flat ts
  have hga : ga = [] := Classical.byContradiction fun h =>
    (placed_deco (A := A ++ [(gl, l)]) (gl := [g]) (l := n) (gs := ga) (r := a) (B := B ++ [((deco ts).2, eof)]) he hw
      (by rw [e]; simp) h).assign ha
  subst hga
  rw [e] at hc hf
  refine hsep (flat A ++ gl) l g n a (flat B ++ (deco ts).2) ?_ (hc.1 (gl, l) (by simp)).2 ((hc.1 ([g], n) (by simp)).1 g (by simp)) hn ha
  generalize (deco ts).2 = ge at hf ⊢
  rw [← hf]
  simp [flat_append, flat_cons]

end Cddlc
