import Verif.Lemmas.InsertPart

/-! Comments can be put into files. -/

namespace Cddlc
open Spec

/-- Between rules there is not just one comment on the line of the first. -/
def Sep (D : Deco) : Prop :=
  ∀ A gl l g n ga a B, D = A ++ (gl, l) :: ([g], n) :: (ga, a) :: B → n.tok = .IDENT → a.tok ∈ ruleSigns → l.pos.line ≠ g.pos.line

theorem Sep.right {D E} (h : Sep (D ++ E)) : Sep E := by
  intro A gl l g n ga a B e
  exact h (D ++ A) gl l g n ga a B (by rw [e]; simp)

theorem Sep.first {g g' t D} (h : Sep ((g, t) :: D)) : Sep ((g', t) :: D) := by
  intro A gl l c n ga a B e
  cases A with
  | nil =>
    simp only [List.nil_append, List.cons.injEq, Prod.mk.injEq] at e
    exact h [] g l c n ga a B (by rw [e.1.2, e.2]; rfl)
  | cons d A =>
    simp only [List.cons_append, List.cons.injEq] at e
    exact h ((g, t) :: A) gl l c n ga a B (by rw [e.2]; rfl)

theorem rules_start_name {eof : Token} {us rs ds es} (h : Rules eof us rs ds es) (hc : ∀ t ∈ us, t.tok ≠ .COMMENT) :
    us = [] ∨ ∃ n a vs, us = n :: a :: vs ∧ n.tok = .IDENT ∧ a.tok ∈ ruleSigns := by
  cases h with
  | nil => exact .inl rfl
  | comments h1 h2 =>
    obtain ⟨g, gs, rfl⟩ := List.exists_cons_of_ne_nil h1
    exact absurd (h2 g (by simp)) (hc g (by simp))
  | declare h h' => exact .inr ⟨_, _, _, rfl, h, by rw [h']; decide⟩
  | extend h h' => exact .inr ⟨_, _, _, rfl, h, by rcases h' with h' | h' <;> rw [h'] <;> decide⟩

/-- What is in front of the next rule, or the end. -/
theorem insert_behind {P x ts us cs} {eof : Token} {D1 D2 : Deco} {ge : List Token} (hx : Lang (.entry x) ts (firstTok us eof) cs)
    (h1 : bare D1 = ts) (h2 : bare D2 = us) (hf : FitIn P (D1 ++ D2 ++ [(ge, eof)])) (hs : Sep (D1 ++ D2))
    (hu : us = [] ∨ ∃ n a vs, us = n :: a :: vs ∧ n.tok = .IDENT ∧ a.tok ∈ ruleSigns) :
    ∃ x' T U V k D' ge' P', flat (D1 ++ D2) ++ ge = T ++ U ∧ Lang (.entry x') T (firstTok U eof) cs ∧ noNotes x' = x ∧
      Behind eof T U k V ∧ V = flat D' ++ ge' ∧ bare D' = us ∧ FitIn P' (D' ++ [(ge', eof)]) ∧ Sep D' := by
  obtain ⟨gx, E, hE, hnx⟩ : ∃ gx E, D2 ++ [(ge, eof)] = (gx, firstTok us eof) :: E ∧ True := by
    cases D2 with
    | nil => subst h2; exact ⟨ge, [], rfl, trivial⟩
    | cons d D2 => subst h2; exact ⟨d.1, D2 ++ [(ge, eof)], rfl, trivial⟩
  have hf1 : FitIn P (D1 ++ [(gx, firstTok us eof)]) := FitIn.left (E := E) (by
    have := hf
    rw [List.append_assoc, hE] at this
    simpa using this)
  obtain ⟨x', k, rest, k1, k2, k3, k4, -⟩ := insert hx P D1 gx h1 hf1
  have hcc : ∀ t ∈ ts, t.tok ≠ .COMMENT := h1 ▸ bare_code hf1.left
  obtain ⟨l, hl, -⟩ := lang_lastOk hx hcc
  have hne : D1 ≠ [] := by
    rintro rfl
    subst h1
    cases hl
  have hk := grown_entry hne hf1.left k4
  have hcms := (fit_next hf1).1
  -- the tokens behind, with other comments in front
  have next : ∀ K r, gx = K ++ r → ∃ D' ge' P', flat D' ++ ge' = r ++ (flat D2 ++ ge).drop gx.length ∧ bare D' = us ∧
      FitIn P' (D' ++ [(ge', eof)]) ∧ Sep D' := by
    intro K r e
    cases D2 with
    | nil =>
      obtain ⟨⟨rfl, -⟩, -⟩ : (ge = gx ∧ eof = firstTok us eof) ∧ E = [] := by simpa using hE
      refine ⟨[], r, P ++ bare D1, by simp [flat_nil], h2, ?_, ?_⟩
      · refine FitIn.first (k := K) ?_
        rw [← e]
        exact FitIn.right (D := D1) (by simpa using hf)
      · intro A gl l g n ga a B e
        cases A <;> cases e
    | cons d D2 =>
      obtain ⟨g2, n2⟩ := d
      simp only [List.cons_append, List.cons.injEq, Prod.mk.injEq] at hE
      obtain ⟨⟨rfl, -⟩, -⟩ := hE
      refine ⟨(r, n2) :: D2, ge, P ++ bare D1, ?_, h2, ?_, (Sep.right hs).first⟩
      · simp [flat_cons]
      · refine FitIn.first (k := K) ?_
        rw [← e]
        exact FitIn.right (D := D1) (by simpa using hf)
  have hgx : (flat D2 ++ ge) = gx ++ (flat D2 ++ ge).drop gx.length := by
    cases D2 with
    | nil =>
      obtain ⟨⟨rfl, -⟩, -⟩ : (ge = gx ∧ eof = firstTok us eof) ∧ E = [] := by simpa using hE
      simp [flat_nil]
    | cons d D2 =>
      obtain ⟨g2, n2⟩ := d
      simp only [List.cons_append, List.cons.injEq, Prod.mk.injEq] at hE
      obtain ⟨⟨rfl, -⟩, -⟩ := hE
      simp [flat_cons]
  generalize (flat D2 ++ ge).drop gx.length = R at *
  have hfirst : firstTok (rest ++ R) eof = firstTok rest (firstTok us eof) := by
    cases rest with
    | cons c rest => rfl
    | nil =>
      cases D2 with
      | nil =>
        obtain ⟨⟨rfl, -⟩, -⟩ : (ge = gx ∧ eof = firstTok us eof) ∧ E = [] := by simpa using hE
        obtain rfl : R = [] := by simpa [flat_nil] using hgx
        subst h2
        rfl
      | cons d D2 =>
        obtain ⟨g2, n2⟩ := d
        simp only [List.cons_append, List.cons.injEq, Prod.mk.injEq] at hE
        obtain ⟨⟨rfl, -⟩, -⟩ := hE
        have : n2 :: (flat D2 ++ ge) = R := by simpa [flat_cons] using hgx
        subst h2 this
        rfl
  have htot : flat (D1 ++ D2) ++ ge = (flat D1 ++ k) ++ (rest ++ R) := by
    rw [flat_append, List.append_assoc, hgx, k1]; simp
  by_cases ht : Trails (flat D1 ++ k) (firstTok (rest ++ R) eof)
  · rw [hfirst] at ht
    have hrest : ∃ c rest', rest = c :: rest' := by
      cases rest with
      | nil => exact absurd ht.1 (fit_next hf1).2
      | cons c rest' => exact ⟨c, rest', rfl⟩
    obtain ⟨c, rest', rfl⟩ := hrest
    have hk0 : k = [] := by
      rcases k2 with rfl | ⟨g0, rfl⟩
      · rfl
      · exfalso
        obtain ⟨l, t1, t2⟩ := ht.2
        rw [List.getLast?_concat] at t1
        cases t1
        exact hf1.lines (gx, firstTok us eof) (by simp) [] g0 c rest' k1 t2
    subst hk0
    have hb : Behind eof (flat D1 ++ []) (c :: (rest' ++ R)) (some ⟨c.pos, c.lit⟩) (rest' ++ R).tail := .some ht
    cases rest' with
    | cons c2 rest'' =>
      obtain ⟨D', ge', P', j1, j2, j3, j4⟩ := next [c, c2] rest'' k1
      exact ⟨x', _, _, _, _, D', ge', P', htot, by rw [hfirst]; exact hk, k3, hb, j1.symm, j2, j3, j4⟩
    | nil =>
      simp only [List.nil_append] at k1
      subst k1
      rcases hu with hu | ⟨n, a, vs, hu, hn, ha⟩
      · obtain rfl : D2 = [] := List.map_eq_nil_iff.mp (h2.trans hu)
        obtain ⟨⟨rfl, -⟩, -⟩ : (ge = [c] ∧ eof = firstTok us eof) ∧ E = [] := by simpa using hE
        obtain rfl : R = [] := by simpa [flat_nil] using hgx
        obtain ⟨D', ge', P', j1, j2, j3, j4⟩ := next [c] [] rfl
        exact ⟨x', _, _, _, _, D', ge', P', htot, by rw [hfirst]; exact hk, k3, hb, j1.symm, j2, j3, j4⟩
      · exfalso
        rw [hu] at h2
        obtain ⟨g2, E', rfl, h3⟩ := bare_cons h2
        obtain ⟨ga, E', rfl, h4⟩ := bare_cons h3
        simp only [List.cons_append, List.cons.injEq, Prod.mk.injEq] at hE
        obtain ⟨⟨rfl, -⟩, -⟩ := hE
        rcases List.eq_nil_or_concat D1 with rfl | ⟨D1, d, rfl⟩
        · exact hne rfl
        · obtain ⟨gd, d⟩ := d
          rw [List.concat_eq_append] at *
          obtain ⟨l, t1, t2⟩ := ht.2
          rw [List.append_nil, flat_append] at t1
          obtain rfl : d = l := by simpa [flat] using t1
          exact hs D1 gd d c n ga a E' (by simp) hn ha t2
  · obtain ⟨D', ge', P', j1, j2, j3, j4⟩ := next k rest k1
    exact ⟨x', _, _, _, _, D', ge', P', htot, by rw [hfirst]; exact hk, k3, .none ht, j1.symm, j2, j3, j4⟩

/-- Comments in front of a rule. -/
theorem rules_comments {eof : Token} {g us rs ds es} (hg : ∀ t ∈ g, t.tok = .COMMENT) (hn : (firstTok us eof).tok ≠ .COMMENT)
    (h : Rules eof us rs ds es) : ∃ rs', Rules eof (g ++ us) rs' ds es ∧ uncommented rs' = uncommented rs := by
  by_cases h0 : g = []
  · subst h0
    exact ⟨rs, h, rfl⟩
  · refine ⟨_, .comments h0 hg hn h, ?_⟩
    unfold commentTree
    split <;> rfl

theorem insert_rules {eof : Token} (he : eof.tok ≠ .COMMENT) {us rules ds cs} (h : Rules eof us rules ds cs) :
    ∀ P D ge, bare D = us → FitIn P (D ++ [(ge, eof)]) → Sep D →
    ∃ rules' ds', Rules eof (flat D ++ ge) rules' ds' cs ∧ uncommented rules' = rules ∧ ds'.map (fun d => (d.1, noNotes d.2)) = ds := by
  have none_behind : ∀ {ts us k vs}, Behind eof ts us k vs → (∀ t ∈ us, t.tok ≠ .COMMENT) → k = none ∧ vs = us := by
    intro ts us k vs hb hc
    cases hb with
    | none _ => exact ⟨rfl, rfl⟩
    | some h => exact absurd h.1 (hc _ (by simp))
  induction h with
  | nil =>
    intro P D ge hD hf hs
    obtain rfl : D = [] := List.map_eq_nil_iff.mp hD
    obtain ⟨rs', h1, h2⟩ := rules_comments (us := []) (eof := eof) (fit_next hf).1 he .nil
    exact ⟨rs', [], by simpa [flat_nil] using h1, by rw [h2]; rfl, rfl⟩
  | @comments gs us rs ds es h1 h2 =>
    intro P D ge hD hf
    obtain ⟨g, gs, rfl⟩ := List.exists_cons_of_ne_nil h1
    exact absurd (h2 g (by simp)) (bare_code hf.left g (by rw [hD]; simp))
  | @declare n a ts us vs x k cs rs ds es hn ha hx hb hr ih =>
    intro P D ge hD hf hs
    obtain ⟨g1, E, rfl, hE⟩ := bare_cons hD
    obtain ⟨ga, E, rfl, hE2⟩ := bare_cons hE
    obtain ⟨D1, D2, rfl, h1, h2⟩ := bare_split hE2
    have hus : ∀ t ∈ us, t.tok ≠ .COMMENT := fun t ht => bare_code hf.left t (by rw [hD]; simp [ht])
    obtain ⟨rfl, rfl⟩ := none_behind hb hus
    have hga : ga = [] := by
      by_contra hg
      exact (hf.pairs [] g1 n ga a (D1 ++ D2 ++ [(ge, eof)]) (by simp) hg).assign (by rw [ha]; decide)
    subst hga
    obtain ⟨x', T, U, V, k, D', ge', P', j1, j2, j3, j4, j5, j6, j7, j8⟩ := insert_behind (P := P ++ [n, a]) hx h1 h2
      (FitIn.right (D := [(g1, n), ([], a)]) (by simpa using hf)) (Sep.right (D := [(g1, n), ([], a)]) (by simpa using hs)) (rules_start_name hr hus)
    obtain ⟨rules', ds', i1, i2, i3⟩ := ih P' D' ge' j6 j7 j8
    subst j5
    obtain ⟨rs', l1, l2⟩ := rules_comments (hf.comments (g1, n) (by simp)) (show (firstTok (n :: a :: T ++ U) eof).tok ≠ .COMMENT by
      show n.tok ≠ _
      rw [hn]; decide) (Rules.declare hn ha j2 j4 i1)
    refine ⟨rs', (n.lit, x') :: ds', ?_, ?_, ?_⟩
    · have : flat ((g1, n) :: ([], a) :: (D1 ++ D2)) ++ ge = g1 ++ (n :: a :: T ++ U) := by
        rw [flat_cons, flat_cons]
        simp only [List.nil_append, List.append_assoc, List.cons_append]
        rw [← j1]
      rw [this]
      exact l1
    · rw [l2, ← i2, ← j3]; rfl
    · rw [List.map_cons, i3, j3]
  | @extend n a ts us vs x k cs rs ds es hn ha hx hb hr ih =>
    intro P D ge hD hf hs
    obtain ⟨g1, E, rfl, hE⟩ := bare_cons hD
    obtain ⟨ga, E, rfl, hE2⟩ := bare_cons hE
    obtain ⟨D1, D2, rfl, h1, h2⟩ := bare_split hE2
    have hus : ∀ t ∈ us, t.tok ≠ .COMMENT := fun t ht => bare_code hf.left t (by rw [hD]; simp [ht])
    obtain ⟨rfl, rfl⟩ := none_behind hb hus
    have hga : ga = [] := by
      by_contra hg
      exact (hf.pairs [] g1 n ga a (D1 ++ D2 ++ [(ge, eof)]) (by simp) hg).assign (by rcases ha with ha | ha <;> rw [ha] <;> decide)
    subst hga
    obtain ⟨x', T, U, V, k, D', ge', P', j1, j2, j3, j4, j5, j6, j7, j8⟩ := insert_behind (P := P ++ [n, a]) hx h1 h2
      (FitIn.right (D := [(g1, n), ([], a)]) (by simpa using hf)) (Sep.right (D := [(g1, n), ([], a)]) (by simpa using hs)) (rules_start_name hr hus)
    obtain ⟨rules', ds', i1, i2, i3⟩ := ih P' D' ge' j6 j7 j8
    subst j5
    obtain ⟨rs', l1, l2⟩ := rules_comments (hf.comments (g1, n) (by simp)) (show (firstTok (n :: a :: T ++ U) eof).tok ≠ .COMMENT by
      show n.tok ≠ _
      rw [hn]; decide) (Rules.extend hn ha j2 j4 i1)
    refine ⟨rs', ds', ?_, ?_, i3⟩
    · have : flat ((g1, n) :: ([], a) :: (D1 ++ D2)) ++ ge = g1 ++ (n :: a :: T ++ U) := by
        rw [flat_cons, flat_cons]
        simp only [List.nil_append, List.append_assoc, List.cons_append]
        rw [← j1]
      rw [this]
      exact l1
    · rw [l2, ← i2, ← j3]; rfl

/-! ### From token sequences -/

/-- The tokens with the comments in front of them, and the comments at the end. -/
def deco : List Token → Deco × List Token
  | [] => ([], [])
  | t :: ts =>
    if t.tok = .COMMENT then
      match deco ts with
      | ([], ge) => ([], t :: ge)
      | ((g, u) :: D, ge) => ((t :: g, u) :: D, ge)
    else (([], t) :: (deco ts).1, (deco ts).2)

theorem deco_flat (ts : List Token) : flat (deco ts).1 ++ (deco ts).2 = ts := by
  induction ts with
  | nil => rfl
  | cons t ts ih =>
    unfold deco
    split
    · split <;> rename_i h <;> rw [h] at ih <;> simp_all [flat_cons, flat_nil]
    · simp [flat_cons, ih]

theorem deco_bare (ts : List Token) : bare (deco ts).1 = code ts := by
  induction ts with
  | nil => rfl
  | cons t ts ih =>
    unfold deco
    split
    · rename_i ht
      rw [code_comment ht]
      split <;> rename_i h <;> rw [h] at ih <;> exact ih
    · rename_i ht
      rw [code_cons ht, ← ih]
      rfl

theorem deco_comments (ts : List Token) : (∀ d ∈ (deco ts).1, (∀ g ∈ d.1, g.tok = .COMMENT) ∧ d.2.tok ≠ .COMMENT) ∧
    ∀ g ∈ (deco ts).2, g.tok = .COMMENT := by
  induction ts with
  | nil => exact ⟨nofun, nofun⟩
  | cons t ts ih =>
    unfold deco
    split
    · rename_i ht
      split
      · rename_i h
        rw [h] at ih
        refine ⟨nofun, fun g hg => ?_⟩
        rcases List.mem_cons.mp hg with rfl | hg
        · exact ht
        · exact ih.2 g hg
      · rename_i h
        rw [h] at ih
        refine ⟨fun d hd => ?_, ih.2⟩
        rcases List.mem_cons.mp hd with rfl | hd
        · refine ⟨fun g hg => ?_, (ih.1 _ (List.mem_cons_self ..)).2⟩
          rcases List.mem_cons.mp hg with rfl | hg
          · exact ht
          · exact (ih.1 _ (List.mem_cons_self ..)).1 g hg
        · exact ih.1 d (List.mem_cons_of_mem _ hd)
    · rename_i ht
      refine ⟨fun d hd => ?_, ih.2⟩
      rcases List.mem_cons.mp hd with rfl | hd
      · exact ⟨nofun, ht⟩
      · exact ih.1 d hd

end Cddlc
