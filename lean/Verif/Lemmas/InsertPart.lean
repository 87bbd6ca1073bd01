import Verif.Lemmas.Insert
import Verif.Lemmas.Language

/-! Comments can be put into the parts of a file: the induction. -/

namespace Cddlc
open Spec

/-- What a part becomes with the comments. -/
def Grows (P : List Token) (D : Deco) (gn : List Token) (nx : Token) : Part → List Check → Prop
  | .operand x, cs => ∃ x', noNotes x' = x ∧ Lang (.operand x') (trimmed D) (firstTok gn nx) cs
  | .entry x, cs => ∃ x' k rest, gn = k ++ rest ∧ (k = [] ∨ ∃ g, k = [g]) ∧ noNotes x' = x ∧
      Lang (.entry x') (trimmed D ++ k) (firstTok rest nx) cs ∧
      ∀ g gs, gn = g :: gs → Trails (bare D) g → EndsField (bare D) → k = [g]
  | .entries xs, cs => nx.tok ∈ rightBrackets → Shut P → (D = [] → gn = []) →
      ∃ xs', noNotesL xs' = xs ∧ Lang (.entries xs') (flat D ++ gn) nx cs

theorem firstTok_cases {gn : List Token} {nx : Token} (h : ∀ g ∈ gn, g.tok = .COMMENT) :
    gn = [] ∧ firstTok gn nx = nx ∨ gn ≠ [] ∧ (firstTok gn nx).tok = .COMMENT := by
  cases gn with
  | nil => exact .inl ⟨rfl, rfl⟩
  | cons g gn => exact .inr ⟨by simp, h g (by simp)⟩

section
variable {P : List Token} {D : Deco} {gn : List Token} {nx : Token}

theorem fit_next (h : FitIn P (D ++ [(gn, nx)])) : (∀ g ∈ gn, g.tok = .COMMENT) ∧ nx.tok ≠ .COMMENT :=
  ⟨h.comments (gn, nx) (by simp), h.code (gn, nx) (by simp)⟩

theorem fit_last (h : FitIn P (D ++ [(gn, nx)])) {l} (hl : (bare D).getLast? = some l) (hg : gn ≠ []) :
    ∃ pre, Placed pre l gn nx ∧ P ++ bare D = pre ++ [l] := by
  rcases List.eq_nil_or_concat D with rfl | ⟨D, d, rfl⟩
  · cases hl
  · rw [List.concat_eq_append] at *
    obtain ⟨gd, d⟩ := d
    rw [bare_append] at hl
    obtain rfl : d = l := by simpa [bare] using hl
    exact ⟨P ++ bare D, h.pairs D gd d gn nx [] (by simp) hg, by simp [bare_append, bare]⟩

/-- In front of an operator there are no comments. -/
theorem operand_next {x ts cs} (hx : Lang (.operand x) ts nx cs) (hD : bare D = ts) (h : FitIn P (D ++ [(gn, nx)]))
    (hn : nx.tok ∈ infixes ∨ nx.tok = .COMMA) : gn = [] := by
  by_contra hg
  obtain ⟨l, h1, h2, -⟩ := lang_lastOk hx (hD ▸ bare_code h.left)
  obtain ⟨pre, hp, -⟩ := fit_last h (hD ▸ h1) hg
  rcases hn with hn | hn
  · exact h2 (hp.op hn).2.1
  · exact hp.comma hn

theorem number_of {ns a b} (h : TagNums ns a b) : ns = [] ∨ ∃ t, ns = [t] ∧ IsNumber t ∧ (t.tok = .INT ∨ t.tok = .FLOAT) := by
  cases h with
  | none => exact .inl rfl
  | @major t v h1 h2 =>
    refine .inr ⟨t, rfl, .inl ⟨h1, fun e => ?_⟩, .inl h1⟩
    rw [e, show parseUint b!"int" = .error .syntax from rfl] at h2
    cases h2
  | @both t a b v w h1 h2 h3 h4 =>
    refine .inr ⟨t, rfl, .inr ⟨h1, fun e => ?_⟩, .inr h1⟩
    rw [e, show splitDots b!"float" = [b!"float"] from by decide +kernel] at h2
    cases h2

/-- Between the parts of a tag there are no comments. -/
theorem tag_flat {g h Dn E ns a b} (hf : FitIn P ((g, h) :: Dn ++ E)) (hh : h.tok = .HASH) (hn : TagNums ns a b) (hb : bare Dn = ns) :
    flat Dn = ns := by
  rcases number_of hn with rfl | ⟨t, rfl, -, ht⟩
  · obtain rfl : Dn = [] := List.map_eq_nil_iff.mp hb
    rfl
  · obtain ⟨gt, rfl⟩ := bare_one hb
    have : gt = [] := by
      by_contra hg
      have := (hf.pairs [] g h gt t E rfl hg).tag hh
      rcases ht with ht | ht
      · exact this.1 ht
      · exact this.2 ht
    subst this
    rfl

/-- ... nor in front of the bracket behind it. -/
theorem tag_item {g h Dn go o E ns a b} (hf : FitIn P ((g, h) :: Dn ++ (go, o) :: E)) (hh : h.tok = .HASH) (hn : TagNums ns a b)
    (hb : bare Dn = ns) (ho : o.tok = .LPAREN) : go = [] := by
  by_contra hg
  rcases number_of hn with rfl | ⟨t, rfl, hi, ht⟩
  · obtain rfl : Dn = [] := List.map_eq_nil_iff.mp hb
    exact ((hf.pairs [] g h go o E rfl hg).item ho).1 hh
  · obtain ⟨gt, rfl⟩ := bare_one hb
    exact ((hf.pairs [(g, h)] gt t go o E rfl hg).item ho).2 hi

/-- The first token behind another one. -/
theorem first_grown {A gm m gf f E} (hf : FitIn P (A ++ (gm, m) :: (gf, f) :: E)) :
    ∃ f' vs, flat ((gf, f) :: E) = f' :: vs ∧ Grown m f f' := by
  cases gf with
  | nil => exact ⟨f, _, rfl, .inl rfl⟩
  | cons c gf =>
    have hp := hf.pairs A gm m (c :: gf) f E rfl (by simp)
    exact ⟨c, _, by rw [flat_cons]; rfl, .inr ⟨hf.comments (c :: gf, f) (by simp) c (by simp), hp.regexp, hp.upper⟩⟩

/-- The comments in front of an entry can be passed over. -/
theorem grown_entry {x k nx' cs} (hD : D ≠ []) (hf : FitIn P D) (h : Lang (.entry x) (trimmed D ++ k) nx' cs) : Lang (.entry x) (flat D ++ k) nx' cs := by
  cases D with
  | nil => exact absurd rfl hD
  | cons d D =>
    obtain ⟨g, t⟩ := d
    rw [flat_trimmed, List.append_assoc]
    exact PState.skips h g (hf.comments (g, t) (by simp))

/-- In front of a closing bracket. -/
theorem closing_entry {x ts cs} (hx : Lang (.entry x) ts nx cs) (hD : bare D = ts) (hf : FitIn P (D ++ [(gn, nx)])) (hP : Shut P)
    (hn : nx.tok ∈ rightBrackets) (h : Grows P D gn nx (.entry x) cs) : ∃ x', noNotes x' = x ∧ Lang (.entry x') (flat D ++ gn) nx cs := by
  obtain ⟨x', k, rest, h1, -, h3, h4, h5⟩ := h
  have hc := hD ▸ bare_code hf.left
  obtain ⟨l, hl, -⟩ := lang_lastOk hx hc
  have hDn : D ≠ [] := by
    rintro rfl
    subst hD
    cases hl
  refine ⟨x', h3, ?_⟩
  have key : rest = [] ∧ k = gn := by
    by_cases hg : gn = []
    · rw [hg] at h1
      obtain ⟨rfl, rfl⟩ := List.append_eq_nil_iff.mp h1.symm
      exact ⟨rfl, hg.symm⟩
    · obtain ⟨pre, hp, e⟩ := fit_last hf (hD ▸ hl) hg
      obtain ⟨g, k1, k2, k3⟩ := hp.closing hn
      rw [← e, hD] at k3
      have := h5 g [] k1 ⟨(fit_next hf).1 g (by simp [k1]), l, hD ▸ hl, k2⟩ (hD ▸ ends_entry hP hx hc k3)
      rw [this, k1] at h1
      exact ⟨by simpa using h1.symm, this.trans k1.symm⟩
  obtain ⟨rfl, rfl⟩ := key
  exact grown_entry hDn hf.left h4

end

theorem notes_listable {xs xs' : List Node} (h : noNotesL xs' = xs) : noNotesL (xs'.filter (listable ·.kind)) = xs.filter (listable ·.kind) := by
  rw [noNotesL_filter, h]

/-- A left bracket is not the end of a field. -/
theorem open_ends {P : List Token} {o : Token} (ho : o.tok ∈ leftBrackets) : ¬ EndsField (P ++ [o]) := by
  rintro ⟨A, op, us, c, e, hop, hv, hc⟩
  obtain ⟨⟨k1, k2⟩, -, k4⟩ := value_level hv
  rcases hc with rfl | ⟨d, rfl, hd⟩
  · rcases List.eq_nil_or_concat us with rfl | ⟨V, v, rfl⟩
    · exact k4 rfl
    · rw [List.concat_eq_append] at *
      have e' : P ++ [o] = (A ++ op :: V) ++ [v] := by rw [e]; simp
      obtain ⟨-, e'⟩ := List.append_inj' e' rfl
      obtain rfl : o = v := by simpa using e'
      have := k2 V [o] rfl
      rw [rise_append, rise_left ho] at k1
      omega
  · obtain ⟨-, e⟩ := List.append_inj' e rfl
    obtain rfl : o = d := by simpa using e
    rw [hd] at ho
    revert ho
    decide

theorem entries_none {xs ts nx cs} (h : Lang (.entries xs) ts nx cs) (ht : ts = []) : xs = [] ∧ cs = [] := by
  cases h with
  | nil => exact ⟨rfl, rfl⟩
  | cons h _ =>
    obtain ⟨rfl, -⟩ := List.append_eq_nil_iff.mp ht
    obtain ⟨gs, t, us, h', -⟩ := lang_head h _ rfl
    cases gs <;> cases h'

theorem insert {part ts nx cs} (h : Lang part ts nx cs) : ∀ P D gn, bare D = ts → FitIn P (D ++ [(gn, nx)]) → Grows P D gn nx part cs := by
  -- lists in brackets
  have list : ∀ {o c : Token} {ts xs cs}, o.tok ∈ leftBrackets → c.tok ∈ rightBrackets →
      (∀ P D gn, bare D = ts → FitIn P (D ++ [(gn, c)]) → Grows P D gn c (.entries xs) cs) →
      ∀ P D gn nx, bare D = o :: ts ++ [c] → FitIn P (D ++ [(gn, nx)]) →
      ∃ us xs', trimmed D = o :: us ++ [c] ∧ noNotesL xs' = xs ∧ Lang (.entries xs') us c cs := by
    intro o c ts xs cs ho hc ih P D gn nx hD hf
    obtain ⟨g, E, rfl, hE⟩ := bare_cons (by rw [hD]; rfl)
    obtain ⟨Dt, Dc, rfl, h1, h2⟩ := bare_split hE
    obtain ⟨gc, rfl⟩ := bare_one h2
    have hf1 : FitIn (P ++ [o]) (Dt ++ [(gc, c)]) := FitIn.right (D := [(g, o)]) (FitIn.left (E := [(gn, nx)]) (by simpa using hf))
    obtain ⟨xs', k1, k2⟩ := ih (P ++ [o]) Dt gc h1 hf1 hc (shut_open ho) (by
      rintro rfl
      by_contra hg
      obtain ⟨g', -, -, he⟩ := (hf.pairs [] g o gc c [(gn, nx)] (by simp) hg).closing hc
      exact open_ends ho he)
    exact ⟨_, xs', by simp [trimmed, flat_append, flat_cons, flat_nil], k1, k2⟩
  induction h with
  | @name t nx ht =>
    intro P D gn hD hf
    obtain ⟨g, rfl⟩ := bare_one hD
    refine ⟨.ident ⟨t.pos, t.lit⟩, rfl, ?_⟩
    have hcol : ((firstTok gn nx).tok = .COLON) = (nx.tok = .COLON) := by
      rcases firstTok_cases (nx := nx) (fit_next hf).1 with ⟨-, h⟩ | ⟨h1, h2⟩
      · rw [h]
      · obtain ⟨pre, hp, -⟩ := fit_last hf (l := t) (by simp [bare]) h1
        have : nx.tok ≠ .COLON := by
          intro h
          have := (hp.op (by rw [h]; decide)).1
          rw [h] at this
          simp at this
        simp [h2, this]
    have := Lang.name (t := t) (nx := firstTok gn nx) ht
    simp only [hcol] at this
    exact this
  | @single t x nx hs =>
    intro P D gn hD hf
    obtain ⟨g, rfl⟩ := bare_one hD
    exact ⟨x, single_notes hs, .single hs⟩
  | group ho hc _ ih =>
    intro P D gn hD hf
    obtain ⟨us, xs', k1, k2, k3⟩ := list (by rw [ho]; decide) (by rw [hc]; decide) ih P D gn _ hD hf
    refine ⟨.group _ (xs'.filter (listable ·.kind)), by simp only [noNotes]; rw [notes_listable k2], ?_⟩
    rw [k1]
    exact .group ho hc k3
  | array ho hc _ ih =>
    intro P D gn hD hf
    obtain ⟨us, xs', k1, k2, k3⟩ := list (by rw [ho]; decide) (by rw [hc]; decide) ih P D gn _ hD hf
    refine ⟨.array _ (xs'.filter (listable ·.kind)), by simp only [noNotes]; rw [notes_listable k2], ?_⟩
    rw [k1]
    exact .array ho hc k3
  | map ho hc _ ih =>
    intro P D gn hD hf
    obtain ⟨us, xs', k1, k2, k3⟩ := list (by rw [ho]; decide) (by rw [hc]; decide) ih P D gn _ hD hf
    refine ⟨.map _ xs', by simp only [noNotes]; rw [k2], ?_⟩
    rw [k1]
    exact .map ho hc k3
  | @tag hd ns a b nx hh hn h1 h2 =>
    intro P D gn hD hf
    obtain ⟨g, Dn, rfl, hb⟩ := bare_cons hD
    refine ⟨.tag hd.pos hd.tok a b .nil, rfl, ?_⟩
    rw [trimmed, tag_flat hf hh hn hb]
    rcases firstTok_cases (nx := nx) (fit_next hf).1 with ⟨-, h⟩ | ⟨-, h⟩
    · rw [h]
      exact .tag hh hn h1 h2
    · exact .tag hh hn (by rw [h]; decide) (fun _ => by rw [h]; decide)
  | @tagged hd ns a b o c ts x cs nx hh hn ho hc hx ih =>
    intro P D gn hD hf
    rw [List.append_assoc] at hD
    obtain ⟨g, E, rfl, hE⟩ := bare_cons (by rw [hD]; rfl)
    obtain ⟨Dn, E, rfl, hb, hE2⟩ := bare_split hE
    obtain ⟨go, E, rfl, hE3⟩ := bare_cons (by rw [hE2]; rfl)
    obtain ⟨Dt, Dc, rfl, h1, h2⟩ := bare_split hE3
    obtain ⟨gc, rfl⟩ := bare_one h2
    have hgo : go = [] := tag_item (E := Dt ++ [(gc, c)] ++ [(gn, nx)]) (by simpa using hf) hh hn hb ho
    have hfn := tag_flat (E := (go, o) :: Dt ++ [(gc, c)] ++ [(gn, nx)]) (by simpa using hf) hh hn hb
    subst hgo
    have hf1 : FitIn (P ++ bare ((g, hd) :: Dn ++ [([], o)])) (Dt ++ [(gc, c)]) :=
      FitIn.right (D := (g, hd) :: Dn ++ [([], o)]) (FitIn.left (E := [(gn, nx)]) (by simpa using hf))
    have hP : Shut (P ++ bare ((g, hd) :: Dn ++ [([], o)])) := by
      rw [bare_append, ← List.append_assoc]
      exact shut_open (by rw [ho]; decide)
    obtain ⟨x', k1, k2⟩ := closing_entry hx h1 hf1 hP (by rw [hc]; decide) (ih _ Dt gc h1 hf1)
    refine ⟨.tag hd.pos hd.tok a b x', by simp only [noNotes]; rw [k1], ?_⟩
    have : trimmed ((g, hd) :: (Dn ++ ([], o) :: (Dt ++ [(gc, c)]))) = hd :: ns ++ o :: (flat Dt ++ gc) ++ [c] := by
      simp [trimmed, flat_append, flat_cons, flat_nil, hfn]
    rw [this]
    exact .tagged hh hn ho hc k2
  | @noRange op ts a cs nx ho hx hk ih =>
    intro P D gn hD hf
    obtain ⟨D1, D2, rfl, h1, h2⟩ := bare_split hD
    obtain ⟨go, rfl⟩ := bare_one h2
    have hf1 := hf.left
    obtain rfl := operand_next hx h1 hf1 (.inl (bound_infix ho).1)
    obtain ⟨a', k1, k2⟩ := ih P D1 [] h1 hf1
    refine ⟨.range {} .ILLEGAL .nil .nil, rfl, ?_⟩
    have hne : D1 ≠ [] := by
      rintro rfl
      obtain ⟨t, us, h, -⟩ := lang_first hx _ rfl
      rw [h] at h1
      cases h1
    rw [trimmed_append hne]
    exact .noRange ho k2 (by rw [← k1, noNotes_kind] at hk; exact hk)
  | @noted op f ts us a b c r i v cs ds es nx _ _ _ ht =>
    intro P D gn hD hf
    exact absurd ht.1 (bare_code hf.left c (by rw [hD]; simp))
  | @only ts x cs nx hx hi hcm ih =>
    intro P D gn hD hf
    obtain ⟨x', k1, k2⟩ := ih P D gn hD hf
    have hc := hD ▸ bare_code hf.left
    refine ⟨x', [], gn, rfl, .inl rfl, k1, ?_, ?_⟩
    · rw [List.append_nil]
      rcases firstTok_cases (nx := nx) (fit_next hf).1 with ⟨-, h⟩ | ⟨-, h⟩
      · rw [h] at k2 ⊢
        exact .only k2 hi hcm
      · exact .only k2 (by rw [h]; decide) (by rw [h]; decide)
    · rintro g gs - - ⟨A, op, us, c, e, hop, hv, hcc⟩
      rw [hD] at e
      rcases hcc with rfl | ⟨d, rfl, hd⟩
      · exact (operand_ends (vs := []) hx hc (by simpa using e) hop (by simpa using hv)).elim
      · obtain ⟨l, h1, h2, -⟩ := lang_lastOk hx hc
        rw [e, List.getLast?_concat] at h1
        cases h1
        rw [hd] at h2
        exact absurd (by decide) h2
  | @comma ts c x cs nx hcm hx ih =>
    intro P D gn hD hf
    obtain ⟨D1, D2, rfl, h1, h2⟩ := bare_split hD
    obtain ⟨go, rfl⟩ := bare_one h2
    have hf1 := hf.left
    obtain rfl := operand_next hx h1 hf1 (.inr hcm)
    obtain ⟨a', k1, k2⟩ := ih P D1 [] h1 hf1
    have hc := h1 ▸ bare_code hf1.left
    have hne : D1 ≠ [] := by
      rintro rfl
      obtain ⟨t, us, h, -⟩ := lang_first hx _ rfl
      rw [h] at h1
      cases h1
    refine ⟨a', [], gn, rfl, .inl rfl, k1, ?_, ?_⟩
    · rw [trimmed_append hne, List.append_nil]
      exact .comma hcm k2
    · rintro g gs - - ⟨A, op, us, d, e, hop, hv, hcc⟩
      rw [hD] at e
      rcases hcc with rfl | ⟨d, rfl, hd⟩
      · rw [List.append_nil] at e
        obtain ⟨X, j1, rfl⟩ := split_last e fun h => by
          rw [h] at hcm
          rw [hcm] at hop
          simp at hop
        exact (operand_ends hx hc j1 hop hv).elim
      · obtain ⟨e, -⟩ := List.append_inj' e rfl
        exact (operand_ends (vs := []) hx hc e hop (by simpa using hv)).elim
  | @marked m f ts x y cs nx hm hx ih =>
    intro P D gn hD hf
    obtain ⟨g, E, rfl, hE⟩ := bare_cons hD
    obtain ⟨gf, E, rfl, hE'⟩ := bare_cons hE
    obtain ⟨f', vs, j1, j2⟩ := first_grown (A := []) (gm := g) (E := E ++ [(gn, nx)]) (by simpa using hf)
    have hf1 : FitIn (P ++ [m]) ((gf, f) :: E ++ [(gn, nx)]) := FitIn.right (D := [(g, m)]) (by simpa using hf)
    obtain ⟨x', k, rest, k1, k2, k3, k4, k5⟩ := ih _ _ gn hE hf1
    rw [← k3] at hm
    obtain ⟨y', i1, i2⟩ := marked_grown hm j2
    have hk := grown_entry (by simp) hf1.left k4
    obtain ⟨ws, hws⟩ : ∃ ws, flat ((gf, f) :: E) = f' :: ws := by
      rw [flat_cons] at j1 ⊢
      cases gf with
      | nil => exact ⟨_, by simp only [List.nil_append, List.cons.injEq] at j1 ⊢; exact ⟨j1.1, rfl⟩⟩
      | cons c gf => exact ⟨_, by simp only [List.cons_append, List.cons.injEq] at j1 ⊢; exact ⟨j1.1, rfl⟩⟩
    refine ⟨y', k, rest, k1, k2, i2, ?_, ?_⟩
    · rw [trimmed, hws]
      rw [hws] at hk
      exact .marked i1 hk
    · rintro g' gs e1 e2 ⟨A, op, us, c, e, hop, hv, hcc⟩
      refine k5 g' gs e1 ⟨e2.1, ?_⟩ ?_
      · obtain ⟨l, e3, e4⟩ := e2.2
        refine ⟨l, ?_, e4⟩
        rw [hD, List.getLast?_cons_cons] at e3
        rw [hE]; exact e3
      · rw [hD] at e
        rw [hE]
        cases A with
        | nil =>
          simp only [List.nil_append, List.cons_append, List.cons.injEq] at e
          exact absurd (e.1 ▸ hop) (marked_free i1).2.2
        | cons a A =>
          simp only [List.cons_append, List.cons.injEq] at e
          exact ⟨A, op, us, c, by rw [e.2], hop, hv, hcc⟩
  | @unclosed hd ns a b o ts x cs nx hh hn ho hr hx ih =>
    intro P D gn hD hf
    obtain ⟨g, E, rfl, hE⟩ := bare_cons (by rw [hD]; rfl)
    obtain ⟨Dn, E, rfl, hb, hE2⟩ := bare_split hE
    obtain ⟨go, Dt, rfl, h1⟩ := bare_cons hE2
    have hgo : go = [] := tag_item (E := Dt ++ [(gn, nx)]) (by simpa using hf) hh hn hb ho
    have hfn := tag_flat (E := (go, o) :: Dt ++ [(gn, nx)]) (by simpa using hf) hh hn hb
    subst hgo
    have hf1 : FitIn (P ++ bare ((g, hd) :: Dn ++ [([], o)])) (Dt ++ [(gn, nx)]) :=
      FitIn.right (D := (g, hd) :: Dn ++ [([], o)]) (by simpa using hf)
    obtain ⟨x', k, rest, k1, k2, k3, k4, k5⟩ := ih _ Dt gn h1 hf1
    have hne : Dt ≠ [] := by
      rintro rfl
      obtain ⟨w, W, h, -⟩ := lang_head_ok hx (h1 ▸ bare_code hf1.left)
      rw [h] at h1
      cases h1
    have hk := grown_entry hne hf1.left k4
    refine ⟨.tag hd.pos hd.tok a b x', k, rest, k1, k2, by simp only [noNotes]; rw [k3], ?_, ?_⟩
    · have : trimmed ((g, hd) :: (Dn ++ ([], o) :: Dt)) ++ k = hd :: ns ++ o :: (flat Dt ++ k) := by
        simp [trimmed, flat_append, flat_cons, hfn]
      rw [this]
      refine .unclosed hh hn ho ?_ hk
      rcases firstTok_cases (gn := rest) (nx := nx) (fun g hg => (fit_next hf).1 g (by rw [k1]; simp [hg])) with ⟨-, h⟩ | ⟨-, h⟩
      · rw [h]; exact hr
      · rw [h]; decide
    · rintro g' gs e1 e2 ⟨A, op, us, c, e, hop, hv, hcc⟩
      rw [hD] at e
      refine k5 g' gs e1 ⟨e2.1, ?_⟩ ?_
      · obtain ⟨l, e3, e4⟩ := e2.2
        refine ⟨l, ?_, e4⟩
        rw [hD] at e3
        rw [h1]
        obtain ⟨w, W, rfl, -⟩ := lang_head_ok hx (h1 ▸ bare_code hf1.left)
        rwa [last_append, List.getLast?_cons_cons] at e3
      · rw [h1]
        have e' : (hd :: ns ++ [o]) ++ ts = A ++ op :: (us ++ c) := by
          rw [show A ++ op :: us ++ c = A ++ op :: (us ++ c) by simp] at e
          rw [← e]; simp
        rcases split_two e' with ⟨X, j1, -⟩ | ⟨A', j1⟩
        · have hm : op ∈ hd :: ns ++ [o] := by rw [j1]; simp
          exfalso
          simp only [List.mem_append, List.mem_cons, List.not_mem_nil, or_false] at hm
          rcases hm with (rfl | hm) | rfl
          · rw [hh] at hop; simp at hop
          · exact (nums_free hn op hm).2.2 hop
          · rw [ho] at hop; simp at hop
        · exact ⟨A', op, us, c, by rw [j1]; simp, hop, hv, hcc⟩
  | @joined op f ts us a b y cs ds es nx hx hb hj hq ih1 ih2 =>
    intro P D gn hD hf
    obtain ⟨D1, E, rfl, h1, hE⟩ := bare_split hD
    obtain ⟨go, E, rfl, hE'⟩ := bare_cons hE
    obtain ⟨gf, E, rfl, hE''⟩ := bare_cons hE'
    have hop := joined_infix hj
    have hfa : FitIn P (D1 ++ [(go, op)]) := FitIn.left (E := (gf, f) :: E ++ [(gn, nx)]) (by simpa using hf)
    obtain rfl := operand_next hx h1 hfa (.inl hop)
    obtain ⟨a', a1, a2⟩ := ih1 P D1 [] h1 hfa
    have hf1 : FitIn (P ++ bare (D1 ++ [([], op)])) ((gf, f) :: E ++ [(gn, nx)]) := FitIn.right (D := D1 ++ [([], op)]) (by simpa using hf)
    obtain ⟨b', k, rest, k1, k2, k3, k4, k5⟩ := ih2 _ _ gn hE' hf1
    obtain ⟨f', vs, j1, j2⟩ := first_grown (P := P) (A := D1) (gm := []) (m := op) (E := E ++ [(gn, nx)]) (by simpa using hf)
    rw [← a1, ← k3] at hj
    obtain ⟨y', i1, i2, i3⟩ := joined_grown hj j2
    have hk := grown_entry (by simp) hf1.left k4
    obtain ⟨ws, hws⟩ : ∃ ws, flat ((gf, f) :: E) = f' :: ws := by
      rw [flat_cons] at j1 ⊢
      cases gf with
      | nil => exact ⟨_, by simp only [List.nil_append, List.cons.injEq] at j1 ⊢; exact ⟨j1.1, rfl⟩⟩
      | cons c gf => exact ⟨_, by simp only [List.cons_append, List.cons.injEq] at j1 ⊢; exact ⟨j1.1, rfl⟩⟩
    have hne : D1 ≠ [] := by
      rintro rfl
      obtain ⟨t, us, h, -⟩ := lang_first hx _ rfl
      rw [h] at h1
      cases h1
    have htr : trimmed (D1 ++ ([], op) :: (gf, f) :: E) = trimmed D1 ++ op :: f' :: ws := by
      rw [trimmed_append hne, flat_cons, hws]; rfl
    have hlast : (bare (D1 ++ ([], op) :: (gf, f) :: E)).getLast? = (bare ((gf, f) :: E)).getLast? := by
      rw [hD, hE', last_append, List.getLast?_cons_cons]
    have hlast' : (f' :: ws).getLast? = (bare ((gf, f) :: E)).getLast? := by rw [← hws, flat_last]
    -- a field that ends here is on the right
    have ends : EndsField (bare (D1 ++ ([], op) :: (gf, f) :: E)) → IsFieldSign op ∨ EndsField (bare ((gf, f) :: E)) := by
      rintro ⟨A, op', us', c, e, hop', hv, hcc⟩
      rw [hD, show A ++ op' :: us' ++ c = A ++ op' :: (us' ++ c) by simp] at e
      rcases split_mid e with ⟨X, l1, l2⟩ | ⟨-, rfl, -⟩ | ⟨A', l1, -⟩
      · exfalso
        have hc := h1 ▸ bare_code hfa.left
        rcases hcc with rfl | ⟨d, rfl, hd⟩
        · exact operand_ends hx hc l1 hop' (by rw [List.append_nil] at l2; rw [l2] at hv; exact hv)
        · rcases List.eq_nil_or_concat us with rfl | ⟨us, z, rfl⟩
          · have : us' ++ [d] = (X ++ [op]) ++ [f] := by rw [l2]; simp
            obtain ⟨l3, -⟩ := List.append_inj' this rfl
            exact operand_ends hx hc l1 hop' (by rw [l3] at hv; exact hv)
          · rw [List.concat_eq_append] at l2
            have : us' ++ [d] = (X ++ op :: f :: us) ++ [z] := by rw [l2]; simp
            obtain ⟨l3, -⟩ := List.append_inj' this rfl
            exact operand_ends hx hc l1 hop' (by rw [l3] at hv; exact hv)
      · exact .inl hop'
      · refine .inr ⟨A', op', us', c, ?_, hop', hv, hcc⟩
        rw [hE', l1]; simp
    have hcms := (fit_next hf).1
    -- whether the comment behind the field becomes its own
    by_cases hc : IsFieldSign op ∧ Trails (flat ((gf, f) :: E) ++ k) (firstTok rest nx)
    · obtain ⟨hs, ht⟩ := hc
      obtain ⟨r, i, v, rfl⟩ := i3 hs
      have hrest : ∃ c rest', rest = c :: rest' := by
        cases rest with
        | nil => exact absurd ht.1 (fit_next hf).2
        | cons c rest' => exact ⟨c, rest', rfl⟩
      obtain ⟨c, rest', rfl⟩ := hrest
      have hk0 : k = [] := by
        rcases k2 with rfl | ⟨g0, rfl⟩
        · rfl
        · exfalso
          obtain ⟨l, t1, t2⟩ := ht.2
          rw [List.getLast?_concat] at t1
          cases t1
          exact hf.lines (gn, nx) (by simp) [] g0 c rest' k1 t2
      subst hk0
      rw [List.nil_append] at k1
      rw [List.append_nil, hws] at hk ht
      refine ⟨.entry r i v (some ⟨c.pos, c.lit⟩), [c], rest', k1, .inr ⟨c, rfl⟩, ?_, ?_, ?_⟩
      · rw [← i2]; rfl
      · rw [htr]
        refine .only (.noted a2 hk i1 ht) ?_ ?_
        all_goals
          rcases firstTok_cases (gn := rest') (nx := nx) (fun g hg => hcms g (by rw [k1]; simp [hg])) with ⟨h0, h⟩ | ⟨-, h⟩
          rotate_left
          · rw [h]; decide
        · subst h0
          rw [h]
          intro hi
          obtain ⟨l, t1, t2⟩ := ht.2
          rw [hlast'] at t1
          obtain ⟨pre, hp, -⟩ := fit_last hf (hlast.trans t1) (by rw [k1]; simp)
          obtain ⟨-, p1, p2⟩ := hp.op hi
          obtain ⟨l', q1, q2, -⟩ := lang_lastOk hb (hE' ▸ bare_code hf1.left)
          rw [← hE', t1] at q1
          cases q1
          exact p2 (q2 p1) c (by rw [k1]; simp) t2.symm
        · subst h0
          rw [h]
          intro hi
          obtain ⟨l, t1, t2⟩ := ht.2
          rw [hlast'] at t1
          obtain ⟨pre, hp, -⟩ := fit_last hf (hlast.trans t1) (by rw [k1]; simp)
          exact hp.comma hi
      · intro g gs e1 _ _
        rw [k1] at e1
        cases e1
        rfl
    · refine ⟨y', k, rest, k1, k2, i2, ?_, ?_⟩
      · rw [htr, List.append_assoc, List.cons_append, List.cons_append]
        rw [hws] at hk
        refine .joined a2 hk i1 fun hs => ?_
        intro ht
        exact hc ⟨hs, by rw [hws]; exact ht⟩
      · intro g gs e1 e2 e3
        have ht : Trails (bare ((gf, f) :: E)) g := by
          refine ⟨e2.1, ?_⟩
          rw [← hlast]
          exact e2.2
        rcases ends e3 with hs | he
        · rcases k2 with rfl | ⟨g0, rfl⟩
          · exfalso
            rw [List.nil_append] at k1
            refine hc ⟨hs, ?_⟩
            rw [List.append_nil, ← k1, e1]
            refine ⟨ht.1, ?_⟩
            rw [flat_last]
            exact ht.2
          · rw [e1] at k1
            cases k1
            rfl
        · exact k5 g gs e1 ht he
  | @skip c ts x cs nx hc =>
    intro P D gn hD hf
    exact absurd hc (bare_code hf.left c (by rw [hD]; simp))
  | nil =>
    intro P D gn hD hf _ _ h0
    obtain rfl : D = [] := List.map_eq_nil_iff.mp hD
    rw [h0 rfl]
    exact ⟨[], rfl, .nil⟩
  | @cons ts us x xs cs ds nx hx hxs ih1 ih2 =>
    intro P D gn hD hf hn hP _
    obtain ⟨D1, D2, rfl, h1, h2⟩ := bare_split hD
    have hcc : ∀ t ∈ ts, t.tok ≠ .COMMENT := by
      intro t ht
      exact bare_code hf.left t (by rw [hD]; simp [ht])
    have hne : D1 ≠ [] := by
      rintro rfl
      obtain ⟨w, W, h, -⟩ := lang_head_ok hx hcc
      rw [h] at h1
      cases h1
    cases D2 with
    | nil =>
      obtain rfl : us = [] := h2.symm
      obtain ⟨rfl, rfl⟩ := entries_none hxs rfl
      simp only [List.append_nil] at hf ⊢
      obtain ⟨x', k1, k2⟩ := closing_entry hx h1 hf hP hn (ih1 P D1 gn h1 hf)
      refine ⟨[x'], by simp [noNotesL, k1], ?_⟩
      have := Lang.cons (us := []) (nx := nx) k2 .nil
      simpa using this
    | cons d E =>
      obtain ⟨g2, t2⟩ := d
      obtain rfl : us = t2 :: bare E := h2.symm
      have hf1 : FitIn P (D1 ++ [(g2, t2)]) := FitIn.left (E := E ++ [(gn, nx)]) (by simpa using hf)
      obtain ⟨x', k, rest, k1, k2, k3, k4, -⟩ := ih1 P D1 g2 h1 hf1
      have hk := grown_entry hne hf1.left k4
      have hf2 : FitIn (P ++ bare D1) ((rest, t2) :: E ++ [(gn, nx)]) := by
        refine FitIn.first (k := k) ?_
        rw [← k1]
        exact FitIn.right (D := D1) (by simpa using hf)
      obtain ⟨xs', j1, j2⟩ := ih2 _ ((rest, t2) :: E) gn rfl hf2 hn (by rw [h1]; exact shut_entry hP hx hcc) (by simp)
      refine ⟨x' :: xs', by simp [noNotesL, k3, j1], ?_⟩
      have hfl : flat (D1 ++ (g2, t2) :: E) ++ gn = (flat D1 ++ k) ++ (flat ((rest, t2) :: E) ++ gn) := by
        simp [flat_append, flat_cons, k1]
      rw [hfl]
      refine .cons ?_ j2
      have : firstTok (flat ((rest, t2) :: E) ++ gn) nx = firstTok rest t2 := by
        rw [flat_cons]
        cases rest <;> rfl
      rw [this]
      exact hk

end Cddlc
