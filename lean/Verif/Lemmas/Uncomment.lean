import Verif.Lemmas.Listable
import Verif.Lemmas.LangRules
import Verif.Lemmas.RoundFacts
import Verif.Spec.Uncomment

/-! Derivations of Spec/Language.lean without the comments. -/

namespace Cddlc
open Spec

/-! ### Lists of tokens -/

theorem code_nil : code [] = [] := rfl

theorem code_append (ts us : List Token) : code (ts ++ us) = code ts ++ code us := List.filter_append ..

theorem code_cons {t : Token} (h : t.tok ≠ .COMMENT) (ts : List Token) : code (t :: ts) = t :: code ts := by
  simp [code, h]

theorem code_comment {t : Token} (h : t.tok = .COMMENT) (ts : List Token) : code (t :: ts) = code ts := by
  simp [code, h]

theorem code_comments {gs : List Token} (h : ∀ g ∈ gs, g.tok = .COMMENT) : code gs = [] := by
  simp only [code, List.filter_eq_nil_iff, decide_eq_true_eq]
  intro g hg hn
  exact hn (h g hg)

theorem code_mem {ts : List Token} : ∀ t ∈ code ts, t.tok ≠ .COMMENT := by
  intro t ht
  simpa using (List.mem_filter.mp ht).2

/-- What comes first that is no comment. -/
theorem code_first {S : List Token} {r} (h : (code S).head? = some r) :
    ∃ gs B, S = gs ++ r :: B ∧ (∀ g ∈ gs, g.tok = .COMMENT) ∧ r.tok ≠ .COMMENT := by
  induction S with
  | nil => cases h
  | cons a S ih =>
    by_cases ha : a.tok = .COMMENT
    · rw [code_comment ha] at h
      obtain ⟨gs, B, rfl, h1, h2⟩ := ih h
      refine ⟨a :: gs, B, rfl, ?_, h2⟩
      intro g hg
      rcases List.mem_cons.mp hg with rfl | hg
      · exact ha
      · exact h1 g hg
    · rw [code_cons ha] at h
      cases h
      exact ⟨[], S, rfl, nofun, ha⟩

/-- What comes last that is no comment. -/
theorem code_last {ts : List Token} {l} (h : (code ts).getLast? = some l) :
    ∃ us gs, ts = us ++ l :: gs ∧ (∀ g ∈ gs, g.tok = .COMMENT) ∧ l.tok ≠ .COMMENT := by
  rcases List.eq_nil_or_concat ts with rfl | ⟨us, a, rfl⟩
  · cases h
  · rw [List.concat_eq_append] at h ⊢
    by_cases ha : a.tok = .COMMENT
    · rw [code_append, code_comments (gs := [a]) (by simpa using ha), List.append_nil] at h
      obtain ⟨vs, gs, hv, h1, h2⟩ := code_last h
      refine ⟨vs, gs ++ [a], by rw [hv]; simp, ?_, h2⟩
      intro g hg
      rcases List.mem_append.mp hg with hg | hg
      · exact h1 g hg
      · rw [List.mem_singleton.mp hg]; exact ha
    · rw [code_append, code_cons ha] at h
      simp [code_nil] at h
      subst h
      exact ⟨us, [], rfl, nofun, ha⟩
termination_by ts.length
decreasing_by simp_all

variable {W : List Token}

/-- Comments between `l` and `r`. -/
theorem harmless_at (hW : Removable W) {A ts : List Token} {nx : Token} {B l r} (h : W = A ++ ts ++ nx :: B)
    (hl : (code ts).getLast? = some l) (hr : (code (nx :: B)).head? = some r)
    (hc : nx.tok = .COMMENT ∨ ∃ us c, ts = us ++ [c] ∧ c.tok = .COMMENT) : Apart l r := by
  obtain ⟨us, gs, rfl, h1, h2⟩ := code_last hl
  obtain ⟨hs, C, h3, h4, h5⟩ := code_first hr
  refine hW (A ++ us) l (gs ++ hs) r C ?_ ?_ ?_ h2 h5
  · rw [h, h3]; simp
  · intro hn
    obtain ⟨rfl, rfl⟩ := List.append_eq_nil_iff.mp hn
    rcases hc with hc | ⟨vs, c, hv, hc⟩
    · cases h3; exact h5 hc
    · have := (List.append_inj' hv rfl).2
      cases this
      exact h2 hc
  · intro g hg
    rcases List.mem_append.mp hg with hg | hg
    · exact h1 g hg
    · exact h4 g hg

theorem next_code {nx : Token} {B r} (h : (code (nx :: B)).head? = some r) (hn : nx.tok ≠ .COMMENT) : r = nx := by
  rw [code_cons hn] at h
  cases h
  rfl

/-! ### Parentheses -/

def opens (ts : List Token) : Nat := ts.countP (·.tok = .LPAREN)
def closes (ts : List Token) : Nat := ts.countP (·.tok = .RPAREN)

theorem opens_append (ts us : List Token) : opens (ts ++ us) = opens ts + opens us := List.countP_append ..
theorem closes_append (ts us : List Token) : closes (ts ++ us) = closes ts + closes us := List.countP_append ..

theorem opens_cons (t : Token) (ts : List Token) : opens (t :: ts) = (if t.tok = .LPAREN then 1 else 0) + opens ts := by
  unfold opens
  rw [List.countP_cons]
  simp [Nat.add_comm]

theorem closes_cons (t : Token) (ts : List Token) : closes (t :: ts) = (if t.tok = .RPAREN then 1 else 0) + closes ts := by
  unfold closes
  rw [List.countP_cons]
  simp [Nat.add_comm]

theorem opens_nil : opens [] = 0 := rfl
theorem closes_nil : closes [] = 0 := rfl

theorem plain_parens {ts : List Token} (h : ∀ t ∈ ts, t.tok ≠ .LPAREN ∧ t.tok ≠ .RPAREN) : opens ts = 0 ∧ closes ts = 0 := by
  unfold opens closes
  simp only [List.countP_eq_zero, decide_eq_true_eq]
  exact ⟨fun t ht => (h t ht).1, fun t ht => (h t ht).2⟩

theorem comment_parens {gs : List Token} (h : ∀ g ∈ gs, g.tok = .COMMENT) : opens gs = 0 ∧ closes gs = 0 :=
  plain_parens fun g hg => by rw [h g hg]; decide

theorem single_paren {t x} (h : Single t x) : t.tok ≠ .LPAREN ∧ t.tok ≠ .RPAREN := by
  cases h with
  | bool h | true h | false h | literal h | uint h | nint h | bstr h | bytes h => rw [h]; decide
  | text h | null h => rcases h with h | h <;> rw [h] <;> decide
  | float h =>
    rcases h with h | ⟨h, _⟩
    · simp only [List.mem_cons, List.not_mem_nil, or_false] at h
      rcases h with h | h | h <;> rw [h] <;> decide
    · rw [h]; decide
  | fraction h _ _ | int h _ | number h _ _ => rw [h]; decide

theorem nums_paren {ns a b} (h : TagNums ns a b) : ∀ t ∈ ns, t.tok ≠ .LPAREN ∧ t.tok ≠ .RPAREN := by
  cases h with
  | none => nofun
  | major h _ => intro t ht; rw [List.mem_singleton.mp ht, h]; decide
  | both h _ _ _ => intro t ht; rw [List.mem_singleton.mp ht, h]; decide

theorem infix_paren {t : Tok} (h : t ∈ infixes) : t ≠ .LPAREN ∧ t ≠ .RPAREN := by
  revert h; cases t <;> decide

theorem marked_paren {m f x y} (h : Marked m f x y) : m.tok ≠ .LPAREN ∧ m.tok ≠ .RPAREN := by
  cases h with
  | optional h | unwrap h | enumeration h | any h _ | some h _ => rw [h]; decide

/-- No more parentheses are closed than are opened. -/
theorem lang_parens {part ts nx cs} (h : Lang part ts nx cs) : closes ts ≤ opens ts := by
  induction h with
  | name h => simp [opens_cons, closes_cons, opens_nil, closes_nil, h]
  | single h => simp [opens_cons, closes_cons, opens_nil, closes_nil, single_paren h]
  | group h1 h2 _ ih | array h1 h2 _ ih | map h1 h2 _ ih =>
    simp only [List.cons_append, opens_cons, closes_cons, opens_append, closes_append, opens_nil, closes_nil, h1, h2]
    simp; omega
  | tag h1 h2 _ _ =>
    obtain ⟨k1, k2⟩ := plain_parens (nums_paren h2)
    simp [opens_cons, closes_cons, h1, k1, k2]
  | tagged h1 h2 h3 h4 _ ih =>
    obtain ⟨k1, k2⟩ := plain_parens (nums_paren h2)
    simp only [List.cons_append, List.append_assoc, opens_cons, closes_cons, opens_append, closes_append, opens_nil, closes_nil, h1, h3, h4, k1, k2]
    simp; omega
  | noRange h1 _ _ ih =>
    have : ∀ {op : Token}, op.tok = .INCLUSIVE_BOUND ∨ op.tok = .EXCLUSIVE_BOUND → op.tok ≠ .LPAREN ∧ op.tok ≠ .RPAREN := by
      rintro op (h | h) <;> rw [h] <;> decide
    simp only [opens_cons, closes_cons, opens_append, closes_append, opens_nil, closes_nil, this h1, if_false]
    omega
  | noted _ _ hj ht ih1 ih2 =>
    have := infix_paren (joined_infix hj)
    simp only [List.append_assoc, List.cons_append, opens_cons, closes_cons, opens_append, closes_append, opens_nil, closes_nil, this, ht.1, if_false] at ih1 ih2 ⊢
    simp; omega
  | only _ _ _ ih => exact ih
  | comma h _ ih =>
    simp only [opens_cons, closes_cons, opens_append, closes_append, opens_nil, closes_nil, h]
    simp; omega
  | marked h _ ih =>
    have := marked_paren h
    rw [opens_cons, closes_cons, if_neg this.1, if_neg this.2]
    omega
  | unclosed h1 h2 h3 _ _ ih =>
    obtain ⟨k1, k2⟩ := plain_parens (nums_paren h2)
    simp only [List.cons_append, opens_cons, closes_cons, opens_append, closes_append, opens_nil, closes_nil, h1, h3, k1, k2]
    simp; omega
  | joined _ _ hj _ ih1 ih2 =>
    have := infix_paren (joined_infix hj)
    rw [opens_append, closes_append, opens_cons, closes_cons, if_neg this.1, if_neg this.2]
    omega
  | skip h _ ih => simp [opens_cons, closes_cons, h, ih]
  | nil => exact Nat.le_refl _
  | cons _ _ ih1 ih2 => rw [opens_append, closes_append]; omega

/-! ### Trees -/

theorem noNotesL_filter (xs : List Node) :
    noNotesL (xs.filter (listable ·.kind)) = (noNotesL xs).filter (listable ·.kind) := by
  simp only [noNotesL_map, List.filter_map]
  congr 1
  apply List.filter_congr
  intro x _
  simp [noNotes_kind]

theorem single_notes {t x} (h : Single t x) : noNotes x = x := by cases h <;> rfl

theorem keptEnd_notes {a b hi} (h : keptEnd a b = some hi) : keptEnd (noNotes a) (noNotes b) = some (noNotes hi) := by
  cases a with
  | ident i => cases h; rfl
  | intLit p t v => cases b <;> cases h <;> rfl
  | floatLit p t v => cases b <;> cases h <;> rfl
  | _ => cases h

theorem rangeChecks_notes (tok : Tok) (a b : Node) : rangeChecks tok (noNotes a) (noNotes b) = rangeChecks tok a b := by
  cases a with
  | ident i => cases b <;> rfl
  | intLit p t v => cases b <;> rfl
  | floatLit p t v => cases b <;> rfl
  | _ => rfl

/-- The first tokens behind `*` and `+`. -/
def SameFirst (m f f' : Token) : Prop :=
  f' = f ∨ f.tok = .COMMENT ∧ f'.tok ≠ .COMMENT ∧
    (m.tok = .ZERO_OR_MORE ∨ m.tok = .ONE_OR_MORE → ¬ (f'.tok = .INT ∧ f'.lit ≠ b!"int"))

theorem upper_first {m f f' u} (h : Upper f u) (hs : SameFirst m f f') (hm : m.tok = .ZERO_OR_MORE ∨ m.tok = .ONE_OR_MORE) :
    Upper f' u := by
  rcases hs with rfl | ⟨h1, h2, h3⟩
  · exact h
  · cases h with
    | none _ => exact .none (h3 hm)
    | some h _ _ => rw [h1] at h; cases h

theorem joined_notes {op f f' a b y es} (h : Joined op f a b y es) (hs : SameFirst op f f') :
    Joined op f' (noNotes a) (noNotes b) (noNotes y) es := by
  cases h with
  | field h => exact .field h
  | keyed h => exact .keyed h
  | choice h => exact .choice h
  | size h1 h2 => exact .size h1 (by rw [noNotes_kind]; exact h2)
  | regexp h1 h2 =>
    rcases hs with rfl | ⟨h, _⟩
    · exact .regexp h1 h2
    · rw [h] at h2; rcases h2 with h2 | h2 <;> cases h2
  | bits h => exact .bits h
  | compare h1 h2 => exact .compare h1 (by rw [noNotes_kind]; exact h2)
  | occ h1 h2 h3 => exact .occ h1 h2 (upper_first h3 hs h1)
  | range h1 h2 => rw [← rangeChecks_notes]; exact .range h1 (keptEnd_notes h2)

theorem marked_notes {m f f' x y} (h : Marked m f x y) (hs : SameFirst m f f') : Marked m f' (noNotes x) (noNotes y) := by
  cases h with
  | optional h => exact .optional h
  | unwrap h => exact .unwrap h
  | enumeration h => exact .enumeration h
  | any h h' => exact .any h (upper_first h' hs (.inl h))
  | some h h' => exact .some h (upper_first h' hs (.inr h))

/-! ### Derivations without comments -/

/-- What may stand behind an entry. -/
def Fine (r : Token) : Prop := r.tok ∈ starters ∨ r.tok ∈ [Tok.RPAREN, .RBRACK, .RBRACE] ∨ r.tok = .EOF

theorem fine_comma {r : Token} (h : Fine r) : r.tok ≠ .COMMA := by
  unfold Fine at h
  revert h
  generalize r.tok = t
  cases t <;> decide

theorem fine_infix {r : Token} (h : Fine r) (hi : r.tok ∈ infixes) : r.tok = .ZERO_OR_MORE ∨ r.tok = .ONE_OR_MORE := by
  unfold Fine at h
  revert h hi
  generalize r.tok = t
  cases t <;> decide

/-- An entry without its comments, in front of `r`; or with the comma behind them. -/
def EntryOk (x : Node) (ts : List Token) (nx r : Token) (cs : List Check) : Prop :=
  (Fine r → Lang (.entry (noNotes x)) (code ts) r cs) ∧
  (r.tok = .COMMA → nx.tok = .COMMENT → ∀ s : Token, s.tok ≠ .COMMENT → Lang (.entry (noNotes x)) (code ts ++ [r]) s cs)

def OperandOk (x : Node) (ts : List Token) (nx r : Token) (cs : List Check) : Prop :=
  Lang (.operand (noNotes x)) (code ts) r cs ∧ (∃ l, ts.getLast? = some l ∧ l.tok ≠ .COMMENT ∧ l.tok ∉ breaks) ∨
  (Fine r → Lang (.entry (noNotes x)) (code ts) r cs) ∧
  (r.tok = .COMMA → ∀ s : Token, s.tok ≠ .COMMENT → Lang (.entry (noNotes x)) (code ts ++ [r]) s cs) ∧
  (∃ p n v k, x = .entry p n v (some k)) ∧ (r.tok ∈ infixes → r.tok = .ZERO_OR_MORE ∨ r.tok = .ONE_OR_MORE)

def PartOk : Part → List Token → Token → Token → List Check → Prop
  | .operand x => OperandOk x
  | .entry x => EntryOk x
  | .entries xs => fun ts nx r cs => nx.tok ∈ [Tok.RPAREN, .RBRACK, .RBRACE] → Lang (.entries (noNotesL xs)) (code ts) r cs

theorem closer_ne {t : Tok} (h : t ∈ [Tok.RPAREN, .RBRACK, .RBRACE]) : t ≠ .COMMENT ∧ t ∉ breaks := by
  revert h; cases t <;> decide

theorem no_trails {ts : List Token} {r : Token} (h : r.tok ≠ .COMMENT) : ¬ Trails ts r := fun hc => h hc.1

theorem head_code {A B : List Token} {nx r : Token} (h : (code (nx :: B)).head? = some r) :
    r.tok ≠ .COMMENT := by
  obtain ⟨_, _, _, _, h⟩ := code_first h
  exact h

theorem last_code {ts : List Token} {l : Token} (h : ts.getLast? = some l) (hl : l.tok ≠ .COMMENT) :
    (code ts).getLast? = some l := by
  obtain ⟨us, rfl⟩ := List.getLast?_eq_some_iff.mp h
  rw [code_append, code_cons hl]
  simp [code_nil]

/-- The first token of an entry that is no comment. -/
theorem entry_first {x f ts nx cs} (h : Lang (.entry x) (f :: ts) nx cs) : ∃ f' ts', code (f :: ts) = f' :: ts' ∧
    (f.tok ≠ .COMMENT ∧ f' = f ∨ f.tok = .COMMENT ∧ f'.tok ≠ .COMMENT ∧
      ∃ gs us, f :: ts = gs ++ f' :: us ∧ gs ≠ [] ∧ ∀ g ∈ gs, g.tok = .COMMENT) := by
  by_cases hf : f.tok = .COMMENT
  · obtain ⟨gs, t, us, h1, h2, h3⟩ := lang_head h _ rfl
    have ht := (starter_ne h3).2
    refine ⟨t, code us, ?_, .inr ⟨hf, ht, gs, us, h1, ?_, h2⟩⟩
    · rw [h1, code_append, code_comments h2, code_cons ht]; rfl
    · rintro rfl
      cases h1
      exact ht hf
  · exact ⟨f, _, code_cons hf ts, .inl ⟨hf, rfl⟩⟩

/-- Entries begin with one of the starters, behind comments. -/
theorem entries_head {xs us nx ds} (h : Lang (.entries xs) us nx ds) :
    us = [] ∨ ∃ gs t vs, us = gs ++ t :: vs ∧ (∀ g ∈ gs, g.tok = .COMMENT) ∧ t.tok ∈ starters := by
  cases h with
  | nil => exact .inl rfl
  | cons h _ =>
    obtain ⟨gs, t, vs, rfl, h1, h2⟩ := lang_head h _ rfl
    exact .inr ⟨gs, t, _, by simp; rfl, h1, h2⟩

theorem uncomment (hW : Removable W) {part ts nx cs} (h : Lang part ts nx cs) : ∀ A B r, W = A ++ ts ++ nx :: B →
    (code (nx :: B)).head? = some r → opens ts = closes ts → PartOk part ts nx r cs := by
  -- the first token behind an operator or a mark
  have first : ∀ {A m f ts x nx cs B}, W = A ++ m :: f :: ts ++ nx :: B → m.tok ≠ .COMMENT → Lang (.entry x) (f :: ts) nx cs →
      ∃ f' ts', code (f :: ts) = f' :: ts' ∧ SameFirst m f f' := by
    intro A m f ts x nx cs B hw hm h
    obtain ⟨f', ts', h1, h2⟩ := entry_first h
    refine ⟨f', ts', h1, ?_⟩
    rcases h2 with ⟨h2, h3⟩ | ⟨h2, h3, gs, us, h4, h5, h6⟩
    · exact .inl h3
    · refine .inr ⟨h2, h3, ?_⟩
      exact (hW A m gs f' (us ++ nx :: B) (by rw [hw, h4]; simp) h5 h6 hm h3).upper
  induction h with
  | @name t nx h =>
    intro A B r hw hr hp
    refine .inl ⟨?_, t, rfl, by rw [h]; decide, by rw [h]; decide⟩
    have hc : code [t] = [t] := code_cons (by rw [h]; decide) []
    rw [hc]
    have hcol : nx.tok = .COLON ↔ r.tok = .COLON := by
      by_cases hn : nx.tok = .COMMENT
      · have ha := harmless_at hW hw (l := t) (by rw [hc]; rfl) hr (.inl hn)
        rw [hn]
        refine ⟨nofun, fun hrc => ?_⟩
        rcases (ha.op (by rw [hrc]; decide)).1 with h | h <;> rw [hrc] at h <;> cases h
      · rw [next_code hr hn]
    simp only [hcol]
    exact .name h
  | @single t x nx h =>
    intro A B r hw hr hp
    have hs := (starter_ne (single_starter h).1).2
    refine .inl ⟨?_, t, rfl, hs, ?_⟩
    · rw [code_cons hs, single_notes h]
      exact .single h
    · have hs := (single_starter h).1
      have h1 := (single_paren h).1
      have : ∀ k : Tok, k ∈ starters → k ∈ breaks → k = .LPAREN ∨ k = .LBRACK ∨ k = .LBRACE := by
        intro k; cases k <;> decide
      intro hb
      rcases this _ hs hb with k | k | k
      · exact h1 k
      all_goals
        cases h with
        | bool h | true h | false h | literal h | uint h | nint h | bstr h | bytes h => rw [h] at k; cases k
        | text h | null h => rcases h with h | h <;> rw [h] at k <;> cases k
        | float h =>
          rcases h with h | ⟨h, _⟩
          · rw [k] at h; revert h; decide
          · rw [h] at k; cases k
        | fraction h _ _ | int h _ | number h _ _ => rw [h] at k; cases k
  | @group o c ts xs cs nx h1 h2 h3 ih =>
    intro A B r hw hr hp
    have ho : o.tok ≠ .COMMENT := by rw [h1]; decide
    have hc : c.tok ∈ [Tok.RPAREN, .RBRACK, .RBRACE] := by rw [h2]; decide
    have h := ih (A ++ [o]) (nx :: B) c (by rw [hw]; simp) (by rw [code_cons (closer_ne hc).1]; rfl)
      (by simp only [List.cons_append, opens_cons, closes_cons, opens_append, closes_append, opens_nil, closes_nil, h1, h2] at hp
          simp at hp; omega) hc
    refine .inl ⟨?_, c, by rw [last_append]; rfl, (closer_ne hc).1, (closer_ne hc).2⟩
    rw [List.cons_append, code_cons ho, code_append, code_cons (closer_ne hc).1, code_nil, noNotes, noNotesL_filter]
    exact .group h1 h2 h
  | @array o c ts xs cs nx h1 h2 h3 ih =>
    intro A B r hw hr hp
    have ho : o.tok ≠ .COMMENT := by rw [h1]; decide
    have hc : c.tok ∈ [Tok.RPAREN, .RBRACK, .RBRACE] := by rw [h2]; decide
    have h := ih (A ++ [o]) (nx :: B) c (by rw [hw]; simp) (by rw [code_cons (closer_ne hc).1]; rfl)
      (by simp only [List.cons_append, opens_cons, closes_cons, opens_append, closes_append, opens_nil, closes_nil, h1, h2] at hp
          simp at hp; omega) hc
    refine .inl ⟨?_, c, by rw [last_append]; rfl, (closer_ne hc).1, (closer_ne hc).2⟩
    rw [List.cons_append, code_cons ho, code_append, code_cons (closer_ne hc).1, code_nil, noNotes, noNotesL_filter]
    exact .array h1 h2 h
  | @map o c ts xs cs nx h1 h2 h3 ih =>
    intro A B r hw hr hp
    have ho : o.tok ≠ .COMMENT := by rw [h1]; decide
    have hc : c.tok ∈ [Tok.RPAREN, .RBRACK, .RBRACE] := by rw [h2]; decide
    have h := ih (A ++ [o]) (nx :: B) c (by rw [hw]; simp) (by rw [code_cons (closer_ne hc).1]; rfl)
      (by simp only [List.cons_append, opens_cons, closes_cons, opens_append, closes_append, opens_nil, closes_nil, h1, h2] at hp
          simp at hp; omega) hc
    refine .inl ⟨?_, c, by rw [last_append]; rfl, (closer_ne hc).1, (closer_ne hc).2⟩
    rw [List.cons_append, code_cons ho, code_append, code_cons (closer_ne hc).1, code_nil, noNotes]
    exact .map h1 h2 h
  | @tag hd ns a b nx h1 h2 h3 h4 =>
    intro A B r hw hr hp
    have hh : hd.tok ≠ .COMMENT := by rw [h1]; decide
    have hns : code ns = ns := by
      cases h2 with
      | none => rfl
      | major h _ | both h _ _ _ => exact code_cons (by rw [h]; decide) []
    have hcode : code (hd :: ns) = hd :: ns := by rw [code_cons hh, hns]
    have key : r.tok ≠ .LPAREN ∧ (ns = [] → r.tok ≠ .INT ∧ r.tok ≠ .FLOAT) := by
      by_cases hn : nx.tok = .COMMENT
      · obtain ⟨l, hl⟩ : ∃ l, (hd :: ns).getLast? = some l := by
          cases hg : (hd :: ns).getLast? with
          | none => simp at hg
          | some l => exact ⟨l, rfl⟩
        have ha := harmless_at hW hw (l := l) (by rw [hcode]; exact hl) hr (.inl hn)
        cases h2 with
        | none =>
          cases hl
          exact ⟨fun h => (ha.item h).1 h1, fun _ => ha.tag h1⟩
        | major k1 k2 =>
          obtain rfl : _ = l := by simpa using hl
          refine ⟨fun h => (ha.item h).2 (.inl ⟨k1, fun hl => ?_⟩), nofun⟩
          rw [hl] at k2
          revert k2
          rw [show parseUint b!"int" = .error .syntax from rfl]
          nofun
        | both k1 k2 _ _ =>
          obtain rfl : _ = l := by simpa using hl
          refine ⟨fun h => (ha.item h).2 (.inr ⟨k1, fun hl => ?_⟩), nofun⟩
          rw [hl] at k2
          revert k2
          rw [show splitDots b!"float" = [b!"float"] from by decide +kernel]
          nofun
      · rw [next_code hr hn]; exact ⟨h3, h4⟩
    refine .inl ⟨by rw [hcode, noNotes]; exact .tag h1 h2 key.1 key.2, ?_⟩
    cases h2 with
    | none => exact ⟨hd, rfl, hh, by rw [h1]; decide⟩
    | @major t _ h _ | @both t _ _ _ _ h _ _ _ => exact ⟨t, rfl, by rw [h]; decide, by rw [h]; decide⟩
  | @tagged hd ns a b o c ts x cs nx h1 h2 h3 h4 h5 ih =>
    intro A B r hw hr hp
    have hh : hd.tok ≠ .COMMENT := by rw [h1]; decide
    have ho : o.tok ≠ .COMMENT := by rw [h3]; decide
    have hc : c.tok ≠ .COMMENT := by rw [h4]; decide
    have hns : code ns = ns := by
      cases h2 with
      | none => rfl
      | major h _ | both h _ _ _ => exact code_cons (by rw [h]; decide) []
    obtain ⟨k1, k2⟩ := plain_parens (nums_paren h2)
    have h := (ih (A ++ hd :: ns ++ [o]) (nx :: B) c (by rw [hw]; simp) (by rw [code_cons hc]; rfl)
      (by simp only [List.cons_append, List.append_assoc, opens_cons, closes_cons, opens_append, closes_append, opens_nil, closes_nil, h1, h3, h4, k1, k2] at hp
          simp at hp; omega)).1 (.inr (.inl (by rw [h4]; decide)))
    refine .inl ⟨?_, c, by rw [last_append]; rfl, hc, by rw [h4]; decide⟩
    have hcode : code (hd :: ns ++ o :: ts ++ [c]) = hd :: ns ++ o :: code ts ++ [c] := by
      rw [code_append, code_append, code_cons hh, hns, code_cons ho, code_cons hc, code_nil]
    rw [hcode, noNotes]
    exact .tagged h1 h2 h3 h4 h
  | @noRange op ts a cs nx h1 h2 h3 ih =>
    intro A B r hw hr hp
    have ho : op.tok ≠ .COMMENT := by rcases h1 with h | h <;> rw [h] <;> decide
    have hpar : op.tok ≠ .LPAREN ∧ op.tok ≠ .RPAREN := by rcases h1 with h | h <;> rw [h] <;> decide
    have h := ih A (nx :: B) op (by rw [hw]; simp) (by rw [code_cons ho]; rfl)
      (by simp only [opens_cons, closes_cons, opens_append, closes_append, opens_nil, closes_nil, hpar, if_false] at hp; omega)
    rcases h with ⟨h, _⟩ | ⟨_, _, _, h⟩
    · refine .inl ⟨?_, op, by rw [last_append]; rfl, ho, ?_⟩
      · rw [code_append, code_cons ho, code_nil]
        exact .noRange h1 h (by rw [noNotes_kind]; exact h3)
      · rcases h1 with h | h <;> rw [h] <;> decide
    · have := h (by rcases h1 with h | h <;> rw [h] <;> decide)
      rcases h1 with h | h <;> rw [h] at this <;> rcases this with h | h <;> cases h
  | @noted op f ts us a b c p i v cs ds es nx h1 h2 h3 h4 ih1 ih2 =>
    intro A B r hw hr hp
    have hop := joined_infix h3
    have ho := (infix_ne hop).2
    have hcol : op.tok = .COLON ∨ op.tok = .ARROW_MAP := by
      cases h3 with
      | field h => exact h
      | keyed h => exact h
    have hpar := infix_paren hop
    have hle1 := lang_parens h1
    have hle2 := lang_parens h2
    have hpe : opens ts = closes ts ∧ opens (f :: us) = closes (f :: us) := by
      rw [opens_append, closes_append, opens_append, closes_append, opens_cons op, closes_cons op, if_neg hpar.1, if_neg hpar.2,
        (comment_parens (gs := [c]) (by simpa using h4.1)).1, (comment_parens (gs := [c]) (by simpa using h4.1)).2] at hp
      omega
    have hl := ih1 A (f :: us ++ c :: nx :: B) op (by rw [hw]; simp) (by rw [code_cons ho]; rfl) hpe.1
    rcases hl with ⟨hl, _⟩ | ⟨_, _, _, h⟩
    · have hw2 : W = (A ++ ts ++ [op]) ++ (f :: us) ++ c :: (nx :: B) := by rw [hw]; simp
      have hr2 : (code (c :: nx :: B)).head? = some r := by rw [code_comment h4.1]; exact hr
      have hb := ih2 _ _ _ hw2 hr2 hpe.2
      obtain ⟨f', us', hf1, hf2⟩ := first (A := A ++ ts) (B := nx :: B) (by rw [hw]; simp) ho h2
      have hcode : code (ts ++ op :: f :: us ++ [c]) = code ts ++ op :: f' :: us' := by
        rw [code_append, code_append, code_cons ho, hf1, code_comment h4.1, code_nil, List.append_nil]
      have hj := joined_notes h3 hf2
      have hne := head_code (A := A) hr
      refine .inr ⟨fun hf => ?_, fun hcm s hs => ?_, ⟨_, _, _, _, rfl⟩, ?_⟩
      · have := hb.1 hf
        rw [hf1] at this
        rw [hcode]
        exact .joined hl this hj fun _ => no_trails hne
      · have := hb.2 hcm h4.1 s hs
        rw [hf1, List.cons_append] at this
        rw [hcode, List.append_assoc, List.cons_append, List.cons_append]
        exact .joined hl this hj fun _ => no_trails hs
      · intro hi
        obtain ⟨l, hl⟩ : ∃ l, (code (f :: us)).getLast? = some l := by
          rw [hf1]
          cases hg : (f' :: us').getLast? with
          | none => simp at hg
          | some l => exact ⟨l, rfl⟩
        exact ((harmless_at hW hw2 hl hr2 (.inl h4.1)).op hi).1
    · have := h hop
      rcases hcol with h | h <;> rw [h] at this <;> rcases this with h | h <;> cases h
  | @only ts x cs nx h1 h2 h3 ih =>
    intro A B r hw hr hp
    rcases ih A B r hw hr hp with ⟨h, l, hl, hl1, hl2⟩ | ⟨k1, k2, _, _⟩
    · refine ⟨fun hf => .only h ?_ (fine_comma hf), fun hc hn s _ => .comma hc h⟩
      by_cases hn : nx.tok = .COMMENT
      · intro hi
        exact hl2 ((harmless_at hW hw (last_code hl hl1) hr (.inl hn)).op hi).2
      · rw [next_code hr hn]; exact h2
    · exact ⟨k1, fun hc _ s hs => k2 hc s hs⟩
  | @comma ts c x cs nx h1 h2 ih =>
    intro A B r hw hr hp
    have hc : c.tok ≠ .COMMENT := by rw [h1]; decide
    have hpe : opens ts = closes ts := by
      simp only [opens_cons, closes_cons, opens_append, closes_append, opens_nil, closes_nil, h1] at hp
      simpa using hp
    have hne := head_code (A := A) hr
    have hcode : code (ts ++ [c]) = code ts ++ [c] := by rw [code_append, code_cons hc, code_nil]
    have hrest : r.tok = .COMMA → nx.tok = .COMMENT → False := fun k1 k2 =>
      (harmless_at hW hw (l := c) (by rw [hcode]; simp) hr (.inl k2)).comma k1 h1
    refine ⟨fun _ => ?_, fun k1 k2 => (hrest k1 k2).elim⟩
    rw [hcode]
    rcases ih A (nx :: B) c (by rw [hw]; simp) (by rw [code_cons hc]; rfl) hpe with ⟨h, _⟩ | ⟨_, k2, _, _⟩
    · exact .comma h1 h
    · exact k2 h1 r hne
  | @marked m f ts x y cs nx h1 h2 ih =>
    intro A B r hw hr hp
    have hm := (starter_ne (marked_starter h1)).2
    have hpar := marked_paren h1
    rw [opens_cons m, closes_cons m, if_neg hpar.1, if_neg hpar.2] at hp
    have h := ih (A ++ [m]) B r (by rw [hw]; simp) hr (by omega)
    obtain ⟨f', ts', hf1, hf2⟩ := first (A := A) hw hm h2
    refine ⟨fun hf => ?_, fun hcm hn s hs => ?_⟩
    · have := h.1 hf
      rw [hf1] at this
      rw [code_cons hm, hf1]
      exact .marked (marked_notes h1 hf2) this
    · have := h.2 hcm hn s hs
      rw [hf1] at this
      rw [code_cons hm, hf1]
      exact .marked (marked_notes h1 hf2) this
  | @unclosed hd ns a b o ts x cs nx h1 h2 h3 h4 h5 ih =>
    intro A B r hw hr hp
    exfalso
    obtain ⟨k1, k2⟩ := plain_parens (nums_paren h2)
    have := lang_parens h5
    simp only [List.cons_append, opens_cons, closes_cons, opens_append, closes_append, h1, h3, k1, k2] at hp
    simp at hp
    omega
  | @joined op f ts us a b y cs ds es nx h1 h2 h3 h4 ih1 ih2 =>
    intro A B r hw hr hp
    have hop := joined_infix h3
    have ho := (infix_ne hop).2
    have hpar := infix_paren hop
    have hle1 := lang_parens h1
    have hle2 := lang_parens h2
    have hpe : opens ts = closes ts ∧ opens (f :: us) = closes (f :: us) := by
      rw [opens_append, closes_append, opens_cons op, closes_cons op, if_neg hpar.1, if_neg hpar.2] at hp
      omega
    have hl := ih1 A (f :: us ++ nx :: B) op (by rw [hw]; simp) (by rw [code_cons ho]; rfl) hpe.1
    rcases hl with ⟨hl, _⟩ | ⟨_, _, ⟨p, n, v, k, rfl⟩, h⟩
    · have hb := ih2 (A ++ ts ++ [op]) B r (by rw [hw]; simp) hr hpe.2
      obtain ⟨f', us', hf1, hf2⟩ := first (A := A ++ ts) (B := B) (by rw [hw]; simp) ho h2
      have hj := joined_notes h3 hf2
      have hne := head_code (A := A) hr
      have hcode : code (ts ++ op :: f :: us) = code ts ++ op :: f' :: us' := by
        rw [code_append, code_cons ho, hf1]
      refine ⟨fun hf => ?_, fun hcm hn s hs => ?_⟩
      · have := hb.1 hf
        rw [hf1] at this
        rw [hcode]
        exact .joined hl this hj fun _ => no_trails hne
      · have := hb.2 hcm hn s hs
        rw [hf1, List.cons_append] at this
        rw [hcode, List.append_assoc, List.cons_append, List.cons_append]
        exact .joined hl this hj fun _ => no_trails hs
    · exfalso
      have := h hop
      cases h3 with
      | choice h | range h _ => rcases h with h | h <;> rw [h] at this <;> rcases this with h | h <;> cases h
      | bits h => rw [h] at this; rcases this with h | h <;> cases h
      | size h _ => rw [h] at this; rcases this with h | h <;> cases h
      | compare h _ =>
        revert h this
        generalize op.tok = t
        cases t <;> decide
  | @skip c ts x cs nx h1 h2 ih =>
    intro A B r hw hr hp
    have hpe : opens ts = closes ts := by
      rw [opens_cons, closes_cons, h1] at hp
      simpa using hp
    have h := ih (A ++ [c]) B r (by rw [hw]; simp) hr hpe
    unfold PartOk EntryOk
    dsimp only
    rw [code_comment h1]
    exact h
  | nil =>
    intro A B r hw hr hp hn
    exact .nil
  | @cons ts us x xs cs ds nx h1 h2 ih1 ih2 =>
    intro A B r hw hr hp hn
    have hle1 := lang_parens h1
    have hle2 := lang_parens h2
    have hpe : opens ts = closes ts ∧ opens us = closes us := by
      rw [opens_append, closes_append] at hp; omega
    obtain rfl := next_code hr (closer_ne hn).1
    have hxs := ih2 (A ++ ts) B r (by rw [hw]; simp) hr hpe.2 hn
    rw [code_append, noNotesL]
    rcases entries_head h2 with rfl | ⟨gs, t, vs, rfl, k1, k2⟩
    · have hx := (ih1 A B r (by rw [hw]; simp [firstTok]) hr hpe.1).1 (.inr (.inl hn))
      exact .cons hx hxs
    · have ht := (starter_ne k2).2
      have hcode : code (gs ++ t :: vs) = t :: code vs := by
        rw [code_append, code_comments k1, code_cons ht]; rfl
      obtain ⟨w, C, hC⟩ : ∃ w C, gs ++ t :: vs ++ r :: B = w :: C ∧ firstTok (gs ++ t :: vs) r = w := by
        cases gs with
        | nil => exact ⟨_, _, rfl, rfl⟩
        | cons g gs => exact ⟨_, _, rfl, rfl⟩
      have hx := (ih1 A C t (by rw [hw, hC.2, ← hC.1]; simp) (by
        rw [hC.2, ← hC.1, code_append, hcode]; rfl) hpe.1).1 (.inl k2)
      rw [hcode] at hxs ⊢
      exact .cons hx hxs

/-! ### Files without comments -/

theorem rules_first {eof : Token} {us rs ds es} (h : Rules eof us rs ds es) (hc : ∀ t ∈ us, t.tok ≠ .COMMENT) :
    us = [] ∨ ∃ n vs, us = n :: vs ∧ n.tok = .IDENT := by
  cases h with
  | nil => exact .inl rfl
  | comments h1 h2 =>
    obtain ⟨g, gs, rfl⟩ := List.exists_cons_of_ne_nil h1
    exact absurd (h2 g (by simp)) (hc g (by simp))
  | declare h => exact .inr ⟨_, _, rfl, h⟩
  | extend h => exact .inr ⟨_, _, rfl, h⟩

theorem uncomment_rules {eof : Token} (he : eof.tok = .EOF) (hW : Removable (W ++ [eof])) {us rules ds cs}
    (h : Rules eof us rules ds cs) : ∀ A, W = A ++ us → NothingLost W rules → closes us ≤ opens us ∧ (opens us = closes us →
      Rules eof (code us) (uncommented rules) (ds.map fun d => (d.1, noNotes d.2)) cs) := by
  have hee : eof.tok ≠ .COMMENT := by rw [he]; decide
  -- what is behind a rule
  have behind : ∀ {A ts us k vs p n v rs}, W = A ++ ts ++ us → Behind eof ts us k vs →
      NothingLost W (.rule p n v k :: rs) → code us = code vs ∧ opens us = opens vs ∧ closes us = closes vs ∧ ∃ C, W = C ++ vs := by
    intro A ts us k vs p n v rs hw hb hl
    cases hb with
    | none _ => exact ⟨rfl, rfl, rfl, _, hw⟩
    | @some c us hc =>
      have hd := hl p n v _ (List.mem_cons_self ..) (A ++ ts) c us hw rfl
      cases us with
      | nil =>
        refine ⟨code_comment hc.1 _, ?_, ?_, A ++ ts ++ [c], by rw [hw]; simp⟩
        · rw [opens_cons, hc.1]; simp
        · rw [closes_cons, hc.1]; simp
      | cons d us =>
        have hd := hd d rfl
        refine ⟨?_, ?_, ?_, A ++ ts ++ [c, d], by rw [hw]; simp⟩
        · rw [code_comment hc.1, code_comment hd]; rfl
        · rw [opens_cons, opens_cons, hc.1, hd]; simp
        · rw [closes_cons, closes_cons, hc.1, hd]; simp
  -- the type of a rule
  have body : ∀ {A ts us x cs vs rs ds es}, W = A ++ ts ++ us → Lang (.entry x) ts (firstTok us eof) cs → opens ts = closes ts →
      code us = code vs → Rules eof (code vs) rs ds es →
      Lang (.entry (noNotes x)) (code ts) (firstTok (code us) eof) cs ∧ Behind eof (code ts) (code us) none (code vs) := by
    intro A ts us x cs vs rs ds es hw h hp hu hr
    have hf : Fine (firstTok (code us) eof) ∧ (firstTok (code us) eof).tok ≠ .COMMENT := by
      rw [hu]
      rcases rules_first hr code_mem with h | ⟨n, ws, h, hn⟩
      · rw [h]; exact ⟨.inr (.inr he), hee⟩
      · rw [h]
        exact ⟨.inl (show n.tok ∈ _ by rw [hn]; decide), show n.tok ≠ _ by rw [hn]; decide⟩
    obtain ⟨w, B, hB, hw'⟩ : ∃ w B, us ++ [eof] = w :: B ∧ firstTok us eof = w := by
      cases us with
      | nil => exact ⟨_, _, rfl, rfl⟩
      | cons a us => exact ⟨_, _, rfl, rfl⟩
    rw [hw'] at h
    have := (uncomment hW h A B (firstTok (code us) eof) (by rw [hw, List.append_assoc, List.append_assoc, hB]; simp) (by
      rw [← hB, code_append, code_cons hee, code_nil]
      cases code us with
      | nil => rfl
      | cons a us => rfl) hp).1 hf.1
    refine ⟨this, ?_⟩
    rw [← hu]
    exact .none (no_trails hf.2)
  induction h with
  | nil => exact fun A hw hl => ⟨Nat.le_refl _, fun _ => .nil⟩
  | @comments gs us rs ds es h1 h2 h3 h4 ih =>
    intro A hw hl
    obtain ⟨k1, k2⟩ := comment_parens h2
    have := ih (A ++ gs) (by rw [hw]; simp) fun p n v k hk => hl p n v k (List.mem_cons_of_mem _ hk)
    rw [opens_append, closes_append, k1, k2, code_append, code_comments h2]
    have hu : uncommented (commentTree gs :: rs) = uncommented rs := by
      unfold commentTree
      split <;> rfl
    rw [hu]
    simpa using this
  | @declare n a ts us vs x k cs rs ds es h1 h2 h3 hb hr ih =>
    intro A hw hl
    have hw' : W = (A ++ [n, a]) ++ ts ++ us := by rw [hw]; simp
    obtain ⟨b1, b2, b3, C, b4⟩ := behind hw' hb hl
    obtain ⟨i1, i2⟩ := ih C b4 fun p n v k hk => hl p n v k (List.mem_cons_of_mem _ hk)
    have hle := lang_parens h3
    have ho : opens (n :: a :: ts ++ us) = opens ts + opens vs ∧ closes (n :: a :: ts ++ us) = closes ts + closes vs := by
      simp only [List.cons_append, opens_cons, closes_cons, opens_append, closes_append, h1, h2, b2, b3]
      simp
    rw [ho.1, ho.2]
    refine ⟨by omega, fun hp => ?_⟩
    have hr' := i2 (by omega)
    obtain ⟨j1, j2⟩ := body hw' h3 (by omega) b1 hr'
    have hcode : code (n :: a :: ts ++ us) = n :: a :: code ts ++ code us := by
      rw [code_append, code_cons (by rw [h1]; decide), code_cons (by rw [h2]; decide)]
    rw [hcode]
    exact .declare h1 h2 j1 j2 hr'
  | @extend n a ts us vs x k cs rs ds es h1 h2 h3 hb hr ih =>
    intro A hw hl
    have hw' : W = (A ++ [n, a]) ++ ts ++ us := by rw [hw]; simp
    obtain ⟨b1, b2, b3, C, b4⟩ := behind hw' hb hl
    obtain ⟨i1, i2⟩ := ih C b4 fun p n v k hk => hl p n v k (List.mem_cons_of_mem _ hk)
    have hle := lang_parens h3
    have ha : a.tok ≠ .LPAREN ∧ a.tok ≠ .RPAREN ∧ a.tok ≠ .COMMENT := by rcases h2 with h | h <;> rw [h] <;> decide
    have ho : opens (n :: a :: ts ++ us) = opens ts + opens vs ∧ closes (n :: a :: ts ++ us) = closes ts + closes vs := by
      simp only [List.cons_append, opens_cons, closes_cons, opens_append, closes_append, h1, ha, b2, b3]
      simp
    rw [ho.1, ho.2]
    refine ⟨by omega, fun hp => ?_⟩
    have hr' := i2 (by omega)
    obtain ⟨j1, j2⟩ := body hw' h3 (by omega) b1 hr'
    have hcode : code (n :: a :: ts ++ us) = n :: a :: code ts ++ code us := by
      rw [code_append, code_cons (by rw [h1]; decide), code_cons ha.2.2]
    rw [hcode]
    exact .extend h1 h2 j1 j2 hr'

end Cddlc
