import Verif.Spec.Insert
import Verif.Lemmas.Uncomment

/-! Brackets in the parts of a file, and where fields end. -/

namespace Cddlc
open Spec

/-! ### Counting -/

theorem rise_nil : rise [] = 0 := rfl

theorem rise_append (ts us : List Token) : rise (ts ++ us) = rise ts + rise us := by
  simp only [rise, List.countP_append]
  omega

theorem rise_cons (t : Token) (ts : List Token) : rise (t :: ts) = rise [t] + rise ts := rise_append [t] ts

theorem rise_left {t : Token} (h : t.tok ∈ leftBrackets) : rise [t] = 1 := by
  have : t.tok ∉ rightBrackets := by
    revert h; generalize t.tok = k; cases k <;> decide
  simp [rise, h, this]

theorem rise_right {t : Token} (h : t.tok ∈ rightBrackets) : rise [t] = -1 := by
  have : t.tok ∉ leftBrackets := by
    revert h; generalize t.tok = k; cases k <;> decide
  simp [rise, h, this]

theorem rise_other {t : Token} (h : t.tok ∉ leftBrackets) (h' : t.tok ∉ rightBrackets) : rise [t] = 0 := by
  simp [rise, h, h']

theorem rise_all {ts : List Token} (h : ∀ t ∈ ts, t.tok ∉ leftBrackets ∧ t.tok ∉ rightBrackets) : rise ts = 0 := by
  induction ts with
  | nil => rfl
  | cons t ts ih =>
    rw [rise_cons, rise_other (h t (by simp)).1 (h t (by simp)).2, ih fun t ht => h t (by simp [ht])]
    rfl

theorem infix_rise {t : Token} (h : t.tok ∈ infixes) : rise [t] = 0 := by
  apply rise_other <;> (revert h; generalize t.tok = k; cases k <;> decide)

theorem comment_rise {t : Token} (h : t.tok = .COMMENT) : rise [t] = 0 := by
  apply rise_other <;> rw [h] <;> decide

/-- Where a token is in tokens with one in the middle. -/
theorem split_mid {X Y A U : List Token} {m op : Token} (h : X ++ m :: Y = A ++ op :: U) :
    (∃ X', X = A ++ op :: X' ∧ U = X' ++ m :: Y) ∨ (X = A ∧ m = op ∧ Y = U) ∨ (∃ A', Y = A' ++ op :: U ∧ A = X ++ m :: A') := by
  rcases List.append_eq_append_iff.mp h with ⟨as, h1, h2⟩ | ⟨bs, h1, h2⟩
  · cases as with
    | nil =>
      simp only [List.nil_append, List.cons.injEq] at h2
      exact .inr (.inl ⟨by simpa using h1.symm, h2.1, h2.2⟩)
    | cons a as =>
      simp only [List.cons_append, List.cons.injEq] at h2
      exact .inr (.inr ⟨as, h2.2, by rw [h1, h2.1]⟩)
  · cases bs with
    | nil =>
      simp only [List.nil_append, List.cons.injEq] at h2
      exact .inr (.inl ⟨by simpa using h1, h2.1.symm, h2.2.symm⟩)
    | cons b bs =>
      simp only [List.cons_append, List.cons.injEq] at h2
      exact .inl ⟨bs, by rw [h1, h2.1], h2.2⟩

theorem split_last {X A U : List Token} {c op : Token} (h : X ++ [c] = A ++ op :: U) (hc : c ≠ op) :
    ∃ X', X = A ++ op :: X' ∧ U = X' ++ [c] := by
  rcases split_mid h with h | ⟨-, h, -⟩ | ⟨A', h, -⟩
  · exact h
  · exact absurd h hc
  · cases A' <;> cases h

/-! ### Brackets in parts -/

/-- The signs behind the names of fields. -/
def IsFieldSign (t : Token) : Prop := t.tok = .COLON ∨ t.tok = .ARROW_MAP

theorem single_free {t x} (h : Single t x) : t.tok ∉ leftBrackets ∧ t.tok ∉ rightBrackets ∧ t.tok ≠ .HASH ∧ ¬ IsFieldSign t := by
  have : t.tok ∈ [Tok.BOOL, .TRUE, .FALSE, .TSTR, .TEXT, .TEXT_LITERAL, .FLOAT16, .FLOAT32, .FLOAT64, .FLOAT, .UINT, .INT, .NINT,
      .BSTR, .BYTES, .NULL, .NIL] := by
    cases h with
    | bool h => rw [h]; decide
    | true h => rw [h]; decide
    | false h => rw [h]; decide
    | text h => rcases h with h | h <;> rw [h] <;> decide
    | literal h => rw [h]; decide
    | float h =>
      rcases h with h | ⟨h, -⟩
      · revert h; generalize t.tok = k; cases k <;> decide
      · rw [h]; decide
    | fraction h => rw [h]; decide
    | uint h => rw [h]; decide
    | int h => rw [h]; decide
    | number h => rw [h]; decide
    | nint h => rw [h]; decide
    | bstr h => rw [h]; decide
    | bytes h => rw [h]; decide
    | null h => rcases h with h | h <;> rw [h] <;> decide
  unfold IsFieldSign
  revert this
  generalize t.tok = k
  cases k <;> decide

theorem nums_free {ns a b} (h : TagNums ns a b) : ∀ t ∈ ns, t.tok ∉ leftBrackets ∧ t.tok ∉ rightBrackets ∧ ¬ IsFieldSign t := by
  unfold IsFieldSign
  cases h with
  | none => simp
  | major h => intro t ht; rw [List.mem_singleton.mp ht, h]; decide
  | both h => intro t ht; rw [List.mem_singleton.mp ht, h]; decide

theorem marked_free {m f x y} (h : Marked m f x y) : m.tok ∉ leftBrackets ∧ m.tok ∉ rightBrackets ∧ ¬ IsFieldSign m := by
  unfold IsFieldSign
  cases h with
  | optional h => rw [h]; decide
  | unwrap h => rw [h]; decide
  | enumeration h => rw [h]; decide
  | any h => rw [h]; decide
  | some h => rw [h]; decide

theorem bound_infix {op : Token} (h : op.tok = .INCLUSIVE_BOUND ∨ op.tok = .EXCLUSIVE_BOUND) : op.tok ∈ infixes ∧ ¬ IsFieldSign op := by
  unfold IsFieldSign
  rcases h with h | h <;> rw [h] <;> decide

theorem list_rise {o c : Token} (ho : o.tok ∈ leftBrackets) (hc : c.tok ∈ rightBrackets) (ts : List Token) :
    rise (o :: ts ++ [c]) = rise ts := by
  rw [rise_append, rise_cons, rise_left ho, rise_right hc]
  omega

theorem lang_rise {part ts nx cs} (h : Lang part ts nx cs) : 0 ≤ rise ts ∧ ((∀ t ∈ ts, t.tok ≠ .HASH) → rise ts = 0) := by
  have comma : ∀ {c : Token}, c.tok = .COMMA → rise [c] = 0 := by
    intro c h; apply rise_other <;> rw [h] <;> decide
  have hash : ∀ {c : Token}, c.tok = .HASH → rise [c] = 0 := by
    intro c h; apply rise_other <;> rw [h] <;> decide
  have nums : ∀ {ns a b}, TagNums ns a b → rise ns = 0 := fun h => rise_all fun t ht => ⟨(nums_free h t ht).1, (nums_free h t ht).2.1⟩
  induction h with
  | name h =>
    rw [rise_other (by rw [h]; decide) (by rw [h]; decide)]
    exact ⟨Int.le_refl _, fun _ => rfl⟩
  | single h =>
    rw [rise_other (single_free h).1 (single_free h).2.1]
    exact ⟨Int.le_refl _, fun _ => rfl⟩
  | group ho hc _ ih =>
    rw [list_rise (by rw [ho]; decide) (by rw [hc]; decide)]
    exact ⟨ih.1, fun h => ih.2 fun t ht => h t (by simp [ht])⟩
  | array ho hc _ ih =>
    rw [list_rise (by rw [ho]; decide) (by rw [hc]; decide)]
    exact ⟨ih.1, fun h => ih.2 fun t ht => h t (by simp [ht])⟩
  | map ho hc _ ih =>
    rw [list_rise (by rw [ho]; decide) (by rw [hc]; decide)]
    exact ⟨ih.1, fun h => ih.2 fun t ht => h t (by simp [ht])⟩
  | tag h hn =>
    rw [rise_cons, hash h, nums hn]
    exact ⟨Int.le_refl _, fun _ => rfl⟩
  | @tagged hd ns a b o c ts x cs nx h hn ho hc _ ih =>
    have : rise (hd :: ns ++ o :: ts ++ [c]) = rise ts := by
      rw [List.append_assoc, rise_append, rise_cons, hash h, nums hn, list_rise (by rw [ho]; decide) (by rw [hc]; decide)]
      omega
    rw [this]
    exact ⟨ih.1, fun h' => absurd h (h' hd (by simp))⟩
  | noRange ho _ _ ih =>
    rw [rise_append, infix_rise (bound_infix ho).1]
    exact ⟨by omega, fun h => by rw [ih.2 fun t ht => h t (by simp [ht])]; rfl⟩
  | @noted op f ts us a b c r i v cs ds es nx _ _ hj ht ih1 ih2 =>
    rw [rise_append, rise_append, rise_cons, comment_rise ht.1, infix_rise (joined_infix hj)]
    refine ⟨by omega, fun h => ?_⟩
    rw [ih1.2 fun t ht => h t (by simp [ht]), ih2.2 fun t ht => h t (by
      rcases List.mem_cons.mp ht with rfl | ht <;> simp [*])]
    rfl
  | only _ _ _ ih => exact ih
  | comma hc _ ih =>
    rw [rise_append, comma hc]
    exact ⟨by omega, fun h => by rw [ih.2 fun t ht => h t (by simp [ht])]; rfl⟩
  | marked hm _ ih =>
    rw [rise_cons, rise_other (marked_free hm).1 (marked_free hm).2.1]
    exact ⟨by omega, fun h => by rw [ih.2 fun t ht => h t (List.mem_cons_of_mem _ ht)]; rfl⟩
  | @unclosed hd ns a b o ts x cs nx h hn ho _ _ ih =>
    have : rise (hd :: ns ++ o :: ts) = 1 + rise ts := by
      rw [rise_append, rise_cons, hash h, nums hn, rise_cons, rise_left (by rw [ho]; decide)]
      omega
    rw [this]
    exact ⟨by omega, fun h' => absurd h (h' hd (by simp))⟩
  | @joined op f ts us a b y cs ds es nx _ _ hj _ ih1 ih2 =>
    rw [rise_append, rise_cons, infix_rise (joined_infix hj)]
    refine ⟨by omega, fun h => ?_⟩
    rw [ih1.2 fun t ht => h t (by simp [ht]), ih2.2 fun t ht => h t (by
      rcases List.mem_cons.mp ht with rfl | ht <;> simp [*])]
    rfl
  | skip hc _ ih =>
    rw [rise_cons, comment_rise hc]
    exact ⟨by omega, fun h => by rw [ih.2 fun t ht => h t (List.mem_cons_of_mem _ ht)]; rfl⟩
  | nil => exact ⟨Int.le_refl _, fun _ => rfl⟩
  | cons _ _ ih1 ih2 =>
    rw [rise_append]
    exact ⟨by omega, fun h => by rw [ih1.2 fun t ht => h t (by simp [ht]), ih2.2 fun t ht => h t (by simp [ht])]; rfl⟩

/-- Behind the sign of a field no bracket stays open; and in an operand one is closed, that was opened in front of it. -/
def Falls : Part → List Token → Prop
  | .operand _, us => rise us < 0
  | _, us => rise us ≤ 0

theorem lang_falls {part ts nx cs} (h : Lang part ts nx cs) : ∀ A op us, ts = A ++ op :: us → IsFieldSign op →
    (∀ t ∈ ts, t.tok ≠ .COMMENT) → (∀ t ∈ us, t.tok ≠ .HASH) → Falls part us := by
  have alone : ∀ {t A op us}, [t] = A ++ op :: us → ¬ IsFieldSign t → IsFieldSign op → False := by
    intro t A op us h h1 h2
    cases A with
    | nil => simp only [List.nil_append, List.cons.injEq] at h; exact h1 (h.1 ▸ h2)
    | cons a A => cases A <;> cases h
  have list : ∀ {o c : Token} {ts : List Token}, o.tok ∈ leftBrackets → c.tok ∈ rightBrackets → (∀ A op us, ts = A ++ op :: us → IsFieldSign op →
      (∀ t ∈ ts, t.tok ≠ .COMMENT) → (∀ t ∈ us, t.tok ≠ .HASH) → rise us ≤ 0) → ∀ A op us, o :: ts ++ [c] = A ++ op :: us → IsFieldSign op →
      (∀ t ∈ o :: ts ++ [c], t.tok ≠ .COMMENT) → (∀ t ∈ us, t.tok ≠ .HASH) → rise us < 0 := by
    intro o c ts ho hc ih A op us h hop hcm hh
    have hoc : ∀ t : Token, t.tok ∈ leftBrackets ∨ t.tok ∈ rightBrackets → ¬ IsFieldSign t := by
      intro t h
      unfold IsFieldSign
      revert h; generalize t.tok = k; cases k <;> decide
    obtain ⟨X, h1, rfl⟩ := split_last h fun h => hoc c (.inr hc) (h ▸ hop)
    cases A with
    | nil =>
      simp only [List.nil_append, List.cons.injEq] at h1
      exact absurd (h1.1 ▸ hop) (hoc o (.inl ho))
    | cons a A =>
      simp only [List.cons_append, List.cons.injEq] at h1
      have := ih A op X h1.2 hop (fun t ht => hcm t (by simp [ht])) fun t ht => hh t (by simp [ht])
      rw [rise_append, rise_right hc]
      omega
  have sign : ∀ {t : Token}, t.tok = .HASH ∨ t.tok = .LPAREN ∨ t.tok = .COMMA ∨ t.tok = .IDENT → ¬ IsFieldSign t := by
    intro t h
    unfold IsFieldSign
    revert h; generalize t.tok = k; cases k <;> decide
  have headed : ∀ {X Y A us : List Token} {op : Token}, X ++ Y = A ++ op :: us → (∀ t ∈ X, ¬ IsFieldSign t) → IsFieldSign op →
      ∃ A', Y = A' ++ op :: us := by
    intro X Y A us op h hX hop
    rcases List.append_eq_append_iff.mp h with ⟨as, h1, h2⟩ | ⟨bs, h1, h2⟩
    · exact ⟨as, h2⟩
    · cases bs with
      | nil => exact ⟨[], by simpa using h2.symm⟩
      | cons b bs =>
        simp only [List.cons_append, List.cons.injEq] at h2
        exact absurd (h2.1 ▸ hop) (hX b (by rw [h1]; simp))
  induction h with
  | name h => exact fun A op us h1 h2 => (alone h1 (sign (.inr (.inr (.inr h)))) h2).elim
  | single h => exact fun A op us h1 h2 => (alone h1 (single_free h).2.2.2 h2).elim
  | group ho hc _ ih => exact list (by rw [ho]; decide) (by rw [hc]; decide) ih
  | array ho hc _ ih => exact list (by rw [ho]; decide) (by rw [hc]; decide) ih
  | map ho hc _ ih => exact list (by rw [ho]; decide) (by rw [hc]; decide) ih
  | @tag hd ns a b nx h hn =>
    intro A op us h1 h2
    obtain ⟨A', h3⟩ := headed (X := hd :: ns) (Y := []) (by simpa using h1) (by
      intro t ht
      rcases List.mem_cons.mp ht with rfl | ht
      · exact sign (.inl h)
      · exact (nums_free hn t ht).2.2) h2
    cases A' <;> cases h3
  | @tagged hd ns a b o c ts x cs nx h hn ho hc _ ih =>
    intro A op us h1 h2 h3 h4
    rw [List.append_assoc] at h1
    obtain ⟨A', h5⟩ := headed h1 (by
      intro t ht
      rcases List.mem_cons.mp ht with rfl | ht
      · exact sign (.inl h)
      · exact (nums_free hn t ht).2.2) h2
    exact list (by rw [ho]; decide) (by rw [hc]; decide) ih A' op us h5 h2 (fun t ht => h3 t (by
      simp only [List.mem_append, List.mem_cons] at ht ⊢; tauto)) h4
  | @noRange op' ts a cs nx ho _ _ ih =>
    intro A op us h1 h2 h3 h4
    obtain ⟨X, h5, rfl⟩ := split_last h1 fun h => (bound_infix ho).2 (h ▸ h2)
    have : rise X < 0 := ih A op X h5 h2 (fun t ht => h3 t (by simp [ht])) fun t ht => h4 t (by simp [ht])
    show rise _ < 0
    rw [rise_append, infix_rise (bound_infix ho).1]
    omega
  | noted _ _ _ ht => exact fun A op us _ _ h3 => absurd ht.1 (h3 _ (by simp))
  | only _ _ _ ih => exact fun A op us h1 h2 h3 h4 => Int.le_of_lt (ih A op us h1 h2 h3 h4)
  | @comma ts c x cs nx hc _ ih =>
    intro A op us h1 h2 h3 h4
    obtain ⟨X, h5, rfl⟩ := split_last h1 fun h => sign (.inr (.inr (.inl hc))) (h ▸ h2)
    have : rise X < 0 := ih A op X h5 h2 (fun t ht => h3 t (by simp [ht])) fun t ht => h4 t (by simp [ht])
    show rise _ ≤ 0
    rw [rise_append, rise_other (t := c) (by rw [hc]; decide) (by rw [hc]; decide)]
    omega
  | @marked m f ts x y cs nx hm _ ih =>
    intro A op us h1 h2 h3 h4
    obtain ⟨A', h5⟩ := headed (X := [m]) h1 (by simpa using (marked_free hm).2.2) h2
    exact ih A' op us h5 h2 (fun t ht => h3 t (List.mem_cons_of_mem _ ht)) h4
  | @unclosed hd ns a b o ts x cs nx h hn ho _ _ ih =>
    intro A op us h1 h2 h3 h4
    obtain ⟨A', h5⟩ := headed (X := hd :: ns ++ [o]) (Y := ts) (by simpa using h1) (by
      intro t ht
      simp only [List.mem_append, List.mem_cons, List.not_mem_nil, or_false] at ht
      rcases ht with (rfl | ht) | rfl
      · exact sign (.inl h)
      · exact (nums_free hn t ht).2.2
      · exact sign (.inr (.inl ho))) h2
    exact ih A' op us h5 h2 (fun t ht => h3 t (by simp [ht])) h4
  | @joined op' f ts us' a b y cs ds es nx ha hb hj _ ih1 ih2 =>
    intro A op us h1 h2 h3 h4
    rcases split_mid h1 with ⟨X, h5, rfl⟩ | ⟨-, rfl, rfl⟩ | ⟨A', h5, -⟩
    · have k1 : rise X < 0 := ih1 A op X h5 h2 (fun t ht => h3 t (by simp [ht])) fun t ht => h4 t (by simp [ht])
      have k2 := (lang_rise hb).2 fun t ht => h4 t (List.mem_append_right _ (List.mem_cons_of_mem _ ht))
      show rise _ ≤ 0
      rw [rise_append, rise_cons, infix_rise (joined_infix hj), k2]
      omega
    · exact Int.le_of_eq ((lang_rise hb).2 h4)
    · exact ih2 A' op us h5 h2 (fun t ht => h3 t (List.mem_append_right _ (List.mem_cons_of_mem _ ht))) h4
  | skip hc => exact fun A op us _ _ h3 => absurd hc (h3 _ (by simp))
  | nil => intro A op us h; cases A <;> cases h
  | @cons ts us' x xs cs ds nx h1 h2 ih1 ih2 =>
    intro A op us h3 h4 h5 h6
    rcases List.append_eq_append_iff.mp h3 with ⟨as, k1, k2⟩ | ⟨bs, k1, k2⟩
    · exact ih2 as op us k2 h4 (fun t ht => h5 t (by simp [ht])) h6
    · cases bs with
      | nil => exact ih2 [] op us (by simpa using k2.symm) h4 (fun t ht => h5 t (by simp [ht])) h6
      | cons b bs =>
        simp only [List.cons_append, List.cons.injEq] at k2
        obtain ⟨rfl, rfl⟩ := k2
        have j1 : rise bs ≤ 0 := ih1 A op bs k1 h4 (fun t ht => h5 t (by simp [ht])) fun t ht => h6 t (by simp [ht])
        have j2 := (lang_rise h2).2 fun t ht => h6 t (by simp [ht])
        show rise _ ≤ 0
        rw [rise_append, j2]
        omega

/-! ### Values of fields -/

/-- A lower end and the operator of a range. -/
theorem range_start {t op : Token} (h : t.tok = .IDENT ∨ IsNumber t) (h' : op.tok = .INCLUSIVE_BOUND ∨ op.tok = .EXCLUSIVE_BOUND) :
    rise [t] = 0 ∧ rise [op] = 0 ∧ t.tok ≠ .HASH ∧ op.tok ≠ .HASH := by
  have h0 : t.tok = .IDENT ∨ t.tok = .INT ∨ t.tok = .FLOAT := by
    rcases h with h | h | h
    · exact .inl h
    · exact .inr (.inl h.1)
    · exact .inr (.inr h.1)
  refine ⟨?_, infix_rise ?_, ?_, ?_⟩
  · apply rise_other <;> (revert h0; generalize t.tok = k; cases k <;> decide)
  · revert h'; generalize op.tok = k; cases k <;> decide
  · revert h0; generalize t.tok = k; cases k <;> decide
  · revert h'; generalize op.tok = k; cases k <;> decide

theorem value_level {us} (h : FieldValue us) : WellNested us ∧ (∀ t ∈ us, t.tok ≠ .HASH) ∧ us ≠ [] := by
  induction h with
  | @one t h =>
    simp only [List.mem_cons, List.mem_append, not_or] at h
    have h0 := rise_other (t := t) (by simp_all) (by simp_all)
    refine ⟨⟨h0, ?_⟩, by simp_all, by simp⟩
    intro V W e
    cases V with
    | nil => exact Int.le_refl _
    | cons v V =>
      simp only [List.cons_append, List.cons.injEq] at e
      obtain ⟨rfl, e⟩ := e
      obtain ⟨rfl, -⟩ := List.append_eq_nil_iff.mp e.symm
      omega
  | @list o c ts ho hc hl hh =>
    refine ⟨⟨by rw [list_rise ho hc]; exact hl.1, ?_⟩, ?_, by simp⟩
    · intro V W e
      cases V with
      | nil => exact Int.le_refl _
      | cons v V =>
        simp only [List.cons_append, List.cons.injEq] at e
        obtain ⟨rfl, e⟩ := e
        rcases List.eq_nil_or_concat W with rfl | ⟨W, w, rfl⟩
        · rw [List.append_nil] at e
          rw [← e, show o :: (ts ++ [c]) = o :: ts ++ [c] from rfl, list_rise ho hc, hl.1]
          exact Int.le_refl _
        · rw [List.concat_eq_append, ← List.append_assoc] at e
          obtain ⟨e, -⟩ := List.append_inj' e rfl
          have := hl.2 V W e
          rw [rise_cons, rise_left ho]
          omega
    · intro t ht
      simp only [List.cons_append, List.mem_cons, List.mem_append, List.not_mem_nil, or_false] at ht
      rcases ht with rfl | ht | rfl
      · intro h; rw [h] at ho; revert ho; decide
      · exact hh t ht
      · intro h; rw [h] at hc; revert hc; decide
  | @more ts us op _ hop _ ih1 ih2 =>
    have h0 : rise [op] = 0 := infix_rise (by revert hop; generalize op.tok = k; cases k <;> decide)
    refine ⟨⟨by rw [rise_append, rise_cons, h0, ih1.1.1, ih2.1.1]; rfl, ?_⟩, ?_, by simp⟩
    · intro V W e
      rcases List.append_eq_append_iff.mp e with ⟨as, h1, h2⟩ | ⟨bs, h1, h2⟩
      · rw [h1, rise_append, ih1.1.1]
        cases as with
        | nil => decide
        | cons a as =>
          simp only [List.cons_append, List.cons.injEq] at h2
          obtain ⟨rfl, h2⟩ := h2
          have := ih2.1.2 as W h2
          rw [rise_cons, h0]
          omega
      · exact ih1.1.2 V bs h1
    · intro t ht
      simp only [List.mem_append, List.mem_cons] at ht
      rcases ht with ht | rfl | ht
      · exact ih1.2.1 t ht
      · intro h; rw [h] at hop; revert hop; decide
      · exact ih2.2.1 t ht
  | @range t us op ht hop _ ih =>
    obtain ⟨h1, h2, h3, h4⟩ := range_start ht hop
    refine ⟨⟨by rw [rise_cons, rise_cons op, h1, h2, ih.1.1]; rfl, ?_⟩, ?_, by simp⟩
    · intro V W e
      match V, e with
      | [], _ => exact Int.le_refl _
      | [a], e =>
        simp only [List.cons_append, List.cons.injEq] at e
        rw [← e.1, h1]
        exact Int.le_refl _
      | a :: b :: V, e =>
        simp only [List.cons_append, List.cons.injEq] at e
        obtain ⟨rfl, rfl, e⟩ := e
        have := ih.1.2 V W e
        rw [rise_cons, rise_cons op, h1, h2]
        omega
    · intro x hx
      simp only [List.mem_cons] at hx
      rcases hx with rfl | rfl | hx
      · exact h3
      · exact h4
      · exact ih.2.1 x hx

/-- Between the parts of a value there is an operator. -/
theorem value_parts {us} (h : FieldValue us) : ∀ V v w W, us = V ++ v :: w :: W → rise (V ++ [v]) = 0 →
    (v.tok ∈ separators ∨ w.tok ∈ separators) ∨ (w.tok = .INCLUSIVE_BOUND ∨ w.tok = .EXCLUSIVE_BOUND) ∨
      (v.tok = .INCLUSIVE_BOUND ∨ v.tok = .EXCLUSIVE_BOUND) ∧ ∃ V' t, V = V' ++ [t] ∧ (t.tok = .IDENT ∨ IsNumber t) := by
  induction h with
  | one _ =>
    intro V v w W e
    cases V with
    | nil => cases e
    | cons a V => cases V <;> cases e
  | @list o c ts ho hc hl hh =>
    intro V v w W e hr
    exfalso
    rcases List.eq_nil_or_concat W with rfl | ⟨W, x, rfl⟩
    · have : o :: ts ++ [c] = (V ++ [v]) ++ [w] := by rw [e]; simp
      obtain ⟨h1, -⟩ := List.append_inj' this rfl
      rw [← h1, rise_cons, rise_left ho, hl.1] at hr
      omega
    · have : o :: ts ++ [c] = (V ++ [v] ++ w :: W) ++ [x] := by rw [e]; simp
      obtain ⟨h1, -⟩ := List.append_inj' this rfl
      cases V with
      | nil =>
        simp only [List.nil_append, List.cons_append, List.cons.injEq] at h1
        rw [← h1.1, List.nil_append, rise_left ho] at hr
        omega
      | cons a V =>
        simp only [List.cons_append, List.cons.injEq] at h1
        have := hl.2 (V ++ [v]) (w :: W) (by rw [h1.2])
        rw [← h1.1, List.cons_append, rise_cons, rise_left ho] at hr
        omega
  | @more ts us op h1 hop h2 ih1 ih2 =>
    intro V v w W e hr
    have h0 : rise [op] = 0 := infix_rise (by revert hop; generalize op.tok = k; cases k <;> decide)
    rcases split_mid e with ⟨X, k1, k2⟩ | ⟨-, rfl, -⟩ | ⟨A', k1, k2⟩
    · cases X with
      | nil =>
        simp only [List.nil_append, List.cons.injEq] at k2
        exact .inl (.inr (k2.1 ▸ hop))
      | cons x X =>
        simp only [List.cons_append, List.cons.injEq] at k2
        exact ih1 V v w X (by rw [k1, k2.1]) hr
    · exact .inl (.inl hop)
    · have := ih2 A' v w W k1 ?_
      · rcases this with h | h | ⟨h, V', t, rfl, ht⟩
        · exact .inl h
        · exact .inr (.inl h)
        · exact .inr (.inr ⟨h, ts ++ op :: V', t, by rw [k2]; simp, ht⟩)
      rw [k2, List.append_assoc, rise_append, List.cons_append, rise_cons, h0, (value_level h1).1.1] at hr
      omega
  | @range t us op ht hop h2 ih =>
    intro V v w W e hr
    obtain ⟨h1, h0, -, -⟩ := range_start ht hop
    match V, e with
    | [], e =>
      simp only [List.nil_append, List.cons.injEq] at e
      exact .inr (.inl (e.2.1 ▸ hop))
    | [a], e =>
      simp only [List.cons_append, List.nil_append, List.cons.injEq] at e
      obtain ⟨rfl, rfl, -⟩ := e
      exact .inr (.inr ⟨hop, [], t, rfl, ht⟩)
    | a :: b :: V, e =>
      simp only [List.cons_append, List.cons.injEq] at e
      obtain ⟨rfl, rfl, e⟩ := e
      rw [List.cons_append, List.cons_append, rise_cons, rise_cons op, h1, h0] at hr
      rcases ih V v w W e (by omega) with h | h | ⟨h, V', x, rfl, hx⟩
      · exact .inl h
      · exact .inr (.inl h)
      · exact .inr (.inr ⟨h, t :: op :: V', x, rfl, hx⟩)

end Cddlc
