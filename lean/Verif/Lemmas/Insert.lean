import Verif.Lemmas.Brackets

/-! Comments can be put into the parts of a file. -/

namespace Cddlc
open Spec

/-! ### Trees -/

theorem noNotes_ident {x i} (h : noNotes x = .ident i) : x = .ident i := by cases x <;> simp_all [noNotes]
theorem noNotes_intLit {x p t v} (h : noNotes x = .intLit p t v) : x = .intLit p t v := by cases x <;> simp_all [noNotes]
theorem noNotes_floatLit {x p t v} (h : noNotes x = .floatLit p t v) : x = .floatLit p t v := by cases x <;> simp_all [noNotes]
theorem noNotes_tstr {x s} (h : noNotes x = .tstr s) : x = .tstr s := by cases x <;> simp_all [noNotes]

/-- The first token behind `m`, before and after comments are put there. -/
def Grown (m f f' : Token) : Prop :=
  f' = f ∨ f'.tok = .COMMENT ∧ m.tok ≠ .REGEXP ∧ (m.tok = .ZERO_OR_MORE ∨ m.tok = .ONE_OR_MORE → ¬ (f.tok = .INT ∧ f.lit ≠ b!"int"))

theorem upper_grown {m f f' u} (h : Upper f u) (hs : Grown m f f') (hm : m.tok = .ZERO_OR_MORE ∨ m.tok = .ONE_OR_MORE) :
    Upper f' u := by
  rcases hs with rfl | ⟨h1, -, h3⟩
  · exact h
  · cases h with
    | none _ => exact .none (by rw [h1]; rintro ⟨h, -⟩; cases h)
    | some h h' _ => exact absurd ⟨h, h'⟩ (h3 hm)

theorem keptEnd_grown {a b hi} (h : keptEnd (noNotes a) (noNotes b) = some hi) : ∃ hi', keptEnd a b = some hi' ∧ noNotes hi' = hi := by
  cases a with
  | ident i => cases h; exact ⟨b, rfl, rfl⟩
  | intLit p t v => cases b <;> cases h <;> exact ⟨_, rfl, rfl⟩
  | floatLit p t v => cases b <;> cases h <;> exact ⟨_, rfl, rfl⟩
  | _ => cases h

theorem joined_grown {op f f' a b y es} (h : Joined op f (noNotes a) (noNotes b) y es) (hs : Grown op f f') :
    ∃ y', Joined op f' a b y' es ∧ noNotes y' = y ∧
      (op.tok = .COLON ∨ op.tok = .ARROW_MAP → ∃ r i v, y' = .entry r i v none) := by
  generalize ha : noNotes a = a0 at h
  generalize hb : noNotes b = b0 at h
  cases h with
  | field h =>
    obtain rfl := noNotes_ident ha
    exact ⟨_, .field h, by simp [noNotes, hb], fun _ => ⟨_, _, _, rfl⟩⟩
  | keyed h =>
    obtain rfl := noNotes_intLit ha
    exact ⟨_, .keyed h, by simp [noNotes, hb], fun _ => ⟨_, _, _, rfl⟩⟩
  | choice h => exact ⟨_, .choice h, by simp [noNotes, ha, hb], fun h' => by rcases h with h | h <;> rw [h] at h' <;> simp at h'⟩
  | size h1 h2 =>
    exact ⟨_, .size h1 (by rw [← ha, noNotes_kind] at h2; exact h2), by simp [noNotes, ha, hb], fun h' => by rw [h1] at h'; simp at h'⟩
  | regexp h1 h2 =>
    obtain rfl := noNotes_tstr ha
    rcases hs with rfl | ⟨-, h, -⟩
    · exact ⟨_, .regexp h1 h2, by simp [noNotes, hb], fun h' => by rw [h1] at h'; simp at h'⟩
    · exact absurd h1 h
  | bits h => exact ⟨_, .bits h, by simp [noNotes, ha, hb], fun h' => by rw [h] at h'; simp at h'⟩
  | compare h1 h2 =>
    exact ⟨_, .compare h1 (by rw [← ha, noNotes_kind] at h2; exact h2), by simp [noNotes, hb], fun h' => by
      rcases h' with h' | h' <;> rw [h'] at h1 <;> simp at h1⟩
  | occ h1 h2 h3 =>
    obtain rfl := noNotes_intLit ha
    exact ⟨_, .occ h1 h2 (upper_grown h3 hs h1), by simp [noNotes, hb], fun h' => by rcases h1 with h | h <;> rw [h] at h' <;> simp at h'⟩
  | range h1 h2 =>
    subst ha hb
    obtain ⟨hi', h3, h4⟩ := keptEnd_grown h2
    rw [rangeChecks_notes]
    exact ⟨_, .range h1 h3, by simp [noNotes, h4], fun h' => by rcases h1 with h | h <;> rw [h] at h' <;> simp at h'⟩

theorem marked_grown {m f f' x y} (h : Marked m f (noNotes x) y) (hs : Grown m f f') : ∃ y', Marked m f' x y' ∧ noNotes y' = y := by
  generalize hx : noNotes x = x0 at h
  cases h with
  | optional h => exact ⟨_, .optional h, by simp [noNotes, hx]⟩
  | unwrap h => exact ⟨_, .unwrap h, by simp [noNotes, hx]⟩
  | enumeration h => exact ⟨_, .enumeration h, by simp [noNotes, hx]⟩
  | any h h' => exact ⟨_, .any h (upper_grown h' hs (.inl h)), by simp [noNotes, hx]⟩
  | some h h' => exact ⟨_, .some h (upper_grown h' hs (.inr h)), by simp [noNotes, hx]⟩

/-! ### Tokens with the comments in front of them -/

abbrev Deco := List (List Token × Token)

def bare (D : Deco) : List Token := D.map (·.2)
def flat (D : Deco) : List Token := D.flatMap fun d => d.1 ++ [d.2]
/-- without the comments in front of the first token -/
def trimmed : Deco → List Token
  | [] => []
  | d :: D => d.2 :: flat D

theorem bare_append (D E : Deco) : bare (D ++ E) = bare D ++ bare E := List.map_append
theorem flat_append (D E : Deco) : flat (D ++ E) = flat D ++ flat E := List.flatMap_append
theorem flat_cons (d : List Token × Token) (D : Deco) : flat (d :: D) = d.1 ++ d.2 :: flat D := by simp [flat]
theorem flat_nil : flat [] = [] := rfl
theorem flat_trimmed (g t) (D : Deco) : flat ((g, t) :: D) = g ++ trimmed ((g, t) :: D) := by simp [flat_cons, trimmed]
theorem trimmed_append {D : Deco} (h : D ≠ []) (E : Deco) : trimmed (D ++ E) = trimmed D ++ flat E := by
  cases D with
  | nil => exact absurd rfl h
  | cons d D => simp [trimmed, flat_append]

theorem trimmed_last {D : Deco} : (trimmed D).getLast? = (bare D).getLast? := by
  rcases List.eq_nil_or_concat D with rfl | ⟨D, d, rfl⟩
  · rfl
  · rw [List.concat_eq_append, bare_append]
    cases D with
    | nil => simp [trimmed, bare, flat]
    | cons e D =>
      rw [trimmed_append (by simp)]
      simp only [flat, List.flatMap_cons, List.flatMap_nil, List.append_nil, bare, List.map_cons, List.map_nil]
      rw [← List.append_assoc, List.getLast?_concat, List.getLast?_concat]

theorem flat_last {D : Deco} : (flat D).getLast? = (bare D).getLast? := by
  rcases List.eq_nil_or_concat D with rfl | ⟨D, d, rfl⟩
  · rfl
  · rw [List.concat_eq_append, bare_append, flat_append]
    simp [bare, flat]

/-- The comments stand where they can be; `P` are the tokens in front. -/
structure FitIn (P : List Token) (D : Deco) : Prop where
  comments : ∀ d ∈ D, ∀ g ∈ d.1, g.tok = .COMMENT
  lines : ∀ d ∈ D, ∀ X a b Y, d.1 = X ++ a :: b :: Y → a.pos.line ≠ b.pos.line
  code : ∀ d ∈ D, d.2.tok ≠ .COMMENT
  pairs : ∀ A gl l gs r B, D = A ++ (gl, l) :: (gs, r) :: B → gs ≠ [] → Placed (P ++ bare A) l gs r

theorem FitIn.left {P D E} (h : FitIn P (D ++ E)) : FitIn P D where
  comments := fun d hd => h.comments d (by simp [hd])
  lines := fun d hd => h.lines d (by simp [hd])
  code := fun d hd => h.code d (by simp [hd])
  pairs := fun A gl l gs r B e => h.pairs A gl l gs r (B ++ E) (by simp [e])

theorem FitIn.right {P D E} (h : FitIn P (D ++ E)) : FitIn (P ++ bare D) E where
  comments := fun d hd => h.comments d (by simp [hd])
  lines := fun d hd => h.lines d (by simp [hd])
  code := fun d hd => h.code d (by simp [hd])
  pairs := fun A gl l gs r B e => by
    have := h.pairs (D ++ A) gl l gs r B (by simp [e])
    rwa [bare_append, ← List.append_assoc] at this

theorem FitIn.first {P k g t D} (h : FitIn P ((k ++ g, t) :: D)) : FitIn P ((g, t) :: D) where
  comments := fun d hd => by
    rcases List.mem_cons.mp hd with rfl | hd
    · exact fun c hc => h.comments _ (List.mem_cons_self ..) c (by simp only [List.mem_append]; exact .inr hc)
    · exact h.comments d (by simp [hd])
  lines := fun d hd => by
    rcases List.mem_cons.mp hd with rfl | hd
    · exact fun X a b Y e => h.lines _ (List.mem_cons_self ..) (k ++ X) a b Y (by simp only at e; simp [e])
    · exact h.lines d (by simp [hd])
  code := fun d hd => by
    rcases List.mem_cons.mp hd with rfl | hd
    · exact h.code (k ++ g, t) (List.mem_cons_self ..)
    · exact h.code d (by simp [hd])
  pairs := fun A gl l gs r B e hg => by
    cases A with
    | nil =>
      simp only [List.nil_append, List.cons.injEq, Prod.mk.injEq] at e
      exact h.pairs [] (k ++ g) l gs r B (by rw [e.1.2, e.2]; rfl) hg
    | cons a A =>
      simp only [List.cons_append, List.cons.injEq] at e
      have := h.pairs ((k ++ g, t) :: A) gl l gs r B (by rw [e.2]; rfl) hg
      simpa [bare, ← e.1] using this

theorem bare_code {P D} (h : FitIn P D) : ∀ t ∈ bare D, t.tok ≠ .COMMENT := by
  intro t ht
  obtain ⟨d, hd, rfl⟩ := List.mem_map.mp ht
  exact h.code d hd

theorem bare_split {D : Deco} {ts us : List Token} (h : bare D = ts ++ us) : ∃ D1 D2, D = D1 ++ D2 ∧ bare D1 = ts ∧ bare D2 = us :=
  List.map_eq_append_iff.mp h

theorem bare_cons {D : Deco} {t : Token} {ts : List Token} (h : bare D = t :: ts) : ∃ g E, D = (g, t) :: E ∧ bare E = ts := by
  obtain ⟨d, E, rfl, h1, h2⟩ := List.map_eq_cons_iff.mp h
  exact ⟨d.1, E, by rw [← h1], h2⟩

theorem bare_one {D : Deco} {t : Token} (h : bare D = [t]) : ∃ g, D = [(g, t)] := by
  obtain ⟨g, E, rfl, h'⟩ := bare_cons h
  obtain rfl : E = [] := List.map_eq_nil_iff.mp h'
  exact ⟨g, rfl⟩

/-! ### The last tokens -/

/-- The last token of a part without comments. -/
def LastOk : Part → List Token → Prop
  | .operand _, ts => ∃ l, ts.getLast? = some l ∧ l.tok ∉ breaks ∧ l.tok ∉ separators
  | .entry _, ts => ∃ l, ts.getLast? = some l ∧ (l.tok ∈ breaks → l.tok = .COMMA) ∧ l.tok ∉ separators
  | .entries _, _ => True

theorem lang_lastOk {part ts nx cs} (h : Lang part ts nx cs) : (∀ t ∈ ts, t.tok ≠ .COMMENT) → LastOk part ts := by
  have num : ∀ {t : Token}, t.tok = .INT ∨ t.tok = .FLOAT ∨ t.tok = .IDENT ∨ t.tok = .HASH ∨ t.tok ∈ rightBrackets ∨ t.tok = .INCLUSIVE_BOUND ∨
      t.tok = .EXCLUSIVE_BOUND → t.tok ∉ breaks ∧ t.tok ∉ separators := by
    intro t h; revert h; generalize t.tok = k; cases k <;> decide
  induction h with
  | name h => exact fun _ => ⟨_, rfl, num (.inr (.inr (.inl h)))⟩
  | @single t x nx h =>
    refine fun _ => ⟨t, rfl, ?_⟩
    obtain ⟨h1, h2⟩ := single_starter h
    obtain ⟨h3, -, -, h6⟩ := single_free h
    unfold IsFieldSign at h6
    revert h1 h2 h3 h6
    generalize t.tok = k
    cases k <;> decide
  | group _ h => exact fun _ => ⟨_, List.getLast?_concat, num (.inr (.inr (.inr (.inr (.inl (by rw [h]; decide))))))⟩
  | array _ h => exact fun _ => ⟨_, List.getLast?_concat, num (.inr (.inr (.inr (.inr (.inl (by rw [h]; decide))))))⟩
  | map _ h => exact fun _ => ⟨_, List.getLast?_concat, num (.inr (.inr (.inr (.inr (.inl (by rw [h]; decide))))))⟩
  | tag h hn =>
    intro _
    cases hn with
    | none => exact ⟨_, rfl, num (.inr (.inr (.inr (.inl h))))⟩
    | major h => exact ⟨_, rfl, num (.inl h)⟩
    | both h => exact ⟨_, rfl, num (.inr (.inl h))⟩
  | tagged _ _ _ h => exact fun _ => ⟨_, List.getLast?_concat, num (.inr (.inr (.inr (.inr (.inl (by rw [h]; decide))))))⟩
  | noRange h => exact fun _ => ⟨_, List.getLast?_concat, num (.inr (.inr (.inr (.inr (.inr h)))))⟩
  | noted _ _ _ ht => exact fun h => absurd ht.1 (h _ (by simp))
  | only _ _ _ ih =>
    intro h
    obtain ⟨l, h1, h2, h3⟩ := ih h
    exact ⟨l, h1, fun h => absurd h h2, h3⟩
  | comma hc => exact fun _ => ⟨_, List.getLast?_concat, fun _ => hc, by rw [hc]; decide⟩
  | marked _ _ ih =>
    intro h
    obtain ⟨l, h1, h2⟩ := ih fun t ht => h t (List.mem_cons_of_mem _ ht)
    exact ⟨l, by rw [List.getLast?_cons_cons]; exact h1, h2⟩
  | @unclosed hd ns a b o ts x cs nx _ _ _ _ hx ih =>
    intro h
    obtain ⟨l, h1, h2⟩ := ih fun t ht => h t (by simp [ht])
    refine ⟨l, ?_, h2⟩
    cases ts with
    | nil => cases h1
    | cons t ts => rw [last_append, List.getLast?_cons_cons]; exact h1
  | joined _ _ _ _ _ ih =>
    intro h
    obtain ⟨l, h1, h2⟩ := ih fun t ht => h t (List.mem_append_right _ (List.mem_cons_of_mem _ ht))
    exact ⟨l, by rw [last_append, List.getLast?_cons_cons]; exact h1, h2⟩
  | skip hc => exact fun h => absurd hc (h _ (by simp))
  | nil => exact fun _ => trivial
  | cons => exact fun _ => trivial

theorem lang_head_ok {x ts nx cs} (h : Lang (.entry x) ts nx cs) (hc : ∀ t ∈ ts, t.tok ≠ .COMMENT) : ∃ w W, ts = w :: W ∧ w.tok ∈ starters := by
  obtain ⟨gs, t, us, rfl, h1, h2⟩ := lang_head h _ rfl
  cases gs with
  | nil => exact ⟨t, us, rfl, h2⟩
  | cons g gs => exact absurd (h1 g (by simp)) (hc g (by simp))

/-! ### Where fields end -/

/-- No field that begins in `P` goes on behind it. -/
def Shut (P : List Token) : Prop :=
  ∀ A op us, P = A ++ op :: us → IsFieldSign op → ∀ w W, w.tok ∈ starters → 0 ≤ rise (w :: W) → ¬ FieldValue (us ++ w :: W)

theorem shut_open {P : List Token} {o : Token} (ho : o.tok ∈ leftBrackets) : Shut (P ++ [o]) := by
  intro A op us h hop w W _ hr hv
  obtain ⟨X, -, rfl⟩ := split_last h fun h => by
    rw [h] at ho
    unfold IsFieldSign at hop
    revert ho hop; generalize op.tok = k; cases k <;> decide
  obtain ⟨⟨h1, h2⟩, -⟩ := value_level hv
  have h3 := h2 X ([o] ++ w :: W) (by simp)
  rw [rise_append, rise_append, rise_left ho] at h1
  omega

theorem starter_separator {t : Tok} (h : t ∈ starters) : t ∉ separators ∧ t ≠ .COMMA := by
  revert h; cases t <;> decide

theorem split_two {X Y A U : List Token} {op : Token} (h : X ++ Y = A ++ op :: U) :
    (∃ X', X = A ++ op :: X' ∧ U = X' ++ Y) ∨ (∃ A', Y = A' ++ op :: U) := by
  cases Y with
  | nil => exact .inl ⟨U, by simpa using h, by simp⟩
  | cons y Y =>
    rcases split_mid h with h | ⟨-, rfl, rfl⟩ | ⟨A', h, -⟩
    · exact .inl h
    · exact .inr ⟨[], rfl⟩
    · exact .inr ⟨y :: A', by rw [h]; rfl⟩

/-- An operand that ends with a name or a number is one, or a tag. -/
theorem operand_number {a Z t nx cs} (h : Lang (.operand a) (Z ++ [t]) nx cs) (hc : ∀ u ∈ Z ++ [t], u.tok ≠ .COMMENT)
    (ht : t.tok = .IDENT ∨ IsNumber t) : a.kind ∈ [NodeKind.ident, .intLit, .floatLit] ∨ ∃ Z' h, Z = Z' ++ [h] ∧ h.tok = .HASH := by
  have h0 : t.tok = .IDENT ∨ t.tok = .INT ∨ t.tok = .FLOAT := by
    rcases ht with h | h | h
    · exact .inl h
    · exact .inr (.inl h.1)
    · exact .inr (.inr h.1)
  generalize hp : Part.operand a = part at h
  generalize hz : Z ++ [t] = zs at h hc
  have last : ∀ {X : List Token} {c : Token}, Z ++ [t] = X ++ [c] → t = c := fun h => by
    have := (List.append_inj' h rfl).2
    simpa using this
  cases h with
  | name h => cases hp; exact .inl (by simp [Node.kind])
  | @single u x nx h =>
    cases hp
    obtain rfl := last (X := []) hz
    refine .inl ?_
    cases h <;> first | (simp [Node.kind]; done) | (rcases ht with ht | ht | ht <;> simp_all)
  | group _ h => rw [last (X := _ :: _) hz, h] at h0; simp at h0
  | array _ h => rw [last (X := _ :: _) hz, h] at h0; simp at h0
  | map _ h => rw [last (X := _ :: _) hz, h] at h0; simp at h0
  | tag h hn =>
    cases hn with
    | none => rw [last (X := []) hz, h] at h0; simp at h0
    | major _ => exact .inr ⟨[], _, (List.append_inj' (t₁ := [_]) (s₂ := [_]) hz rfl).1, h⟩
    | both _ => exact .inr ⟨[], _, (List.append_inj' (t₁ := [_]) (s₂ := [_]) hz rfl).1, h⟩
  | tagged _ _ _ h => rw [last hz, h] at h0; simp at h0
  | noRange h => rw [last hz] at h0; rcases h with h | h <;> rw [h] at h0 <;> simp at h0
  | noted _ _ _ ht => exact absurd ht.1 (hc _ (by simp))
  | _ => cases hp

theorem two_last {X Y Z : List Token} {t v : Token} (h : X ++ Y = Z ++ [t, v]) (hY : Y ≠ []) :
    Y = [v] ∨ ∃ Z', Y = Z' ++ [t, v] ∧ Z = X ++ Z' := by
  rcases List.eq_nil_or_concat Y with rfl | ⟨Y, y, rfl⟩
  · exact absurd rfl hY
  rw [List.concat_eq_append] at *
  rw [← List.append_assoc, show Z ++ [t, v] = Z ++ [t] ++ [v] by simp] at h
  obtain ⟨h1, h2⟩ := List.append_inj' h rfl
  obtain rfl : y = v := by simpa using h2
  rcases List.eq_nil_or_concat Y with rfl | ⟨Y, x, rfl⟩
  · exact .inl rfl
  rw [List.concat_eq_append] at *
  rw [← List.append_assoc] at h1
  obtain ⟨h3, h4⟩ := List.append_inj' (t₁ := [x]) (t₂ := [t]) h1 rfl
  obtain rfl : x = t := by simpa using h4
  exact .inr ⟨Y, by simp, h3.symm⟩

/-- The operator of a range can be the last token only if there is no name or number in front of it, but that of a tag. -/
theorem lang_bound {part ts nx cs} (h : Lang part ts nx cs) : (∀ xs, part ≠ .entries xs) → (∀ t ∈ ts, t.tok ≠ .COMMENT) →
    ∀ Z t v, ts = Z ++ [t, v] → (v.tok = .INCLUSIVE_BOUND ∨ v.tok = .EXCLUSIVE_BOUND) → (t.tok = .IDENT ∨ IsNumber t) →
      ∃ Z' h, Z = Z' ++ [h] ∧ h.tok = .HASH := by
  have last : ∀ {X Z : List Token} {c t v : Token}, X ++ [c] = Z ++ [t, v] → X = Z ++ [t] ∧ c = v := fun h => by
    rw [show ∀ (Z : List Token) t v, Z ++ [t, v] = Z ++ [t] ++ [v] by simp] at h
    obtain ⟨h1, h2⟩ := List.append_inj' h rfl
    exact ⟨h1, by simpa using h2⟩
  have alone : ∀ {x v nx cs}, Lang (.entry x) [v] nx cs → (∀ t ∈ [v], t.tok ≠ .COMMENT) →
      (v.tok = .INCLUSIVE_BOUND ∨ v.tok = .EXCLUSIVE_BOUND) → False := fun {x v nx cs} h hc hv => by
    obtain ⟨w, W, e, hw⟩ := lang_head_ok h hc
    cases e
    rcases hv with hv | hv <;> rw [hv] at hw <;> revert hw <;> decide
  induction h with
  | name => intro _ _ Z t v e; rcases Z with _ | ⟨_, _ | _⟩ <;> cases e
  | single => intro _ _ Z t v e; rcases Z with _ | ⟨_, _ | _⟩ <;> cases e
  | group _ h => intro _ _ Z t v e hv; rw [← (last e).2, h] at hv; simp at hv
  | array _ h => intro _ _ Z t v e hv; rw [← (last e).2, h] at hv; simp at hv
  | map _ h => intro _ _ Z t v e hv; rw [← (last e).2, h] at hv; simp at hv
  | tag _ hn =>
    intro _ _ Z t v e hv
    cases hn with
    | none => rcases Z with _ | ⟨_, _ | _⟩ <;> cases e
    | major h => rw [← (last (X := [_]) e).2, h] at hv; simp at hv
    | both h => rw [← (last (X := [_]) e).2, h] at hv; simp at hv
  | tagged _ _ _ h => intro _ _ Z t v e hv; rw [← (last e).2, h] at hv; simp at hv
  | noRange _ ha hk =>
    intro _ hc Z t v e hv ht
    obtain ⟨rfl, rfl⟩ := last e
    exact (operand_number ha (fun u hu => hc u (List.mem_append_left _ hu)) ht).resolve_left hk
  | noted _ _ _ ht => exact fun _ h => absurd ht.1 (h _ (by simp))
  | only _ _ _ ih => exact fun _ hc => ih nofun hc
  | comma h => intro _ _ Z t v e hv; rw [← (last e).2, h] at hv; simp at hv
  | @marked m f ts x y cs nx _ h ih =>
    intro _ hc Z t v e hv ht
    have hc' : ∀ t ∈ f :: ts, t.tok ≠ .COMMENT := fun t ht => hc t (List.mem_cons_of_mem _ ht)
    rcases two_last (X := [m]) (Y := f :: ts) e (by simp) with k | ⟨Z', k, rfl⟩
    · rw [k] at h hc'
      exact (alone h hc' hv).elim
    · obtain ⟨Z2, hh, rfl, k2⟩ := ih nofun hc' Z' t v k hv ht
      exact ⟨m :: Z2, hh, rfl, k2⟩
  | @unclosed hd ns a b o ts x cs nx _ _ _ _ h ih =>
    intro _ hc Z t v e hv ht
    have hc' : ∀ t ∈ ts, t.tok ≠ .COMMENT := fun t ht => hc t (by simp [ht])
    obtain ⟨w, W, rfl, -⟩ := lang_head_ok h hc'
    rcases two_last (X := hd :: ns ++ [o]) (Y := w :: W) (by rw [← e]; simp) (by simp) with k | ⟨Z', k, rfl⟩
    · rw [k] at h hc'
      exact (alone h hc' hv).elim
    · obtain ⟨Z2, hh, rfl, k2⟩ := ih nofun hc' Z' t v k hv ht
      exact ⟨hd :: ns ++ [o] ++ Z2, hh, by simp, k2⟩
  | @joined op f ts us a b y cs ds es nx _ h _ _ _ ih =>
    intro _ hc Z t v e hv ht
    have hc' : ∀ t ∈ f :: us, t.tok ≠ .COMMENT := fun t ht => hc t (List.mem_append_right _ (List.mem_cons_of_mem _ ht))
    rcases two_last (X := ts ++ [op]) (Y := f :: us) (by rw [← e]; simp) (by simp) with k | ⟨Z', k, rfl⟩
    · rw [k] at h hc'
      exact (alone h hc' hv).elim
    · obtain ⟨Z2, hh, rfl, k2⟩ := ih nofun hc' Z' t v k hv ht
      exact ⟨ts ++ [op] ++ Z2, hh, by simp, k2⟩
  | skip hc => exact fun _ h => absurd hc (h _ (by simp))
  | nil => exact fun h => absurd rfl (h _)
  | cons => exact fun h => absurd rfl (h _)

theorem shut_entry {P x ts nx cs} (hP : Shut P) (h : Lang (.entry x) ts nx cs) (hc : ∀ t ∈ ts, t.tok ≠ .COMMENT) : Shut (P ++ ts) := by
  intro A op us e hop w W hw hr hv
  obtain ⟨s, S, rfl, hs⟩ := lang_head_ok h hc
  rcases split_two e with ⟨X, rfl, rfl⟩ | ⟨A', h1⟩
  · rw [List.append_assoc, List.cons_append] at hv
    refine hP A op X rfl hop s (S ++ w :: W) hs ?_ hv
    have := (lang_rise h).1
    rw [← List.cons_append, rise_append]
    omega
  · obtain ⟨⟨k1, k2⟩, k3, -⟩ := value_level hv
    have h2 : rise us ≤ 0 := lang_falls h A' op us h1 hop hc fun t ht => k3 t (by simp [ht])
    have h3 := k2 us (w :: W) rfl
    obtain ⟨l, j1, j2, j3⟩ := lang_lastOk h hc
    rcases List.eq_nil_or_concat us with rfl | ⟨V, v, rfl⟩
    · rw [h1] at j1
      obtain rfl : op = l := by simpa using j1
      unfold IsFieldSign at hop
      revert hop j2
      generalize op.tok = k
      cases k <;> decide
    · rw [List.concat_eq_append] at *
      rw [h1] at j1
      obtain rfl : v = l := by
        rw [← List.cons_append, ← List.append_assoc, List.getLast?_concat] at j1
        exact Option.some.inj j1
      rcases value_parts hv V v w W (by simp) (by omega) with (h | h) | hb | ⟨hb, V', t, rfl, ht⟩
      · exact j3 h
      · exact (starter_separator hw).1 h
      · rcases hb with hb | hb <;> rw [hb] at hw <;> revert hw <;> decide
      · obtain ⟨Z, z, e1, e2⟩ := lang_bound h nofun hc (A' ++ op :: V') t v (by rw [h1]; simp) hb ht
        rcases List.eq_nil_or_concat V' with rfl | ⟨V2, y, rfl⟩
        · have := (List.append_inj' e1 rfl).2
          obtain rfl : op = z := by simpa using this
          unfold IsFieldSign at hop
          rw [e2] at hop
          simp at hop
        · rw [List.concat_eq_append, ← List.cons_append, ← List.append_assoc] at e1
          have := (List.append_inj' e1 rfl).2
          obtain rfl : y = z := by simpa using this
          exact k3 y (by simp) e2

/-- The field that ends with an entry is in the entry. -/
theorem ends_entry {P x ts nx cs} (hP : Shut P) (h : Lang (.entry x) ts nx cs) (hc : ∀ t ∈ ts, t.tok ≠ .COMMENT)
    (he : EndsField (P ++ ts)) : EndsField ts := by
  obtain ⟨A, op, us, c, e, hop, hv, hcm⟩ := he
  obtain ⟨s, S, rfl, hs⟩ := lang_head_ok h hc
  have hr := (lang_rise h).1
  rcases hcm with rfl | ⟨d, rfl, hd⟩
  · rw [List.append_nil] at e
    rcases split_two e with ⟨X, rfl, rfl⟩ | ⟨A', h1⟩
    · exact absurd hv (hP A op X rfl hop s S hs hr)
    · exact ⟨A', op, us, [], by simpa using h1, hop, hv, .inl rfl⟩
  · rcases List.eq_nil_or_concat S with rfl | ⟨S, z, rfl⟩
    · obtain ⟨-, e⟩ := List.append_inj' e rfl
      obtain rfl : s = d := by simpa using e
      exact absurd hd (starter_separator hs).2
    · rw [List.concat_eq_append] at *
      rw [show P ++ s :: (S ++ [z]) = (P ++ s :: S) ++ [z] by simp] at e
      obtain ⟨e1, e2⟩ := List.append_inj' e rfl
      obtain rfl : z = d := by simpa using e2
      have hr' : 0 ≤ rise (s :: S) := by
        rw [← List.cons_append, rise_append, rise_other (t := z) (by rw [hd]; decide) (by rw [hd]; decide)] at hr
        omega
      rcases split_two e1 with ⟨X, rfl, rfl⟩ | ⟨A', h1⟩
      · exact absurd hv (hP A op X rfl hop s S hs hr')
      · exact ⟨A', op, us, [z], by rw [← List.cons_append, h1], hop, hv, .inr ⟨z, rfl, hd⟩⟩

/-- An operand does not end with a field. -/
theorem operand_ends {x ts nx cs} (h : Lang (.operand x) ts nx cs) (hc : ∀ t ∈ ts, t.tok ≠ .COMMENT) {A op us vs}
    (e : ts = A ++ op :: us) (hop : IsFieldSign op) (hv : FieldValue (us ++ vs)) : False := by
  obtain ⟨⟨k1, k2⟩, k3, -⟩ := value_level hv
  have h1 : rise us < 0 := lang_falls h A op us e hop hc fun t ht => k3 t (by simp [ht])
  have := k2 us vs rfl
  omega

end Cddlc
