import Verif.Spec.Json
import Verif.Lemmas.Utf8

/-! A text is the text of at most one JSON value. -/

namespace Cddlc
open Spec

theorem span_eq {p : UInt8 → Bool} {a x a' x' : Bytes} (ha : ∀ c ∈ a, p c = true) (ha' : ∀ c ∈ a', p c = true)
    (hx : ∀ c ∈ x.head?, p c = false) (hx' : ∀ c ∈ x'.head?, p c = false) (h : a ++ x = a' ++ x') :
    a = a' ∧ x = x' := by
  induction a generalizing a' with
  | nil =>
    cases a' with
    | nil => exact ⟨rfl, h⟩
    | cons c a' =>
      simp only [List.nil_append] at h
      rw [h] at hx
      have := hx c (by simp)
      rw [ha' c (by simp)] at this
      cases this
  | cons c a ih =>
    cases a' with
    | nil =>
      simp only [List.nil_append] at h
      rw [← h] at hx'
      have := hx' c (by simp)
      rw [ha c (by simp)] at this
      cases this
    | cons c' a' =>
      simp only [List.cons_append, List.cons.injEq] at h
      obtain ⟨rfl, h⟩ := h
      obtain ⟨rfl, rfl⟩ := ih (fun c hc => ha c (by simp [hc])) (fun c hc => ha' c (by simp [hc])) h
      exact ⟨rfl, rfl⟩

/-! ### Characters -/

theorem encChar_inj {c c' : Char} {r r' : Bytes}
    (h : String.utf8EncodeChar c ++ r = String.utf8EncodeChar c' ++ r') : c = c' := by
  have := congrArg decodeRune h
  rw [decodeRune_encChar, decodeRune_encChar] at this
  exact Char.toNat_inj.mp (Prod.mk.inj this).1

theorem encChar_ascii {c : Char} (h : c.toNat < 128) : String.utf8EncodeChar c = [UInt8.ofNat c.toNat] := by
  have hv : c.val.toNat = c.toNat := rfl
  unfold String.utf8EncodeChar
  simp only [hv]
  rw [if_pos (by omega)]

theorem encChar_head {c : Char} {b : UInt8} {r : Bytes} (hb : b.toNat < 128)
    (h : ∃ r', String.utf8EncodeChar c ++ r' = b :: r) : c.toNat = b.toNat := by
  obtain ⟨r', h⟩ := h
  have := congrArg decodeRune h
  rw [decodeRune_encChar, show decodeRune (b :: r) = (b.toNat, 1) by simp only [decodeRune]; rw [if_pos hb]] at this
  exact (Prod.mk.inj this).1

theorem Spec.JUnit.det {t t' r r' : Bytes} {v v'} (h : JUnit t v) (h' : JUnit t' v') (e : t ++ r = t' ++ r') :
    t = t' ∧ v = v' ∧ r = r' := by
  obtain ⟨a, b, c, d, a1, b1, c1, d1, rfl, h1, h2, h3, h4, rfl⟩ := h
  obtain ⟨a', b', c', d', a2, b2, c2, d2, rfl, k1, k2, k3, k4, rfl⟩ := h'
  simp only [List.cons_append, List.nil_append, List.cons.injEq, true_and] at e
  obtain ⟨rfl, rfl, rfl, rfl, rfl⟩ := e
  rw [h1] at k1; rw [h2] at k2; rw [h3] at k3; rw [h4] at k4
  cases k1; cases k2; cases k3; cases k4
  exact ⟨rfl, rfl, rfl⟩

theorem Spec.JUnit.head {t r : Bytes} {v} (h : JUnit t v) : ∃ u, t ++ r = 92 :: 117 :: u := by
  obtain ⟨a, b, c, d, _, _, _, _, rfl, _⟩ := h
  exact ⟨_, rfl⟩

theorem short_ne_u {e : UInt8} {c} (h : (e, c) ∈ jShort) : e ≠ 117 := by
  rintro rfl
  simp [jShort] at h

theorem short_fun {e : UInt8} {c c'} (h : (e, c) ∈ jShort) (h' : (e, c') ∈ jShort) : c = c' := by
  simp only [jShort, List.mem_cons, Prod.mk.injEq, List.not_mem_nil, or_false] at h h'
  rcases h with ⟨rfl, rfl⟩ | ⟨rfl, rfl⟩ | ⟨rfl, rfl⟩ | ⟨rfl, rfl⟩ | ⟨rfl, rfl⟩ | ⟨rfl, rfl⟩ | ⟨rfl, rfl⟩ | ⟨rfl, rfl⟩ <;>
    simpa [eq_comm] using h'

/-- An escape starts with a backslash, other characters do not. -/
theorem raw_no_escape {c : Char} {r u : Bytes} (hc : c ≠ '\\') (h : String.utf8EncodeChar c ++ r = 92 :: u) :
    False := by
  have := encChar_head (c := c) (b := 92) (by decide) ⟨_, h⟩
  exact hc (Char.toNat_inj.mp this)

theorem Spec.JChar.det {t t' r r' : Bytes} {c c'} (h : JChar t c) (h' : JChar t' c') (e : t ++ r = t' ++ r') :
    t = t' ∧ c = c' ∧ r = r' := by
  cases h with
  | raw h1 h2 h3 =>
    cases h' with
    | raw => have := encChar_inj e; subst this; exact ⟨rfl, rfl, List.append_cancel_left e⟩
    | short => exact (raw_no_escape h3 e).elim
    | unit k => obtain ⟨u, k⟩ := k.head (r := r'); rw [k] at e; exact (raw_no_escape h3 e).elim
    | pair k _ => 
      rw [List.append_assoc] at e
      obtain ⟨u, k⟩ := k.head; rw [k] at e; exact (raw_no_escape h3 e).elim
  | short h1 =>
    cases h' with
    | raw _ _ h3 => exact (raw_no_escape h3 e.symm).elim
    | short k1 =>
      simp only [List.cons_append, List.nil_append, List.cons.injEq, true_and] at e
      obtain ⟨rfl, rfl⟩ := e
      exact ⟨rfl, short_fun h1 k1, rfl⟩
    | unit k =>
      obtain ⟨u, k⟩ := k.head (r := r'); rw [k] at e
      simp only [List.cons_append, List.nil_append, List.cons.injEq, true_and] at e
      exact (short_ne_u h1 e.1).elim
    | pair k _ =>
      rw [List.append_assoc] at e
      obtain ⟨u, k⟩ := k.head; rw [k] at e
      simp only [List.cons_append, List.nil_append, List.cons.injEq, true_and] at e
      exact (short_ne_u h1 e.1).elim
  | unit h1 =>
    cases h' with
    | raw _ _ h3 => obtain ⟨u, k⟩ := h1.head (r := r); rw [k] at e; exact (raw_no_escape h3 e.symm).elim
    | short k1 =>
      obtain ⟨u, k⟩ := h1.head (r := r); rw [k] at e
      simp only [List.cons_append, List.nil_append, List.cons.injEq, true_and] at e
      exact (short_ne_u k1 e.1.symm).elim
    | unit k =>
      obtain ⟨rfl, h, rfl⟩ := h1.det k e
      exact ⟨rfl, Char.toNat_inj.mp h, rfl⟩
    | @pair t u hi lo _ k k' hhi hlo hc =>
      rw [List.append_assoc] at e
      obtain ⟨rfl, h, rfl⟩ := h1.det k e
      have := char_range c
      omega
  | @pair t u hi lo _ k k' hhi hlo hc =>
    rw [List.append_assoc] at e
    cases h' with
    | raw _ _ h3 => obtain ⟨w, k⟩ := k.head (r := u ++ r); rw [k] at e; exact (raw_no_escape h3 e.symm).elim
    | short k1 =>
      obtain ⟨w, k⟩ := k.head (r := u ++ r); rw [k] at e
      simp only [List.cons_append, List.nil_append, List.cons.injEq, true_and] at e
      exact (short_ne_u k1 e.1.symm).elim
    | unit h1 =>
      obtain ⟨rfl, h, rfl⟩ := k.det h1 e
      have := char_range c'
      omega
    | @pair t2 u2 hi2 lo2 _ m m' hhi2 hlo2 hc2 =>
      rw [List.append_assoc] at e
      obtain ⟨rfl, h, e⟩ := k.det m e
      obtain ⟨rfl, h', rfl⟩ := k'.det m' e
      exact ⟨rfl, Char.toNat_inj.mp (by omega), rfl⟩

theorem Spec.JChar.no_quote {t : Bytes} {c} (h : JChar t c) {r u : Bytes} : t ++ r ≠ 34 :: u := by
  intro e
  cases h with
  | raw h1 h2 h3 =>
    have := encChar_head (c := c) (b := 34) (by decide) ⟨_, e⟩
    exact h2 (Char.toNat_inj.mp this)
  | short => simp at e
  | unit h => obtain ⟨w, k⟩ := h.head (r := r); rw [k] at e; simp at e
  | pair h => rw [List.append_assoc] at e; obtain ⟨w, k⟩ := h.head (r := _ ++ r); rw [k] at e; simp at e

theorem Spec.JChars.det {t t' r r' : Bytes} {s s'} (h : JChars t s) (h' : JChars t' s')
    (e : t ++ 34 :: r = t' ++ 34 :: r') : t = t' ∧ s = s' ∧ r = r' := by
  induction h generalizing t' s' with
  | nil =>
    cases h' with
    | nil => simp only [List.nil_append, List.cons.injEq, true_and] at e; exact ⟨rfl, rfl, e⟩
    | cons k _ => rw [List.append_assoc] at e; exact (k.no_quote e.symm).elim
  | cons h1 _ ih =>
    cases h' with
    | nil => rw [List.append_assoc] at e; exact (h1.no_quote e).elim
    | cons k k' =>
      rw [List.append_assoc, List.append_assoc] at e
      obtain ⟨rfl, rfl, e⟩ := h1.det k e
      obtain ⟨rfl, rfl, rfl⟩ := ih k' e
      exact ⟨rfl, rfl, rfl⟩

theorem Spec.JString.det {t t' r r' : Bytes} {s s'} (h : JString t s) (h' : JString t' s')
    (e : t ++ r = t' ++ r') : t = t' ∧ s = s' ∧ r = r' := by
  obtain ⟨u, h, rfl⟩ := h
  obtain ⟨u', h', rfl⟩ := h'
  simp only [List.cons_append, List.append_assoc, List.nil_append, List.cons.injEq, true_and] at e
  obtain ⟨rfl, rfl, rfl⟩ := h.det h' e
  exact ⟨rfl, rfl, rfl⟩

/-! ### Values -/

/-- The bytes that can follow a value. -/
def jStop (c : UInt8) : Bool := jWs c || c = 44 || c = 93 || c = 125

/-- The bytes of numbers. -/
def jNum (c : UInt8) : Bool := jDigit c || c = 43 || c = 45 || c = 46 || c = 101 || c = 69

theorem stop_not_num {c : UInt8} (h : jStop c = true) : jNum c = false := by
  revert h
  simp only [jStop, jWs, jNum, jDigit, Bool.or_eq_true, decide_eq_true_eq]
  rintro ((((((rfl | rfl) | rfl) | rfl) | rfl) | rfl) | rfl) <;> decide

theorem Spec.JNumber.bytes {t : Bytes} (h : JNumber t) : ∀ c ∈ t, jNum c = true := by
  obtain ⟨sign, int, frac, exp, rfl, h1, h2, h3, h4⟩ := h
  have dg : ∀ {d : Bytes}, jDigits d → ∀ c ∈ d, jNum c = true := by
    intro d hd c hc; simp [jNum, hd.2 c hc]
  intro c hc
  simp only [List.mem_append] at hc
  rcases hc with ((hc | hc) | hc) | hc
  · rcases h1 with rfl | rfl
    · cases hc
    · rcases List.mem_singleton.mp hc with rfl; decide
  · exact dg h2.1 c hc
  · rcases h3 with rfl | ⟨d, rfl, hd⟩
    · cases hc
    · rcases List.mem_cons.mp hc with rfl | hc
      · decide
      · exact dg hd c hc
  · rcases h4 with rfl | ⟨e, s, d, rfl, he, hs, hd⟩
    · cases hc
    · rcases List.mem_cons.mp hc with rfl | hc
      · rcases he with rfl | rfl <;> decide
      · rcases List.mem_append.mp hc with hc | hc
        · rcases hs with rfl | rfl | rfl
          · cases hc
          · rcases List.mem_singleton.mp hc with rfl; decide
          · rcases List.mem_singleton.mp hc with rfl; decide
        · exact dg hd c hc

theorem Spec.JNumber.head {t : Bytes} (h : JNumber t) : ∃ c u, t = c :: u ∧ (jDigit c = true ∨ c = 45) := by
  obtain ⟨sign, int, frac, exp, rfl, h1, h2, h3, h4⟩ := h
  rcases h1 with rfl | rfl
  · cases int with
    | nil => exact (h2.1.1 rfl).elim
    | cons c u => exact ⟨c, _, rfl, Or.inl (h2.1.2 c (by simp))⟩
  · exact ⟨45, _, rfl, Or.inr rfl⟩

/-- The kind of a value. -/
def kindNo : Json → Nat
  | .null => 0
  | .bool true => 1
  | .bool false => 2
  | .num _ => 3
  | .str _ => 4
  | .arr _ => 5
  | .obj _ => 6

/-- The kind of the value that starts with a byte. -/
def headNo (c : UInt8) : Nat :=
  if c = 110 then 0 else if c = 116 then 1 else if c = 102 then 2 else if c = 34 then 4
  else if c = 91 then 5 else if c = 123 then 6 else if jDigit c || c = 45 then 3 else 7

theorem Spec.JText.head {t : Bytes} {v} (h : JText t v) : ∃ c u, t = c :: u ∧ headNo c = kindNo v ∧ jWs c = false := by
  cases h with
  | null => exact ⟨_, _, rfl, by decide, by decide⟩
  | yes => exact ⟨_, _, rfl, by decide, by decide⟩
  | no => exact ⟨_, _, rfl, by decide, by decide⟩
  | num h =>
    obtain ⟨c, u, rfl, h2⟩ := h.head
    refine ⟨c, u, rfl, ?_⟩
    have : ∀ c : UInt8, (jDigit c = true ∨ c = 45) → headNo c = 3 ∧ jWs c = false := by
      intro c hc
      have key : ∀ n : Fin 256, (jDigit (UInt8.ofNat n) = true ∨ UInt8.ofNat n = 45) →
        headNo (UInt8.ofNat n) = 3 ∧ jWs (UInt8.ofNat n) = false := by decide +kernel
      have := key ⟨c.toNat, c.toNat_lt⟩
      simpa [UInt8.ofNat_toNat] using this (by simpa using hc)
    exact this c h2
  | str h => obtain ⟨u, _, rfl⟩ := h; exact ⟨_, _, rfl, rfl, by decide⟩
  | arr0 => exact ⟨_, _, rfl, rfl, by decide⟩
  | arr => exact ⟨_, _, rfl, rfl, by decide⟩
  | obj0 => exact ⟨_, _, rfl, rfl, by decide⟩
  | obj => exact ⟨_, _, rfl, rfl, by decide⟩

theorem Spec.JText.ws_head {t : Bytes} {v} (h : JText t v) (r : Bytes) : ∀ c ∈ (t ++ r).head?, jWs c = false := by
  obtain ⟨c, u, rfl, _, h⟩ := h.head
  intro c' hc'
  simp only [List.cons_append, List.head?_cons, Option.mem_some_iff] at hc'
  exact hc' ▸ h

theorem space_stop {b r : Bytes} {c : UInt8} (hb : JSpace b) (hc : jStop c = true) : ∀ x ∈ (b ++ c :: r).head?, jStop x = true := by
  intro x hx
  cases b with
  | nil =>
    simp only [List.nil_append, List.head?_cons, Option.mem_some_iff] at hx
    exact hx ▸ hc
  | cons y b =>
    simp only [List.cons_append, List.head?_cons, Option.mem_some_iff] at hx
    have := hb y (by simp)
    subst hx
    simp [jStop, this]

theorem head_ws {r : Bytes} {c : UInt8} (hc : jWs c = false) : ∀ x ∈ (c :: r).head?, jWs x = false := by
  intro x hx
  simp only [List.head?_cons, Option.mem_some_iff] at hx
  exact hx ▸ hc

theorem Spec.JString.ws_head {t : Bytes} {s} (h : JString t s) (r : Bytes) : ∀ c ∈ (t ++ r).head?, jWs c = false := by
  obtain ⟨u, _, rfl⟩ := h
  exact head_ws (by decide)

/-- Two texts of values at the start of the same bytes are the same. -/
def DetText (t : Bytes) (v : Json) : Prop := ∀ {t' : Bytes} {v'} {r r' : Bytes}, JText t' v' → t ++ r = t' ++ r' →
  (∀ c ∈ r.head?, jStop c = true) → (∀ c ∈ r'.head?, jStop c = true) → t = t' ∧ v = v' ∧ r = r'

/-- Likewise for the elements of an array. -/
def DetElems (t : Bytes) (xs : List Json) : Prop := ∀ {t' : Bytes} {xs'} {r r' : Bytes}, JElems t' xs' →
  t ++ 93 :: r = t' ++ 93 :: r' → t = t' ∧ xs = xs' ∧ r = r'

/-- Likewise for the members of an object. -/
def DetMembers (t : Bytes) (xs : List Member) : Prop := ∀ {t' : Bytes} {xs'} {r r' : Bytes}, JMembers t' xs' →
  t ++ 125 :: r = t' ++ 125 :: r' → t = t' ∧ xs = xs' ∧ r = r'

theorem Spec.JElems.head {t : Bytes} {xs} (h : JElems t xs) {r w r' : Bytes} (hw : JSpace w)
    (e : t ++ 93 :: r = w ++ 93 :: r') : False := by
  cases h with
  | one ha ht hb =>
    simp only [List.append_assoc] at e
    have h9 := span_eq ha hw (ht.ws_head _) (head_ws (by decide)) e
    clear e
    obtain ⟨rfl, e⟩ := h9
    obtain ⟨c, u, rfl, h1, _⟩ := ht.head
    simp only [List.cons_append, List.cons.injEq] at e
    rw [e.1] at h1
    revert h1
    unfold kindNo; split <;> decide
  | more ha ht hb _ =>
    simp only [List.append_assoc] at e
    have h9 := span_eq ha hw (ht.ws_head _) (head_ws (by decide)) e
    clear e
    obtain ⟨rfl, e⟩ := h9
    obtain ⟨c, u, rfl, h1, _⟩ := ht.head
    simp only [List.cons_append, List.cons.injEq] at e
    rw [e.1] at h1
    revert h1
    unfold kindNo; split <;> decide

theorem Spec.JMembers.head {t : Bytes} {xs} (h : JMembers t xs) {r w r' : Bytes} (hw : JSpace w)
    (e : t ++ 125 :: r = w ++ 125 :: r') : False := by
  cases h with
  | one ha hk =>
    simp only [List.append_assoc] at e
    have h9 := span_eq ha hw (hk.ws_head _) (head_ws (by decide)) e
    clear e
    obtain ⟨rfl, e⟩ := h9
    obtain ⟨u, _, rfl⟩ := hk
    simp at e
  | more ha hk =>
    simp only [List.append_assoc] at e
    have h9 := span_eq ha hw (hk.ws_head _) (head_ws (by decide)) e
    clear e
    obtain ⟨rfl, e⟩ := h9
    obtain ⟨u, _, rfl⟩ := hk
    simp at e

theorem space_det {b b' r r' : Bytes} {c c' : UInt8} (hb : JSpace b) (hb' : JSpace b') (hc : jWs c = false)
    (hc' : jWs c' = false) (e : b ++ c :: r = b' ++ c' :: r') : b = b' ∧ c = c' ∧ r = r' := by
  obtain ⟨h1, h2⟩ := span_eq hb hb' (head_ws hc) (head_ws hc') e
  simp only [List.cons.injEq] at h2
  exact ⟨h1, h2⟩

theorem text_det {t : Bytes} {v} (h : JText t v) : DetText t v := by
  refine JText.rec (motive_1 := fun t v _ => DetText t v) (motive_2 := fun t xs _ => DetElems t xs)
    (motive_3 := fun t xs _ => DetMembers t xs) ?_ ?_ ?_ ?_ ?_ ?_ ?_ ?_ ?_ ?_ ?_ ?_ ?_ h
  all_goals clear h t v
  · intro t' v' r r' h' e _ _
    obtain ⟨c, u, rfl, hk, _⟩ := h'.head
    have e1 := e
    simp only [List.cons_append, List.cons.injEq] at e1
    rw [← e1.1] at hk
    cases h' <;> first | exact ⟨rfl, rfl, List.append_cancel_left e⟩ | exact absurd hk (by simp [kindNo, headNo])
  · intro t' v' r r' h' e _ _
    obtain ⟨c, u, rfl, hk, _⟩ := h'.head
    have e1 := e
    simp only [List.cons_append, List.cons.injEq] at e1
    rw [← e1.1] at hk
    cases h' <;> first | exact ⟨rfl, rfl, List.append_cancel_left e⟩ | exact absurd hk (by simp [kindNo, headNo])
  · intro t' v' r r' h' e _ _
    obtain ⟨c, u, rfl, hk, _⟩ := h'.head
    have e1 := e
    simp only [List.cons_append, List.cons.injEq] at e1
    rw [← e1.1] at hk
    cases h' <;> first | exact ⟨rfl, rfl, List.append_cancel_left e⟩ | exact absurd hk (by simp [kindNo, headNo])
  · intro t hn t' v' r r' h' e hr hr'
    obtain ⟨c, u, hu, hk, _⟩ := (JText.num hn).head
    obtain ⟨c', u', hu', hk', _⟩ := h'.head
    have hc : c = c' := by
      rw [hu, hu'] at e; simp only [List.cons_append, List.cons.injEq] at e; exact e.1
    have hkk : kindNo v' = 3 := by rw [← hk', ← hc, hk]; rfl
    cases h' with
    | num hn' =>
      obtain ⟨rfl, rfl⟩ := span_eq hn.bytes hn'.bytes (fun c hc => stop_not_num (hr c hc))
        (fun c hc => stop_not_num (hr' c hc)) e
      exact ⟨rfl, rfl, rfl⟩
    | _ => cases hkk
  · intro t s hs t' v' r r' h' e hr hr'
    obtain ⟨c, u, hu, hk, _⟩ := (JText.str hs).head
    obtain ⟨c', u', hu', hk', _⟩ := h'.head
    have hc : c = c' := by
      rw [hu, hu'] at e; simp only [List.cons_append, List.cons.injEq] at e; exact e.1
    have hkk : kindNo v' = 4 := by rw [← hk', ← hc, hk]; rfl
    cases h' with
    | str hs' =>
      obtain ⟨rfl, rfl, rfl⟩ := hs.det hs' e
      exact ⟨rfl, rfl, rfl⟩
    | _ => cases hkk
  · intro w hw t' v' r r' h' e hr hr'
    obtain ⟨c', u', hu', hk', _⟩ := h'.head
    have hc : 91 = c' := by
      rw [hu'] at e; simp only [List.cons_append, List.cons.injEq] at e; exact e.1
    have hkk : kindNo v' = 5 := by rw [← hk', ← hc]; rfl
    cases h' with
    | arr0 hw' =>
      simp only [List.cons_append, List.append_assoc, List.nil_append, List.cons.injEq, true_and] at e
      obtain ⟨rfl, _, rfl⟩ := space_det hw hw' (by decide) (by decide) e
      exact ⟨rfl, rfl, rfl⟩
    | arr he =>
      simp only [List.cons_append, List.append_assoc, List.nil_append, List.cons.injEq, true_and] at e
      exact (he.head hw e.symm).elim
    | _ => cases hkk
  · intro t x xs he ih t' v' r r' h' e hr hr'
    obtain ⟨c', u', hu', hk', _⟩ := h'.head
    have hc : 91 = c' := by
      rw [hu'] at e; simp only [List.cons_append, List.cons.injEq] at e; exact e.1
    have hkk : kindNo v' = 5 := by rw [← hk', ← hc]; rfl
    cases h' with
    | arr0 hw' =>
      simp only [List.cons_append, List.append_assoc, List.nil_append, List.cons.injEq, true_and] at e
      exact (he.head hw' e).elim
    | arr he' =>
      simp only [List.cons_append, List.append_assoc, List.nil_append, List.cons.injEq, true_and] at e
      obtain ⟨rfl, h, rfl⟩ := ih he' e
      rw [h]
      exact ⟨rfl, rfl, rfl⟩
    | _ => cases hkk
  · intro w hw t' v' r r' h' e hr hr'
    obtain ⟨c', u', hu', hk', _⟩ := h'.head
    have hc : 123 = c' := by
      rw [hu'] at e; simp only [List.cons_append, List.cons.injEq] at e; exact e.1
    have hkk : kindNo v' = 6 := by rw [← hk', ← hc]; rfl
    cases h' with
    | obj0 hw' =>
      simp only [List.cons_append, List.append_assoc, List.nil_append, List.cons.injEq, true_and] at e
      obtain ⟨rfl, _, rfl⟩ := space_det hw hw' (by decide) (by decide) e
      exact ⟨rfl, rfl, rfl⟩
    | obj he =>
      simp only [List.cons_append, List.append_assoc, List.nil_append, List.cons.injEq, true_and] at e
      exact (he.head hw e.symm).elim
    | _ => cases hkk
  · intro t x xs he ih t' v' r r' h' e hr hr'
    obtain ⟨c', u', hu', hk', _⟩ := h'.head
    have hc : 123 = c' := by
      rw [hu'] at e; simp only [List.cons_append, List.cons.injEq] at e; exact e.1
    have hkk : kindNo v' = 6 := by rw [← hk', ← hc]; rfl
    cases h' with
    | obj0 hw' =>
      simp only [List.cons_append, List.append_assoc, List.nil_append, List.cons.injEq, true_and] at e
      exact (he.head hw' e).elim
    | obj he' =>
      simp only [List.cons_append, List.append_assoc, List.nil_append, List.cons.injEq, true_and] at e
      obtain ⟨rfl, h, rfl⟩ := ih he' e
      rw [h]
      exact ⟨rfl, rfl, rfl⟩
    | _ => cases hkk
  · intro a t b x ha ht hb ih t' xs' r r' h' e
    cases h' with
    | one ha' ht' hb' =>
      simp only [List.append_assoc] at e
      have h9 := span_eq ha ha' (ht.ws_head _) (ht'.ws_head _) e
      clear e
      obtain ⟨rfl, e⟩ := h9
      have h9 := ih ht' e (space_stop hb (by decide)) (space_stop hb' (by decide))
      clear e
      obtain ⟨rfl, rfl, e⟩ := h9
      obtain ⟨rfl, _, rfl⟩ := space_det hb hb' (by decide) (by decide) e
      exact ⟨rfl, rfl, rfl⟩
    | more ha' ht' hb' _ =>
      simp only [List.append_assoc, List.cons_append] at e
      have h9 := span_eq ha ha' (ht.ws_head _) (ht'.ws_head _) e
      clear e
      obtain ⟨rfl, e⟩ := h9
      have h9 := ih ht' e (space_stop hb (by decide)) (space_stop hb' (by decide))
      clear e
      obtain ⟨rfl, rfl, e⟩ := h9
      obtain ⟨_, h, _⟩ := space_det hb hb' (by decide) (by decide) e
      cases h
  · intro a t b u x xs ha ht hb hu ih ih2 t' xs' r r' h' e
    cases h' with
    | one ha' ht' hb' =>
      simp only [List.append_assoc, List.cons_append] at e
      have h9 := span_eq ha ha' (ht.ws_head _) (ht'.ws_head _) e
      clear e
      obtain ⟨rfl, e⟩ := h9
      have h9 := ih ht' e (space_stop hb (by decide)) (space_stop hb' (by decide))
      clear e
      obtain ⟨rfl, rfl, e⟩ := h9
      obtain ⟨_, h, _⟩ := space_det hb hb' (by decide) (by decide) e
      cases h
    | more ha' ht' hb' hu' =>
      simp only [List.append_assoc, List.cons_append] at e
      have h9 := span_eq ha ha' (ht.ws_head _) (ht'.ws_head _) e
      clear e
      obtain ⟨rfl, e⟩ := h9
      have h9 := ih ht' e (space_stop hb (by decide)) (space_stop hb' (by decide))
      clear e
      obtain ⟨rfl, rfl, e⟩ := h9
      have h9 := space_det hb hb' (by decide) (by decide) e
      clear e
      obtain ⟨rfl, _, e⟩ := h9
      obtain ⟨rfl, rfl, rfl⟩ := ih2 hu' e
      exact ⟨rfl, rfl, rfl⟩
  · intro a k b c t d s x ha hk hb hc ht hd ih t' xs' r r' h' e
    cases h' with
    | one ha' hk' hb' hc' ht' hd' =>
      simp only [List.append_assoc, List.cons_append] at e
      have h9 := span_eq ha ha' (hk.ws_head _) (hk'.ws_head _) e
      clear e
      obtain ⟨rfl, e⟩ := h9
      have h9 := hk.det hk' e
      clear e
      obtain ⟨rfl, rfl, e⟩ := h9
      have h9 := space_det hb hb' (by decide) (by decide) e
      clear e
      obtain ⟨rfl, _, e⟩ := h9
      have h9 := span_eq hc hc' (ht.ws_head _) (ht'.ws_head _) e
      clear e
      obtain ⟨rfl, e⟩ := h9
      have h9 := ih ht' e (space_stop hd (by decide)) (space_stop hd' (by decide))
      clear e
      obtain ⟨rfl, rfl, e⟩ := h9
      obtain ⟨rfl, _, rfl⟩ := space_det hd hd' (by decide) (by decide) e
      exact ⟨rfl, rfl, rfl⟩
    | more ha' hk' hb' hc' ht' hd' _ =>
      simp only [List.append_assoc, List.cons_append] at e
      have h9 := span_eq ha ha' (hk.ws_head _) (hk'.ws_head _) e
      clear e
      obtain ⟨rfl, e⟩ := h9
      have h9 := hk.det hk' e
      clear e
      obtain ⟨rfl, rfl, e⟩ := h9
      have h9 := space_det hb hb' (by decide) (by decide) e
      clear e
      obtain ⟨rfl, _, e⟩ := h9
      have h9 := span_eq hc hc' (ht.ws_head _) (ht'.ws_head _) e
      clear e
      obtain ⟨rfl, e⟩ := h9
      have h9 := ih ht' e (space_stop hd (by decide)) (space_stop hd' (by decide))
      clear e
      obtain ⟨rfl, rfl, e⟩ := h9
      obtain ⟨_, h, _⟩ := space_det hd hd' (by decide) (by decide) e
      cases h
  · intro a k b c t d u s x xs ha hk hb hc ht hd hu ih ih2 t' xs' r r' h' e
    cases h' with
    | one ha' hk' hb' hc' ht' hd' =>
      simp only [List.append_assoc, List.cons_append] at e
      have h9 := span_eq ha ha' (hk.ws_head _) (hk'.ws_head _) e
      clear e
      obtain ⟨rfl, e⟩ := h9
      have h9 := hk.det hk' e
      clear e
      obtain ⟨rfl, rfl, e⟩ := h9
      have h9 := space_det hb hb' (by decide) (by decide) e
      clear e
      obtain ⟨rfl, _, e⟩ := h9
      have h9 := span_eq hc hc' (ht.ws_head _) (ht'.ws_head _) e
      clear e
      obtain ⟨rfl, e⟩ := h9
      have h9 := ih ht' e (space_stop hd (by decide)) (space_stop hd' (by decide))
      clear e
      obtain ⟨rfl, rfl, e⟩ := h9
      obtain ⟨_, h, _⟩ := space_det hd hd' (by decide) (by decide) e
      cases h
    | more ha' hk' hb' hc' ht' hd' hu' =>
      simp only [List.append_assoc, List.cons_append] at e
      have h9 := span_eq ha ha' (hk.ws_head _) (hk'.ws_head _) e
      clear e
      obtain ⟨rfl, e⟩ := h9
      have h9 := hk.det hk' e
      clear e
      obtain ⟨rfl, rfl, e⟩ := h9
      have h9 := space_det hb hb' (by decide) (by decide) e
      clear e
      obtain ⟨rfl, _, e⟩ := h9
      have h9 := span_eq hc hc' (ht.ws_head _) (ht'.ws_head _) e
      clear e
      obtain ⟨rfl, e⟩ := h9
      have h9 := ih ht' e (space_stop hd (by decide)) (space_stop hd' (by decide))
      clear e
      obtain ⟨rfl, rfl, e⟩ := h9
      have h9 := space_det hd hd' (by decide) (by decide) e
      clear e
      obtain ⟨rfl, _, e⟩ := h9
      obtain ⟨rfl, rfl, rfl⟩ := ih2 hu' e
      exact ⟨rfl, rfl, rfl⟩

/-- A document has one value. -/
theorem jsonText_unique {t : Bytes} {v v' : Json} (h : JsonText t v) (h' : JsonText t v') : v = v' := by
  obtain ⟨a, u, b, rfl, ha, hu, hb⟩ := h
  obtain ⟨a', u', b', e, ha', hu', hb'⟩ := h'
  have h9 := span_eq ha ha' (hu.ws_head _) (hu'.ws_head _) e
  clear e
  obtain ⟨rfl, e⟩ := h9
  have st : ∀ {b : Bytes}, JSpace b → ∀ c ∈ b.head?, jStop c = true := by
    intro b hb c hc
    have := hb c (List.mem_of_mem_head? hc)
    simp [jStop, this]
  exact (text_det hu hu' e (st hb) (st hb')).2.1

end Cddlc
