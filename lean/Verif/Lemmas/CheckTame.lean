import Verif.Spec.Tame
import Verif.Lemmas.Check
import Verif.Lemmas.Tree

/-! A test that a concrete source is safe, for examples. -/

namespace Cddlc
open Spec
variable [Unicode]

/-- The tokens up to an end-of-file token after which the lexer stays as it is. -/
def allTokens : Nat → Lexer → Option (List Token)
  | 0, _ => none
  | n + 1, l => match l.scan with
    | .ok (t, pos, s, l') =>
      if t = .EOF ∧ l' = l then some [⟨t, pos, s⟩] else (allTokens n l').map (⟨t, pos, s⟩ :: ·)
    | _ => none

theorem allTokens_scan {n : Nat} {l m : Lexer} {ts us : List Token} (h : allTokens n l = some ts)
    (hs : Scans l us m) : ∀ w, m.scan ≠ .panic w := by
  induction hs generalizing n ts with
  | nil l =>
    intro w hw
    cases n with
    | zero => cases h
    | succ n => simp [allTokens, hw] at h
  | cons h1 h2 ih =>
    cases n with
    | zero => cases h
    | succ n =>
      simp only [allTokens, h1] at h
      split at h
      · rename_i hc
        rw [hc.2] at h2 ih
        exact ih (n := n + 1) (by simp only [allTokens, h1]; rw [if_pos hc])
      · obtain ⟨r, hr, _⟩ := Option.map_eq_some_iff.mp h
        exact ih hr

/-- The tokens scanned are those found, possibly followed by end-of-file tokens. -/
theorem allTokens_scans {n : Nat} {l m : Lexer} {ts us : List Token} (h : allTokens n l = some ts)
    (hs : Scans l us m) : us <+: ts ∨ ∃ r, us = ts ++ r ∧ ∀ t ∈ r, t.tok = .EOF := by
  induction hs generalizing n ts with
  | nil l => exact Or.inl (List.nil_prefix ..)
  | cons h1 h2 ih =>
    cases n with
    | zero => cases h
    | succ n =>
      simp only [allTokens, h1] at h
      split at h
      · rename_i hc
        rw [hc.2] at h2 ih
        have := ih (n := n + 1) (ts := ts) (by simp only [allTokens, h1]; rw [if_pos hc]; exact h)
        simp only [Option.some.injEq] at h
        subst h
        refine Or.inr ⟨_, rfl, ?_⟩
        rcases this with hp | ⟨r, rfl, hr⟩
        · intro t ht
          have := hp.subset ht
          rw [List.mem_singleton] at this
          rw [this]; exact hc.1
        · intro t ht
          rcases List.mem_append.mp ht with ht | ht
          · rw [List.mem_singleton] at ht
            rw [ht]; exact hc.1
          · exact hr t ht
      · obtain ⟨r, hr, rfl⟩ := Option.map_eq_some_iff.mp h
        rcases ih hr with hp | ⟨r', rfl, hr'⟩
        · exact Or.inl (List.cons_prefix_cons.mpr ⟨rfl, hp⟩)
        · exact Or.inr ⟨r', rfl, hr'⟩

theorem allTokens_last {n : Nat} {l : Lexer} {ts : List Token} (h : allTokens n l = some ts) :
    ∃ us t, ts = us ++ [t] ∧ t.tok = .EOF := by
  induction n generalizing l ts with
  | zero => cases h
  | succ n ih =>
    unfold allTokens at h
    split at h
    · split at h
      · rename_i hc
        cases h
        exact ⟨[], _, rfl, hc.1⟩
      · obtain ⟨r, hr, rfl⟩ := Option.map_eq_some_iff.mp h
        obtain ⟨us, t, rfl, ht⟩ := ih hr
        exact ⟨_ :: us, t, rfl, ht⟩
    · cases h

omit [Unicode] in
/-- Adjacent tokens. -/
def adjacent : List Token → List (Token × Token)
  | a :: b :: r => (a, b) :: adjacent (b :: r)
  | _ => []

omit [Unicode] in
theorem mem_adjacent {ts r : List Token} {a b} : (a, b) ∈ adjacent (ts ++ a :: b :: r) := by
  induction ts with
  | nil => simp [adjacent]
  | cons c ts ih =>
    cases ts with
    | nil => simp [adjacent]
    | cons d ts => simp only [List.cons_append, adjacent] at ih ⊢; exact List.mem_cons_of_mem _ ih

omit [Unicode] in
/-- Three tokens in a row. -/
def triples : List Token → List (Token × Token × Token)
  | a :: b :: c :: r => (a, b, c) :: triples (b :: c :: r)
  | _ => []

omit [Unicode] in
theorem mem_triples {ts r : List Token} {a b c} : (a, b, c) ∈ triples (ts ++ a :: b :: c :: r) := by
  induction ts with
  | nil => simp [triples]
  | cons d ts ih =>
    cases ts with
    | nil => simp [triples]
    | cons e ts => cases ts with
      | nil => simp [triples]
      | cons f ts => simp only [List.cons_append, triples] at ih ⊢; exact List.mem_cons_of_mem _ ih

omit [Unicode] in
/-- A token with those before it, nearest first, and the one after it. -/
def places (before : List Token) : List Token → List (List Token × Token × Token)
  | a :: b :: r => (before, a, b) :: places (a :: before) (b :: r)
  | _ => []

omit [Unicode] in
theorem mem_places {ts r : List Token} {a b} : ∀ before, (ts.reverse ++ before, a, b) ∈ places before (ts ++ a :: b :: r) := by
  induction ts with
  | nil => intro before; simp [places]
  | cons c ts ih =>
    intro before
    have := ih (c :: before)
    cases ts with
    | nil => simp [places]
    | cons d ts =>
      simp only [List.cons_append, places, List.reverse_cons, List.append_assoc, List.nil_append] at this ⊢
      exact List.mem_cons_of_mem _ this

/-- Every token is among those found or is the end of the file, and so for adjacent ones. -/
theorem allTokens_tk {n : Nat} {l : Lexer} {ts} (h : allTokens n l = some ts) :
    (∀ t, Tk l t → t ∈ ts ∨ t.tok = .EOF) ∧
    (∀ us a b l', Scans l (us ++ [a, b]) l' → (a, b) ∈ adjacent ts ∨ a.tok = .EOF ∧ b.tok = .EOF) ∧
    (∀ us a b l', Scans l (us ++ [a, b]) l' → (us.reverse, a, b) ∈ places [] ts ∨ b.tok = .EOF) ∧
    ∀ us a b c l', Scans l (us ++ [a, b, c]) l' → (a, b, c) ∈ triples ts ∨
      b.tok = .EOF ∧ ((a, b) ∈ adjacent ts ∨ a.tok = .EOF) := by
  have last2 : ∀ us a b l', Scans l (us ++ [a, b]) l' → (∃ r, us ++ [a, b] ++ r = ts) ∨ a.tok = .EOF ∧ b.tok = .EOF := by
    rintro us a b l' hs
    rcases allTokens_scans h hs with hp | ⟨r, hr, he⟩
    · exact Or.inl hp
    · rcases List.eq_nil_or_concat r with rfl | ⟨r', x, rfl⟩
      · exact Or.inl ⟨[], by simpa using hr⟩
      · right
        rw [List.concat_eq_append, ← List.append_assoc,
          show us ++ [a, b] = (us ++ [a]) ++ [b] by simp] at hr
        obtain ⟨hr1, hr2⟩ := List.append_inj' hr rfl
        cases hr2
        refine ⟨?_, he _ (by simp)⟩
        rcases List.eq_nil_or_concat r' with rfl | ⟨r'', y, rfl⟩
        · obtain ⟨vs, t, rfl, ht⟩ := allTokens_last h
          rw [List.append_nil] at hr1
          cases (List.append_inj' hr1 rfl).2
          exact ht
        · rw [List.concat_eq_append, ← List.append_assoc] at hr1
          cases (List.append_inj' hr1 rfl).2
          exact he _ (by simp)
  have adj : ∀ us a b l', Scans l (us ++ [a, b]) l' → (a, b) ∈ adjacent ts ∨ a.tok = .EOF ∧ b.tok = .EOF := by
    intro us a b l' hs
    rcases last2 us a b l' hs with ⟨r, rfl⟩ | h
    · left; simpa using mem_adjacent (ts := us) (r := r)
    · exact Or.inr h
  refine ⟨?_, adj, ?_, ?_⟩
  · rintro t ⟨us, l', hs⟩
    rcases allTokens_scans h hs with hp | ⟨r, hr, he⟩
    · exact Or.inl (hp.subset (by simp))
    · rcases List.eq_nil_or_concat r with rfl | ⟨r', x, rfl⟩
      · rw [List.append_nil] at hr; exact Or.inl (hr ▸ (by simp))
      · right
        rw [List.concat_eq_append, ← List.append_assoc] at hr
        have := (List.append_inj' hr rfl).2
        cases this
        exact he _ (by simp)
  · intro us a b l' hs
    rcases last2 us a b l' hs with ⟨r, rfl⟩ | h
    · left; simpa using mem_places (ts := us) (r := r) []
    · exact Or.inr h.2
  · intro us a b c l' hs
    have hs' : Scans l ((us ++ [a]) ++ [b, c]) l' := by simpa using hs
    rcases last2 _ b c l' hs' with ⟨r, rfl⟩ | ⟨hb, hc⟩
    · left; simpa using mem_triples (ts := us) (r := r)
    · right
      refine ⟨hb, ?_⟩
      have hs2 : Scans l ((us ++ [a, b]) ++ [c]) l' := by simpa using hs
      obtain ⟨m, hm, _⟩ := scans_split hs2
      exact (adj us a b m hm).imp id fun h => h.1

omit [Unicode] in
/-- The token before, if any, is not `#`. -/
def noTag (before : List Token) : Bool := match before with
  | h :: _ => h.tok != .HASH
  | [] => true

omit [Unicode] in
theorem noTag_spec {ts : List Token} (h : noTag ts.reverse = true) : NoTag ts := by
  intro t ht
  rw [List.getLast?_eq_head?_reverse] at ht
  cases hr : ts.reverse with
  | nil => rw [hr] at ht; cases ht
  | cons a r =>
    rw [hr] at ht h
    cases ht
    simpa [noTag] using h

omit [Unicode] in
/-- A name or a number. -/
def rangeable (t : Token) : Bool :=
  t.tok == .IDENT || t.tok == .INT && t.lit != b!"int" || t.tok == .FLOAT && t.lit != b!"float"

/-- There are no comparisons among the tokens, and ranges start with names and numbers. -/
def comparable (ts : List Token) : Bool :=
  ts.all (fun t => !([Tok.LT, .LE, .GT, .GE, .EQ, .NE].contains t.tok)) &&
  (places [] ts).all fun x => !(x.2.2.tok == .INCLUSIVE_BOUND || x.2.2.tok == .EXCLUSIVE_BOUND) ||
    rangeable x.2.1 && noTag x.1

theorem comparable_spec {n : Nat} {l : Lexer} {ts} (h : allTokens n l = some ts) (hc : comparable ts = true) :
    Comparable l := by
  obtain ⟨h1, _, h3, _⟩ := allTokens_tk h
  unfold comparable at hc
  simp only [Bool.and_eq_true, List.all_eq_true] at hc
  refine ⟨fun t ht => ?_, fun us a b l' hs hb => ?_⟩
  · rcases h1 t ht with h | h
    · have := hc.1 t h
      simpa using this
    · rw [h]; decide
  · rcases h3 us a b l' hs with h | h
    · have := hc.2 _ h
      dsimp only at this
      have hb' : (b.tok == .INCLUSIVE_BOUND || b.tok == .EXCLUSIVE_BOUND) = true := by
        rcases hb with hb | hb <;> rw [hb] <;> rfl
      rw [hb', Bool.not_true, Bool.false_or, Bool.and_eq_true] at this
      refine ⟨?_, noTag_spec this.2⟩
      have h2 := this.1
      simp only [rangeable, Bool.or_eq_true, Bool.and_eq_true, beq_iff_eq, bne_iff_ne, or_assoc] at h2
      exact h2
    · rw [h] at hb; rcases hb with hb | hb <;> cases hb

theorem comparable_of_check {n : Nat} {l : Lexer} (h : (match allTokens n l with
    | some ts => comparable ts
    | none => false) = true) : Comparable l := by
  cases hts : allTokens n l with
  | none => rw [hts] at h; cases h
  | some ts => rw [hts] at h; exact comparable_spec hts h

/-- The tokens are those of a safe source. -/
def safeTokens (ts : List Token) : Bool :=
  (places [] ts).all (fun x =>
    (!(x.2.2.tok == .ZERO_OR_MORE || x.2.2.tok == .ONE_OR_MORE) ||
      openers.contains x.2.1.tok || leaves.contains x.2.1.tok && noTag x.1) &&
    (!(x.2.2.tok == .REGEXP) || x.2.1.tok == .TSTR || x.2.1.tok == .TEXT)) &&
  (adjacent ts).all (fun x => !(x.1.tok == .BITS) || sure.contains x.2.tok) &&
  (triples ts).all (fun x => !(x.1.tok == .BITS) || !(continuers.contains x.2.2.tok)) &&
  (comparable ts ||
    (adjacent ts).all fun x => (adjacent ts).all fun y =>
      !(x.1.tok == .IDENT && x.2.tok == .ASSIGN && y.1.tok == .IDENT && y.2.tok == .ASSIGN &&
        x.1.lit == y.1.lit) || x.1.pos == y.1.pos)

/-- The lexer is at the start of a safe source. -/
def safeCheck (n : Nat) (l : Lexer) : Bool :=
  match allTokens n l with
  | some ts => safeTokens ts
  | none => false

theorem safe_of_check {n : Nat} {l : Lexer} (h : safeCheck n l = true) : Safe l := by
  unfold safeCheck at h
  cases hts : allTokens n l with
  | none => rw [hts] at h; cases h
  | some ts =>
    rw [hts] at h
    obtain ⟨h1, h2, h3, h4⟩ := allTokens_tk hts
    unfold safeTokens at h
    simp only [Bool.and_eq_true, Bool.or_eq_true, List.all_eq_true] at h
    obtain ⟨⟨⟨ha, hb⟩, hc⟩, hd⟩ := h
    refine ⟨⟨fun us m hs => allTokens_scan hts hs, ?_, ?_, ?_⟩, ?_⟩
    · intro us a b l' hs hb'
      rcases h3 us a b l' hs with h | h
      · have := (ha _ h).1
        dsimp only at this
        have hb2 : (b.tok == .ZERO_OR_MORE || b.tok == .ONE_OR_MORE) = true := by
          rcases hb' with hb | hb <;> rw [hb] <;> rfl
        rw [hb2] at this
        rcases this with (h' | h') | ⟨h', h''⟩
        · cases h'
        · exact Or.inl (by simpa using h')
        · exact Or.inr ⟨by simpa using h', noTag_spec h''⟩
      · rw [h] at hb'; rcases hb' with h | h <;> cases h
    · intro us a b l' hs hb'
      rcases h3 us a b l' hs with h | h
      · have := (ha _ h).2
        dsimp only at this
        rw [hb'] at this
        rcases this with (h' | h') | h'
        · cases h'
        · exact Or.inl (by simpa using h')
        · exact Or.inr (by simpa using h')
      · rw [h] at hb'; cases hb'
    · have sb : ∀ a b, (a, b) ∈ adjacent ts → a.tok = .BITS → b.tok ∈ sure := by
        intro a b h ha'
        have := hb _ h
        dsimp only at this
        rw [ha'] at this
        rcases this with h | h
        · cases h
        · simpa using h
      intro us a b c l' hs ha'
      rcases h4 us a b c l' hs with h | ⟨hbe, h | h⟩
      · have := hc _ h
        dsimp only at this
        rw [ha'] at this
        refine ⟨?_, ?_⟩
        · have hs2 : Scans l ((us ++ [a, b]) ++ [c]) l' := by simpa using hs
          obtain ⟨m, hm, _⟩ := scans_split hs2
          rcases h2 us a b m hm with h | ⟨h, _⟩
          · exact sb a b h ha'
          · rw [ha'] at h; cases h
        · rcases this with h | h
          · cases h
          · simpa using h
      · have := sb a b h ha'
        rw [hbe] at this
        exact absurd this (by decide)
      · rw [ha'] at h; cases h
    · rcases hd with hd | hd
      · exact Or.inl (comparable_spec hts hd)
      · right
        rintro i j ⟨us, a, l1, hs1, ha1⟩ ⟨vs, b, l2, hs2, hb1⟩ hij
        rcases h2 _ _ _ _ hs1 with g1 | ⟨g1, _⟩
        · rcases h2 _ _ _ _ hs2 with g2 | ⟨g2, _⟩
          · have := hd _ g1 _ g2
            simpa [ha1, hb1, hij] using this
          · cases g2
        · cases g1

end Cddlc
