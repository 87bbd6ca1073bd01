import Verif.Lemmas.Listable
import Verif.Lemmas.Sentence
import Verif.Lemmas.Run
import Verif.Lemmas.Spelled
import Verif.Spec.Language

/-! Accepted sources are those of the grammar in Spec/Language.lean. -/

namespace Cddlc
open Spec
variable [Unicode]

/-- Comments are not marked here. -/
local instance noMarks : Marks := ⟨fun _ => false⟩

/-- The tokens from the one `p` is at to the one `q` is at are `ws`. -/
def Span (p : PState) (ws : List Token) (q : PState) : Prop :=
  ∃ us vs, Took p us q ∧ ws = us ++ [q.curTok] ∧ ws = p.curTok :: vs

namespace Span
variable {p q r q1 : PState} {ws vs : List Token}

theorem refl (p : PState) : Span p [p.curTok] p := ⟨[], [], .refl _, rfl, rfl⟩

theorem task (h : Span p ws q) (t : Task) : Span p ws (q.addTask t) := h

theorem next (h : Span p ws q) (hn : q.next = .ok q1) (h' : Span q1 vs r) : Span p (ws ++ vs) r := by
  obtain ⟨us, xs, h1, rfl, h3⟩ := h
  obtain ⟨us', xs', g1, rfl, g3⟩ := h'
  exact ⟨us ++ [q.curTok] ++ us', xs ++ (us' ++ [r.curTok]), (h1.trans (.one hn)).trans g1, by simp, by rw [h3]; simp⟩

theorem on {l0 : Lexer} (h : Span p ws q) (ho : On l0 p) : On l0 q := by
  obtain ⟨us, xs, h1, -, -⟩ := h
  obtain ⟨ts, ho⟩ := ho
  exact ⟨_, h1 _ _ ho⟩

theorem head (h : Span p ws q) : ∃ vs, ws = p.curTok :: vs := by
  obtain ⟨us, xs, h1, h2, h3⟩ := h
  exact ⟨xs, h3⟩

end Span

omit [Unicode] in
theorem eff_refl (p : PState) : Eff p p [] := (Same.refl p).eff

theorem same_next {p q : PState} (h : p.next = .ok q) : Same p q := by
  obtain ⟨-, -, -, h1, h2, h3, -⟩ := next_fields h
  exact ⟨h1, h3, h2⟩

theorem curTok_next {p q : PState} (h : p.next = .ok q) : q.curTok = p.peekTok := by
  obtain ⟨h1, h2, h3, -⟩ := next_fields h
  unfold PState.curTok PState.peekTok
  rw [h1, h2, h3]

/-- From `p` to `q` there is an operand. -/
def OpD (p q : PState) (x : Node) : Prop :=
  ∃ ws cs, Span p ws q ∧ Lang (.operand x) ws q.peekTok cs ∧ Eff p q cs ∧ q.cur ≠ .COMMA

/-- From `p` to `q` there is an entry. -/
def EnD (p q : PState) (x : Node) : Prop :=
  ∃ ws cs, Span p ws q ∧ Lang (.entry x) ws q.peekTok cs ∧ Eff p q cs ∧
    (q.cur = .COMMA ∨ q.peek ∉ infixes ∧ q.peek ≠ .COMMA)

variable {l0 : Lexer}

theorem spell_cur (h : Spells l0) {p : PState} (hp : On l0 p) : Spelled p.cur p.lit := by
  obtain ⟨ts, hs⟩ := hp
  exact h _ (synced_tk hs).1

/-- A comment on the line of the current token is behind it. -/
theorem trails_iff {p q : PState} {ws : List Token} (h : Span p ws q) :
    Trails ws q.peekTok ↔ q.peek = .COMMENT ∧ PState.sameLine q.pos q.peekPos = true := by
  obtain ⟨us, vs, -, rfl, -⟩ := h
  unfold Trails PState.sameLine
  simp only [List.getLast?_append, List.getLast?_singleton, Option.some_or, Option.some.injEq, exists_eq_left', decide_eq_true_eq]
  rfl

omit [Unicode] in
theorem prec_zero : ∀ t : Tok, t.precedence = 0 → t ∉ infixes ∧ t ≠ .COMMA := by
  intro t
  cases t <;> decide

omit [Unicode] in
theorem led_none' {rec : PState.Rec} [Unicode] {t : Tok} (h : PState.ledOf rec t = none) : t ∉ infixes ∧ t ≠ .COMMA := by
  cases t <;> first | decide | cases h

namespace PState
variable {rec : Rec} {p0 p q : PState} {n : Nat} {left x : Node}

/-- What a recursive call is assumed to do. -/
def LC (l0 : Lexer) (rec : Rec) : Prop := ∀ prec p, On l0 p → prec ≤ p.cur.precedence →
  (rec prec p).wp (fun r => r.2.1 = none → EnD p r.2.2 r.1)

theorem nextEntry_lang (hc : LC l0 rec) (hp : On l0 p) :
    (nextEntry rec p).wp (fun r => r.2.1 = none → ∃ q, p.next = .ok q ∧ EnD q r.2.2 r.1) := by
  unfold nextEntry
  refine Out.wp_bind.mpr ?_
  intro q hq
  exact (hc _ q (hp.next hq) (Nat.le_refl _)).mono fun r hr he => ⟨q, hq, hr he⟩

/-! ### Operators -/

/-- An operator and its operands. -/
theorem joined_any {q1 r r' : PState} {a b y es} (ha : OpD p0 q a) (hn : q.next = .ok p) (hn' : p.next = .ok q1)
    (hb : EnD q1 r b) (hj : Joined p.curTok q1.curTok a b y es) (hr : r' = r ∨ ∃ t, r' = r.addTask t) (he : Eff r r' es)
    (hf : p.cur = .COLON ∨ p.cur = .ARROW_MAP → ¬ (r.peek = .COMMENT ∧ sameLine r.pos r.peekPos = true)) : EnD p0 r' y := by
  obtain ⟨ws, cs, h1, h2, h3, h4⟩ := ha
  obtain ⟨vs, ds, g1, g2, g3, g4⟩ := hb
  obtain ⟨us, hus⟩ := g1.head
  have hs : Span p0 (ws ++ ([p.curTok] ++ vs)) r' := by
    rcases hr with rfl | ⟨t, rfl⟩
    · exact h1.next hn ((Span.refl p).next hn' g1)
    · exact (h1.next hn ((Span.refl p).next hn' g1)).task t
  refine ⟨_, cs ++ (ds ++ es), hs, ?_, ?_, ?_⟩
  · have h2' : Lang (.operand a) ws p.curTok cs := by rw [curTok_next hn]; exact h2
    have hpk : r'.peekTok = r.peekTok := by rcases hr with rfl | ⟨t, rfl⟩ <;> rfl
    rw [← trails_iff g1] at hf
    rw [hus] at g2 hf ⊢
    rw [hpk]
    exact Lang.joined h2' g2 hj hf
  · exact h3.trans ((same_next hn).then ((same_next hn').then (g3.trans he)))
  · rcases hr with rfl | ⟨t, rfl⟩ <;> exact g4

theorem joined_end {q1 r r' : PState} {a b y es} (ha : OpD p0 q a) (hn : q.next = .ok p) (hn' : p.next = .ok q1)
    (hb : EnD q1 r b) (hj : Joined p.curTok q1.curTok a b y es) (hr : r' = r ∨ ∃ t, r' = r.addTask t) (he : Eff r r' es)
    (hf : ∀ s i v k, y ≠ .entry s i v k := by nofun) : EnD p0 r' y := by
  refine joined_any ha hn hn' hb hj hr he fun h => ?_
  exfalso
  have h : p.curTok.tok = .COLON ∨ p.curTok.tok = .ARROW_MAP := h
  cases hj with
  | field => exact hf _ _ _ _ rfl
  | keyed => exact hf _ _ _ _ rfl
  | choice h' | occ h' | range h' => rcases h with h | h <;> rw [h] at h' <;> exact absurd h' (by decide)
  | size h' | regexp h' | bits h' | compare h' => rcases h with h | h <;> rw [h] at h' <;> exact absurd h' (by decide)

/-- A field and the comment on its line. -/
theorem noted_end {q1 r r' : PState} {a b i v s es} (ha : OpD p0 q a) (hn : q.next = .ok p) (hn' : p.next = .ok q1)
    (hb : EnD q1 r b) (hj : Joined p.curTok q1.curTok a b (.entry s i v none) es) (hr : r.next = .ok r') (he : es = [])
    (hc : r.peek = .COMMENT ∧ sameLine r.pos r.peekPos = true) : OpD p0 r' (.entry s i v (some r'.parseInnerComment)) := by
  obtain ⟨ws, cs, h1, h2, h3, h4⟩ := ha
  obtain ⟨vs, ds, g1, g2, g3, g4⟩ := hb
  subst he
  obtain ⟨us, hus⟩ := g1.head
  have hs : Span p0 (ws ++ ([p.curTok] ++ vs) ++ [r'.curTok]) r' := (h1.next hn ((Span.refl p).next hn' g1)).next hr (.refl r')
  have hcur : r'.curTok = r.peekTok := curTok_next hr
  refine ⟨_, cs ++ (ds ++ []), hs, ?_, ?_, ?_⟩
  · have h2' : Lang (.operand a) ws p.curTok cs := by rw [curTok_next hn]; exact h2
    rw [← trails_iff g1, ← hcur] at hc
    rw [← hcur] at g2
    rw [hus] at g2 hc ⊢
    exact Lang.noted (c := r'.curTok) h2' g2 hj hc
  · rw [List.append_nil]
    exact (h3.trans ((same_next hn).then ((same_next hn').then g3))).same (same_next hr)
  · rw [next_cur hr, hc.1]; decide

theorem colonTail_lang (hc : LC l0 rec) (hp : On l0 p) {name : Ident} : (do
    let (val, err, p') ← nextEntry rec p
    match err with
    | some e => .ok (val, some e, p')
    | none =>
      if p'.peek = .COMMENT ∧ sameLine p'.pos p'.peekPos then do
        let p'' ← p'.next
        .ok (.entry p.pos name val (some p''.parseInnerComment), none, p'')
      else .ok (.entry p.pos name val none, none, p') : PRes).wp
    (fun r => r.2.1 = none → ∃ q v, p.next = .ok q ∧
      (EnD q r.2.2 v ∧ r.1 = .entry p.pos name v none ∧ ¬ (r.2.2.peek = .COMMENT ∧ sameLine r.2.2.pos r.2.2.peekPos = true) ∨
       ∃ q', EnD q q' v ∧ q'.next = .ok r.2.2 ∧ r.1 = .entry p.pos name v (some r.2.2.parseInnerComment) ∧
        (q'.peek = .COMMENT ∧ sameLine q'.pos q'.peekPos = true))) := by
  refine Out.wp_bind.mpr ((nextEntry_lang hc hp).mono ?_)
  rintro ⟨x, e, q⟩ hq
  dsimp only at hq ⊢
  split
  · simp
  · obtain ⟨q1, h1, h2⟩ := hq rfl
    split
    · rename_i hcm
      refine Out.wp_bind.mpr ?_
      intro q' hq'
      exact Out.wp_ok.mpr fun _ => ⟨q1, x, h1, .inr ⟨q, h2, hq', rfl, hcm⟩⟩
    · rename_i hcm
      exact Out.wp_ok.mpr fun _ => ⟨q1, x, h1, .inl ⟨h2, rfl, hcm⟩⟩

theorem parseColon_lang (hc : LC l0 rec) (hp : On l0 p) (hd : OpD p0 q left) (hn : q.next = .ok p)
    (ht : p.cur = .COLON ∨ p.cur = .ARROW_MAP) :
    (parseColon rec left p).wp (fun r => r.2.1 = none → OpD p0 r.2.2 r.1 ∨ EnD p0 r.2.2 r.1) := by
  unfold parseColon
  dsimp only
  split
  · simp
  · rename_i name hname
    refine (colonTail_lang hc hp).mono ?_
    rintro ⟨x, e, r⟩ h he
    obtain ⟨q1, v, h1, h2⟩ := h he
    have hj : Joined p.curTok q1.curTok left v (.entry p.pos name v none) [] := by
      split at hname <;> cases hname
      · exact .field ht
      · exact .keyed ht
    rcases h2 with ⟨h2, h3, h4⟩ | ⟨q', h2, h3, h4, h5⟩
    · dsimp only at h2 h3 h4 ⊢
      rw [h3]
      exact .inr (joined_any hd hn h1 h2 hj (.inl rfl) (eff_refl _) fun _ => h4)
    · dsimp only at h2 h3 h4 ⊢
      rw [h4]
      exact .inl (noted_end hd hn h1 h2 hj h3 rfl h5)

theorem parseTypeChoice_lang (hc : LC l0 rec) (hp : On l0 p) (hd : OpD p0 q left) (hn : q.next = .ok p)
    (ht : p.cur = .TYPE_CHOICE ∨ p.cur = .GROUP_CHOICE) :
    (parseTypeChoice rec left p).wp (fun r => r.2.1 = none → EnD p0 r.2.2 r.1) := by
  unfold parseTypeChoice
  refine Out.wp_bind.mpr ((nextEntry_lang hc hp).mono ?_)
  rintro ⟨x, e, r⟩ h
  dsimp only at h ⊢
  split
  · simp
  · obtain ⟨q1, h1, h2⟩ := h rfl
    exact Out.wp_ok.mpr fun _ => joined_end hd hn h1 h2 (.choice ht) (.inl rfl) (eff_refl _)

theorem parseSizeOperator_lang (hc : LC l0 rec) (hp : On l0 p) (hd : OpD p0 q left) (hn : q.next = .ok p)
    (ht : p.cur = .SIZE) :
    (parseSizeOperator rec left p).wp (fun r => r.2.1 = none → EnD p0 r.2.2 r.1) := by
  unfold parseSizeOperator
  split
  all_goals first
    | (rename_i hk
       refine Out.wp_bind.mpr ((nextEntry_lang hc hp).mono ?_)
       rintro ⟨x, e, r⟩ h
       dsimp only at h ⊢
       split
       · simp
       · obtain ⟨q1, h1, h2⟩ := h rfl
         exact Out.wp_ok.mpr fun _ => joined_end hd hn h1 h2 (.size ht (by rw [hk]; decide)) (.inl rfl) (eff_refl _))
    | simp

theorem parseRegexp_lang (hc : LC l0 rec) (hp : On l0 p) (hd : OpD p0 q left) (hn : q.next = .ok p)
    (ht : p.cur = .REGEXP) :
    (parseRegexp rec left p).wp (fun r => r.2.1 = none → EnD p0 r.2.2 r.1) := by
  unfold parseRegexp
  split
  · split
    · simp
    · rename_i hk
      refine Out.wp_bind.mpr ((nextEntry_lang hc hp).mono ?_)
      rintro ⟨x, e, r⟩ h
      dsimp only at h ⊢
      split
      · simp
      · obtain ⟨q1, h1, h2⟩ := h rfl
        refine Out.wp_ok.mpr fun _ => joined_end hd hn h1 h2 (.regexp ht ?_) (.inl rfl) (eff_refl _)
        have := next_cur h1
        show q1.cur = _ ∨ q1.cur = _
        rw [this]
        by_cases h : p.peek = .TEXT_LITERAL
        · exact .inl h
        · exact .inr (Decidable.byContradiction fun h' => hk ⟨h, h'⟩)
  · exact Out.wp_panic.mpr trivial

theorem parseBits_lang (hc : LC l0 rec) (hp : On l0 p) (hd : OpD p0 q left) (hn : q.next = .ok p)
    (ht : p.cur = .BITS) :
    (parseBits rec left p).wp (fun r => r.2.1 = none → EnD p0 r.2.2 r.1) := by
  unfold parseBits
  refine Out.wp_bind.mpr ((nextEntry_lang hc hp).mono ?_)
  rintro ⟨x, e, r⟩ h
  dsimp only at h ⊢
  split
  · exact Out.wp_bind.mpr (Out.wp_true.mono fun _ _ => by simp)
  · obtain ⟨q1, h1, h2⟩ := h rfl
    exact Out.wp_ok.mpr fun _ => joined_end hd hn h1 h2 (.bits ht) (.inl rfl) (eff_refl _)

theorem parseComparatorOp_lang (hc : LC l0 rec) (hp : On l0 p) (hd : OpD p0 q left) (hn : q.next = .ok p)
    (ht : p.cur ∈ [Tok.LT, .LE, .GT, .GE, .EQ, .NE]) :
    (parseComparatorOp rec left p).wp (fun r => r.2.1 = none → EnD p0 r.2.2 r.1) := by
  unfold parseComparatorOp
  split
  all_goals first
    | (rename_i hk
       refine Out.wp_bind.mpr ((nextEntry_lang hc hp).mono ?_)
       rintro ⟨x, e, r⟩ h
       dsimp only at h ⊢
       split
       · simp
       · obtain ⟨q1, h1, h2⟩ := h rfl
         exact Out.wp_ok.mpr fun _ => joined_end hd hn h1 h2 (.compare ht (by rw [hk]; decide)) (.inl rfl) (eff_refl _))
    | simp

/-- Behind the mark of an occurrence. -/
theorem parseOccItem_lang (hc : LC l0 rec) (hp : On l0 p) {pos tok a b} :
    (parseOccItem rec pos tok a b p).wp (fun r => r.2.1 = none → ∃ x, EnD p r.2.2 x ∧ r.1 = .nm pos tok a b x) := by
  unfold parseOccItem
  refine Out.wp_bind.mpr ((hc _ p hp (Nat.le_refl _)).mono ?_)
  rintro ⟨x, e, r⟩ h
  dsimp only at h ⊢
  split
  · simp
  · exact Out.wp_ok.mpr fun _ => ⟨x, h rfl, rfl⟩

omit [Unicode] in
theorem int_literal (lit : Bytes) : Tok.isLiteral .INT lit = true ↔ lit ≠ b!"int" := by
  have h : Tok.text .INT = b!"int" := by decide
  simp [Tok.isLiteral, h]

theorem parseOccUpper_lang (hc : LC l0 rec) (hp : On l0 p) {u} :
    (parseOccUpper rec u p).wp (fun r => r.2.1 = none → ∃ q x m, p.next = .ok q ∧ EnD q r.2.2 x ∧ Upper q.curTok m ∧
      r.1 = .nm p.pos p.cur (some u) m x) := by
  unfold parseOccUpper
  split
  · rename_i hi
    refine Out.wp_bind.mpr ?_
    intro q hq
    have hcur : q.cur = .INT := (next_cur hq).trans hi.1
    have hlit : q.lit ≠ b!"int" := by
      rw [(next_fields hq).2.1]
      have := hi.2
      rw [hi.1] at this
      exact (int_literal _).mp this
    unfold parseUintType
    have hil : q.cur.isLiteral q.lit = true := by rw [hcur]; exact (int_literal _).mpr hlit
    rw [if_pos hil]
    unfold parseUintLiteral
    rw [if_pos hil]
    split
    · refine Out.wp_bind.mpr (Out.wp_ok.mpr ?_)
      simp
    · rename_i v hv
      refine Out.wp_bind.mpr (Out.wp_ok.mpr ?_)
      dsimp only
      refine (parseOccItem_lang hc (hp.next hq)).mono ?_
      rintro r h he
      obtain ⟨x, h1, h2⟩ := h he
      exact ⟨q, x, _, hq, h1, .some hcur hlit hv, h2⟩
  · rename_i hi
    refine Out.wp_bind.mpr ?_
    intro q hq
    refine (parseOccItem_lang hc (hp.next hq)).mono ?_
    rintro r h he
    obtain ⟨x, h1, h2⟩ := h he
    refine ⟨q, x, _, hq, h1, .none ?_, h2⟩
    rintro ⟨h3, h4⟩
    obtain ⟨g1, g2, -⟩ := next_fields hq
    have h5 : p.peek = .INT := g1.symm.trans h3
    refine hi ⟨h5, ?_⟩
    rw [h5, ← g2]
    exact (int_literal _).mpr h4

omit [Unicode] in
theorem operand_kind {part ts nx cs} (h : Lang part ts nx cs) : ∀ x, part = .operand x →
    x.isNil = false ∧ (∀ k, x ≠ .typedNil k) ∧ ∀ u, x ≠ .uintLit u := by
  intro x hx
  cases h <;> cases hx
  case single h => cases h <;> exact ⟨rfl, nofun, nofun⟩
  all_goals exact ⟨rfl, nofun, nofun⟩

theorem parseOccurrence_lang (hc : LC l0 rec) (hp : On l0 p) (hd : OpD p0 q left) (hn : q.next = .ok p)
    (ht : p.cur = .ZERO_OR_MORE ∨ p.cur = .ONE_OR_MORE) :
    (parseOccurrence rec left p).wp (fun r => r.2.1 = none → EnD p0 r.2.2 r.1) := by
  unfold parseOccurrence
  split
  · rename_i u
    obtain ⟨ws, cs, -, h2, -⟩ := hd
    exact absurd rfl ((operand_kind h2 _ rfl).2.2 u)
  · split
    · simp
    · rename_i hv
      refine (parseOccUpper_lang hc hp).mono ?_
      rintro r h he
      obtain ⟨q1, x, m, h1, h2, h3, h4⟩ := h he
      rw [h4]
      exact joined_end hd hn h1 h2 (.occ ht (by omega) h3) (.inl rfl) (eff_refl _)
  · exact Out.wp_bind.mpr (Out.wp_true.mono fun _ _ => Out.wp_bind.mpr (Out.wp_true.mono fun _ _ => by simp))

theorem parseIdentBound_lang (hc : LC l0 rec) (hp : On l0 p) {i} (hd : OpD p0 q (.ident i)) (hn : q.next = .ok p)
    (ht : p.cur = .INCLUSIVE_BOUND ∨ p.cur = .EXCLUSIVE_BOUND) :
    (parseIdentBound rec i p).wp (fun r => r.2.1 = none → EnD p0 r.2.2 r.1) := by
  unfold parseIdentBound
  refine Out.wp_bind.mpr ((nextEntry_lang hc hp).mono ?_)
  rintro ⟨x, e, r⟩ h
  dsimp only at h ⊢
  split
  · simp
  · obtain ⟨q1, h1, h2⟩ := h rfl
    refine Out.wp_ok.mpr fun _ => joined_end hd hn h1 h2 (.range ht rfl) (.inr ⟨_, rfl⟩) ⟨rfl, rfl, [_], rfl, ?_⟩
    cases x <;> rfl

theorem parseIntBound_lang (hc : LC l0 rec) (hp : On l0 p) {pos t v} (hd : OpD p0 q (.intLit pos t v))
    (hn : q.next = .ok p) (ht : p.cur = .INCLUSIVE_BOUND ∨ p.cur = .EXCLUSIVE_BOUND) :
    (parseIntBound rec (.intLit pos t v) p).wp (fun r => r.2.1 = none → EnD p0 r.2.2 r.1) := by
  unfold parseIntBound
  refine Out.wp_bind.mpr ((nextEntry_lang hc hp).mono ?_)
  rintro ⟨x, e, r⟩ h
  dsimp only at h ⊢
  split
  · simp
  · obtain ⟨q1, h1, h2⟩ := h rfl
    split
    · exact Out.wp_ok.mpr fun _ => joined_end hd hn h1 h2 (.range ht rfl) (.inl rfl) (eff_refl _)
    · simp
    · exact Out.wp_ok.mpr fun _ => joined_end hd hn h1 h2 (.range ht rfl) (.inr ⟨_, rfl⟩) ⟨rfl, rfl, [_], rfl, rfl⟩
    · rename_i g1 g2 g3
      refine Out.wp_ok.mpr fun _ => joined_end hd hn h1 h2 (.range (hi := .nil) ht ?_) (.inl rfl) ?_
      · cases x <;> first | rfl | exact absurd rfl (g1 _ _ _) | exact absurd rfl (g2 _ _ _) | exact absurd rfl (g3 _)
      · cases x <;> first | exact eff_refl _ | exact absurd rfl (g3 _)


theorem parseFloatBound_lang (hc : LC l0 rec) (hp : On l0 p) {pos t v} (hd : OpD p0 q (.floatLit pos t v))
    (hn : q.next = .ok p) (ht : p.cur = .INCLUSIVE_BOUND ∨ p.cur = .EXCLUSIVE_BOUND) :
    (parseFloatBound rec (.floatLit pos t v) p).wp (fun r => r.2.1 = none → EnD p0 r.2.2 r.1) := by
  unfold parseFloatBound
  refine Out.wp_bind.mpr ((nextEntry_lang hc hp).mono ?_)
  rintro ⟨x, e, r⟩ h
  dsimp only at h ⊢
  split
  · simp
  · obtain ⟨q1, h1, h2⟩ := h rfl
    split
    · exact Out.wp_ok.mpr fun _ => joined_end hd hn h1 h2 (.range ht rfl) (.inl rfl) (eff_refl _)
    · simp
    · exact Out.wp_ok.mpr fun _ => joined_end hd hn h1 h2 (.range ht rfl) (.inr ⟨_, rfl⟩) ⟨rfl, rfl, [_], rfl, rfl⟩
    · rename_i g1 g2 g3
      refine Out.wp_ok.mpr fun _ => joined_end hd hn h1 h2 (.range (hi := .nil) ht ?_) (.inl rfl) ?_
      · cases x <;> first | rfl | exact absurd rfl (g1 _ _ _) | exact absurd rfl (g2 _ _ _) | exact absurd rfl (g3 _)
      · cases x <;> first | exact eff_refl _ | exact absurd rfl (g3 _)

theorem parseBound_lang (hc : LC l0 rec) (hp : On l0 p) (hd : OpD p0 q left)
    (hn : q.next = .ok p) (ht : p.cur = .INCLUSIVE_BOUND ∨ p.cur = .EXCLUSIVE_BOUND) :
    (parseBound rec left p).wp (fun r => r.2.1 = none → OpD p0 r.2.2 r.1 ∨ EnD p0 r.2.2 r.1) := by
  unfold parseBound
  split
  · exact (parseIntBound_lang hc hp hd hn ht).mono fun r h he => .inr (h he)
  · exact (parseFloatBound_lang hc hp hd hn ht).mono fun r h he => .inr (h he)
  · exact (parseIdentBound_lang hc hp hd hn ht).mono fun r h he => .inr (h he)
  · rename_i g1 g2 g3
    obtain ⟨ws, cs, h1, h2, h3, h4⟩ := hd
    obtain ⟨k1, k2, -⟩ := operand_kind h2 _ rfl
    refine Out.wp_ok.mpr fun _ => .inl ⟨ws ++ [p.curTok], cs, h1.next hn (.refl _), ?_, h3.same (same_next hn), ?_⟩
    · refine Lang.noRange (a := left) ht ?_ ?_
      · rw [curTok_next hn]; exact h2
      · cases left <;> first | (simp [Node.kind]; done) | exact absurd rfl (k2 _) | exact absurd rfl (g1 _ _ _) |
          exact absurd rfl (g2 _ _ _) | exact absurd rfl (g3 _)
    · rcases ht with h | h <;> · rw [h]; decide

theorem parseComma_lang (hd : OpD p0 q left) (hn : q.next = .ok p) (ht : p.cur = .COMMA) :
    (parseComma left p).wp (fun r => r.2.1 = none → EnD p0 r.2.2 r.1) := by
  obtain ⟨ws, cs, h1, h2, h3, h4⟩ := hd
  refine Out.wp_ok.mpr fun _ => ⟨ws ++ [p.curTok], cs, h1.next hn (.refl _), .comma ht ?_, h3.same (same_next hn), .inl ht⟩
  rw [← curTok_next hn] at h2
  exact h2

theorem ledOf_lang (hc : LC l0 rec) (hp : On l0 p) (hd : OpD p0 q left) (hn : q.next = .ok p) {f}
    (hf : ledOf rec p.cur = some f) :
    (f left p).wp (fun r => r.2.1 = none → OpD p0 r.2.2 r.1 ∨ EnD p0 r.2.2 r.1) := by
  have lift : ∀ {o : PRes}, o.wp (fun r => r.2.1 = none → EnD p0 r.2.2 r.1) →
      o.wp (fun r => r.2.1 = none → OpD p0 r.2.2 r.1 ∨ EnD p0 r.2.2 r.1) :=
    fun h => h.mono fun r h he => .inr (h he)
  cases ht : p.cur <;> rw [ht] at hf <;> cases hf
  all_goals first
    | exact lift (parseComma_lang hd hn ht)
    | exact parseColon_lang hc hp hd hn (by simp [ht])
    | exact lift (parseTypeChoice_lang hc hp hd hn (by simp [ht]))
    | exact lift (parseComparatorOp_lang hc hp hd hn (by simp [ht]))
    | exact lift (parseSizeOperator_lang hc hp hd hn ht)
    | exact lift (parseRegexp_lang hc hp hd hn ht)
    | exact lift (parseBits_lang hc hp hd hn ht)
    | exact parseBound_lang hc hp hd hn (by simp [ht])
    | exact lift (parseOccurrence_lang hc hp hd hn (by simp [ht]))

/-- The loop over the operators. -/
theorem ledLoop_lang (hc : LC l0 rec) (hp : On l0 p) (prec : Nat) (x : Node) (q : PState)
    (h : OpD p q x ∧ prec = 0 ∨ EnD p q x) :
    (loopOut (ledStep rec prec) n (x, q)).wp (fun r => r.2.1 = none → EnD p r.2.2 r.1) := by
  induction n generalizing x q with
  | zero => exact Out.wp_hang.mpr trivial
  | succ n ih =>
    rcases h with ⟨h, rfl⟩ | h
    · have hq : On l0 q := by
        obtain ⟨ws, cs, h1, -⟩ := h
        exact h1.on hp
      have stop : q.peek ∉ infixes ∧ q.peek ≠ .COMMA → EnD p q x := by
        obtain ⟨ws, cs, h1, h2, h3, h4⟩ := h
        exact fun hs => ⟨ws, cs, h1, .only h2 hs.1 hs.2, h3, .inr hs⟩
      rw [loopOut]
      unfold ledStep
      dsimp only
      have hcomma : q.cur ≠ .COMMA := by
        obtain ⟨ws, cs, h1, h2, h3, h4⟩ := h
        exact h4
      by_cases hz : q.peek.precedence = 0
      · rw [if_neg (by omega)]
        exact Out.wp_ok.mpr fun _ => stop (prec_zero _ hz)
      · rw [if_pos ⟨hcomma, by omega⟩]
        cases hf : ledOf rec q.peek with
        | none => exact Out.wp_ok.mpr fun _ => stop (led_none' hf)
        | some f =>
          dsimp only
          cases hn : q.next with
          | panic w => exact Out.wp_panic.mpr trivial
          | hang => exact Out.wp_hang.mpr trivial
          | ok q1 =>
            have hf' : ledOf rec q1.cur = some f := by rw [next_cur hn]; exact hf
            have hw := ledOf_lang hc (hq.next hn) h hn hf'
            cases hr : f x q1 with
            | panic w => simp only [Out.bind_def, Out.bind, hr]; exact Out.wp_panic.mpr trivial
            | hang => simp only [Out.bind_def, Out.bind, hr]; exact Out.wp_hang.mpr trivial
            | ok v =>
              obtain ⟨y, e, r⟩ := v
              have := hw _ hr
              simp only [Out.bind_def, Out.bind, hr]
              cases e with
              | some d => exact Out.wp_ok.mpr (by simp)
              | none =>
                refine ih y r ?_
                rcases this rfl with h | h
                · exact .inl ⟨h, rfl⟩
                · exact .inr h
    · obtain ⟨ws, cs, h1, h2, h3, h4⟩ := id h
      have : q.cur = .COMMA ∨ ledOf rec q.peek = none := h4.imp id fun h => led_none h.1 h.2
      rw [led_stop this]
      exact Out.wp_ok.mpr fun _ => h

/-! ### First tokens -/

/-- From `p` to `q` there are entries; `q` is at the token behind them. -/
def EsD (p q : PState) (xs : List Node) : Prop :=
  ∃ us cs, Span p (us ++ [q.curTok]) q ∧ Lang (.entries xs) us q.curTok cs ∧ Eff p q cs

omit [Unicode] in
theorem firstTok_span [Unicode] {us : List Token} (h : Span p (us ++ [q.curTok]) q) : firstTok us q.curTok = p.curTok := by
  obtain ⟨vs, hv⟩ := h.head
  cases us with
  | nil => exact (List.cons.inj hv).1
  | cons t us => exact (List.cons.inj hv).1

theorem parseList_lang (hc : LC l0 rec) (hp : On l0 p) {close keep} :
    (parseList rec n close keep p).wp (fun r => r.2.1 = none → ∃ q es, p.next = .ok q ∧
      EsD q r.2.2 es ∧ r.2.2.cur = close ∧ r.1 = es.filter keep) := by
  unfold parseList
  refine Out.wp_bind.mpr ?_
  intro q hq
  have key : ∀ n acc s, On l0 s → (loopOut (listStep rec close keep) n (acc, s)).wp (fun r => r.2.1 = none →
      ∃ es, EsD s r.2.2 es ∧ r.2.2.cur = close ∧ r.1 = acc ++ es.filter keep) := by
    intro n
    induction n with
    | zero => intro acc s _; exact Out.wp_hang.mpr trivial
    | succ n ih =>
      intro acc s hs
      rw [loopOut]
      unfold listStep
      by_cases hcl : s.cur = close
      · simp only [if_pos hcl]
        exact Out.wp_ok.mpr fun _ => ⟨[], ⟨[], [], .refl _, .nil, eff_refl _⟩, hcl, by simp⟩
      · simp only [if_neg hcl]
        cases hr : rec s.cur.precedence s with
        | panic w => exact Out.wp_panic.mpr trivial
        | hang => exact Out.wp_hang.mpr trivial
        | ok v =>
          obtain ⟨e, err, s'⟩ := v
          have hd := hc _ s hs (Nat.le_refl _) _ hr
          cases err with
          | some d => exact Out.wp_ok.mpr (by simp)
          | none =>
            obtain ⟨ws, cs, h1, h2, h3, -⟩ := hd rfl
            cases hnx : s'.next with
            | panic w =>
              simp only [Out.bind_def, Out.bind, hnx]; exact Out.wp_panic.mpr trivial
            | hang => simp only [Out.bind_def, Out.bind, hnx]; exact Out.wp_hang.mpr trivial
            | ok s'' =>
              simp only [Out.bind_def, Out.bind, hnx]
              refine (ih _ s'' ((h1.on hs).next hnx)).mono ?_
              rintro ⟨xs, er, t⟩ h he
              obtain ⟨es, ⟨us, ds, g1, g2, g3⟩, g4, g5⟩ := h he
              dsimp only at h1 h2 h3 g1 g2 g3 g4 g5 ⊢
              refine ⟨e :: es, ⟨ws ++ us, cs ++ ds, ?_, .cons ?_ g2, h3.trans ((same_next hnx).then g3)⟩, g4, ?_⟩
              · rw [List.append_assoc]
                exact h1.next hnx g1
              · rw [firstTok_span g1, curTok_next hnx]
                exact h2
              · rw [g5, List.filter_cons]
                split <;> simp
  refine (key n [] q (hp.next hq)).mono ?_
  rintro ⟨xs, er, t⟩ h he
  obtain ⟨es, h1, h2, h3⟩ := h he
  exact ⟨q, es, hq, h1, h2, by simpa using h3⟩

omit [Unicode] in
theorem entries_nil {part ts nx cs} (h : Lang part ts nx cs) :
    (∀ x, part = .entry x → x.isNil = false) ∧ ∀ xs, part = .entries xs → ∀ x ∈ xs, x.isNil = false := by
  induction h with
  | only h _ _ _ => exact ⟨fun x hx => by cases hx; exact (operand_kind h _ rfl).1, nofun⟩
  | comma _ h _ => exact ⟨fun x hx => by cases hx; exact (operand_kind h _ rfl).1, nofun⟩
  | marked h _ _ => exact ⟨fun x hx => by cases hx; cases h <;> rfl, nofun⟩
  | unclosed => exact ⟨fun x hx => by cases hx; rfl, nofun⟩
  | joined _ _ h _ _ _ => exact ⟨fun x hx => by cases hx; cases h <;> rfl, nofun⟩
  | skip _ _ ih => exact ⟨fun x hx => ih.1 x hx, nofun⟩
  | nil => exact ⟨nofun, fun xs h => by cases h; nofun⟩
  | cons _ _ ih1 ih2 =>
    refine ⟨nofun, fun xs h => ?_⟩
    cases h
    intro x hx
    rcases List.mem_cons.mp hx with rfl | hx
    · exact ih1.1 _ rfl
    · exact ih2.2 _ rfl x hx
  | _ => exact ⟨nofun, nofun⟩

/-- Between brackets. -/
theorem bracket_end {r : PState} {xs x} (hn : p.next = .ok q) (he : EsD q r xs)
    (hl : ∀ us cs nx, Lang (.entries xs) us r.curTok cs → Lang (.operand x) (p.curTok :: us ++ [r.curTok]) nx cs)
    (hr : r.cur ≠ .COMMA) : OpD p r x := by
  obtain ⟨us, cs, h1, h2, h3⟩ := he
  exact ⟨_, cs, (Span.refl p).next hn h1, by simpa using hl us cs r.peekTok h2, (same_next hn).then h3, hr⟩

theorem parseGroup_lang (hc : LC l0 rec) (hp : On l0 p) (ht : p.cur = .LPAREN) :
    (parseGroup rec n p).wp (fun r => r.2.1 = none → OpD p r.2.2 r.1) := by
  unfold parseGroup
  refine Out.wp_bind.mpr ((parseList_lang hc hp).mono ?_)
  rintro ⟨xs, e, r⟩ h
  refine Out.wp_ok.mpr fun he => ?_
  obtain ⟨q, es, h1, h2, h3, h4⟩ := h he
  dsimp only at h2 h3 h4 ⊢
  rw [h4]
  simp only [← listable_kind]
  refine bracket_end h1 h2 (fun us cs nx hl => .group (o := p.curTok) (c := r.curTok) ht h3 hl) (by rw [h3]; decide)

theorem parseArray_lang (hc : LC l0 rec) (hp : On l0 p) (ht : p.cur = .LBRACK) :
    (parseArray rec n p).wp (fun r => r.2.1 = none → OpD p r.2.2 r.1) := by
  unfold parseArray
  refine Out.wp_bind.mpr ((parseList_lang hc hp).mono ?_)
  rintro ⟨xs, e, r⟩ h
  refine Out.wp_ok.mpr fun he => ?_
  obtain ⟨q, es, h1, h2, h3, h4⟩ := h he
  dsimp only at h2 h3 h4 ⊢
  rw [h4]
  simp only [← listable_kind]
  refine bracket_end h1 h2 (fun us cs nx hl => .array (o := p.curTok) (c := r.curTok) ht h3 hl) (by rw [h3]; decide)

theorem parseMap_lang (hc : LC l0 rec) (hp : On l0 p) (ht : p.cur = .LBRACE) :
    (parseMap rec n p).wp (fun r => r.2.1 = none → OpD p r.2.2 r.1) := by
  unfold parseMap
  refine Out.wp_bind.mpr ((parseList_lang hc hp).mono ?_)
  rintro ⟨xs, e, r⟩ h
  refine Out.wp_ok.mpr fun he => ?_
  obtain ⟨q, es, h1, h2, h3, h4⟩ := h he
  dsimp only at h2 h3 h4 ⊢
  have : es.filter (fun e => !e.isNil) = es := by
    obtain ⟨us, cs, -, g, -⟩ := h2
    exact List.filter_eq_self.mpr fun x hx => by simp [(entries_nil g).2 _ rfl x hx]
  rw [h4, this]
  refine bracket_end h1 h2 (fun us cs nx hl => .map (o := p.curTok) (c := r.curTok) ht h3 hl) (by rw [h3]; decide)

/-- A mark and the entry behind it. -/
theorem marked_end {r : PState} {x y} (hn : p.next = .ok q) (he : EnD q r x) (hm : Marked p.curTok q.curTok x y) :
    EnD p r y := by
  obtain ⟨ws, cs, h1, h2, h3, h4⟩ := he
  obtain ⟨vs, hv⟩ := h1.head
  refine ⟨p.curTok :: ws, cs, (Span.refl p).next hn h1, ?_, (same_next hn).then h3, h4⟩
  rw [hv] at h2 ⊢
  exact .marked hm h2

theorem parseOptional_lang (hc : LC l0 rec) (hp : On l0 p) (ht : p.cur = .OPTIONAL) :
    (parseOptional rec p).wp (fun r => r.2.1 = none → EnD p r.2.2 r.1) := by
  unfold parseOptional
  refine Out.wp_bind.mpr ((nextEntry_lang hc hp).mono ?_)
  rintro ⟨x, e, r⟩ h
  dsimp only at h ⊢
  split
  · simp
  · obtain ⟨q1, h1, h2⟩ := h rfl
    exact Out.wp_ok.mpr fun _ => marked_end h1 h2 (.optional ht)

theorem parseUnwrap_lang (hc : LC l0 rec) (hp : On l0 p) (ht : p.cur = .UNWRAP) :
    (parseUnwrap rec p).wp (fun r => r.2.1 = none → EnD p r.2.2 r.1) := by
  unfold parseUnwrap
  refine Out.wp_bind.mpr ((nextEntry_lang hc hp).mono ?_)
  rintro ⟨x, e, r⟩ h
  dsimp only at h ⊢
  split
  · simp
  · obtain ⟨q1, h1, h2⟩ := h rfl
    exact Out.wp_ok.mpr fun _ => marked_end h1 h2 (.unwrap ht)

theorem parseEnumeration_lang (hc : LC l0 rec) (hp : On l0 p) (ht : p.cur = .AMPERSAND) :
    (parseEnumeration rec p).wp (fun r => r.2.1 = none → EnD p r.2.2 r.1) := by
  unfold parseEnumeration
  refine Out.wp_bind.mpr ((nextEntry_lang hc hp).mono ?_)
  rintro ⟨x, e, r⟩ h
  dsimp only at h ⊢
  split
  · simp
  · obtain ⟨q1, h1, h2⟩ := h rfl
    exact Out.wp_ok.mpr fun _ => marked_end h1 h2 (.enumeration ht)

theorem parseZMOccurrence_lang (hc : LC l0 rec) (hp : On l0 p) (ht : p.cur = .ZERO_OR_MORE) :
    (parseZMOccurrence rec p).wp (fun r => r.2.1 = none → EnD p r.2.2 r.1) := by
  unfold parseZMOccurrence parseOccurrence
  refine (parseOccUpper_lang hc hp).mono ?_
  rintro r h he
  obtain ⟨q1, x, m, h1, h2, h3, h4⟩ := h he
  rw [h4]
  exact marked_end h1 h2 (.any ht h3)

theorem parseOMOccurrence_lang (hc : LC l0 rec) (hp : On l0 p) (ht : p.cur = .ONE_OR_MORE) :
    (parseOMOccurrence rec p).wp (fun r => r.2.1 = none → EnD p r.2.2 r.1) := by
  unfold parseOMOccurrence parseOccurrence
  refine (parseOccUpper_lang hc hp).mono ?_
  rintro r h he
  obtain ⟨q1, x, m, h1, h2, h3, h4⟩ := h he
  rw [h4]
  exact marked_end h1 h2 (.some ht h3)

theorem parseTagItem_lang (hc : LC l0 rec) (hp : On l0 p) (ht : p.cur = .HASH) {ns a b}
    (hs : Span p (p.curTok :: ns) q) (he : Same p q) (hn : TagNums ns a b) (hq : q.cur ≠ .COMMA)
    (h0 : ns = [] → q.peek ≠ .INT ∧ q.peek ≠ .FLOAT) :
    (parseTagItem rec p.pos p.cur a b q).wp (fun r => r.2.1 = none → OpD p r.2.2 r.1 ∨ EnD p r.2.2 r.1) := by
  unfold parseTagItem
  split
  · rename_i hpk
    refine Out.wp_bind.mpr ?_
    intro p1 hp1
    have ho : On l0 p1 := (hs.on hp).next hp1
    refine Out.wp_bind.mpr ((nextEntry_lang hc ho).mono ?_)
    rintro ⟨x, e, r⟩ h
    dsimp only at h ⊢
    split
    · simp
    · obtain ⟨q2, h1, ws, cs, g1, g2, g3, g4⟩ := h rfl
      have hl : p1.curTok.tok = .LPAREN := (next_cur hp1).trans hpk
      have hsp : Span p (p.curTok :: ns ++ (p1.curTok :: ws)) r := hs.next hp1 ((Span.refl p1).next h1 g1)
      have heff : Eff p r cs := he.then ((same_next hp1).then ((same_next h1).then g3))
      refine Out.wp_bind.mpr ?_
      intro r' hr'
      unfold expectPeek at hr'
      split at hr'
      · rename_i hrp
        cases hr'
        refine Out.wp_ok.mpr fun _ => .inr ⟨_, cs, hsp, ?_, heff, g4⟩
        exact .unclosed (h := p.curTok) ht hn hl hrp g2
      · rename_i hrp
        have hrp' : r.peek = .RPAREN := Decidable.byContradiction hrp
        have hcur : r'.cur = .RPAREN := (next_cur hr').trans hrp'
        refine Out.wp_ok.mpr fun _ => .inl ⟨_, cs, hsp.next hr' (.refl _), ?_, heff.same (same_next hr'), by rw [hcur]; decide⟩
        rw [← curTok_next hr'] at g2
        have := Lang.tagged (h := p.curTok) (c := r'.curTok) (nx := r'.peekTok) ht hn hl hcur g2
        have hl : p.curTok :: ns ++ p1.curTok :: ws ++ [r'.curTok] = p.curTok :: ns ++ (p1.curTok :: ws) ++ [r'.curTok] := by simp
        exact hl ▸ this
  · rename_i hpk
    exact Out.wp_ok.mpr fun _ => .inl ⟨_, [], hs, .tag (h := p.curTok) ht hn hpk h0, he.eff, hq⟩

theorem parseTag_lang (hc : LC l0 rec) (hp : On l0 p) (ht : p.cur = .HASH) :
    (parseTag rec p).wp (fun r => r.2.1 = none → OpD p r.2.2 r.1 ∨ EnD p r.2.2 r.1) := by
  unfold parseTag
  split
  · rename_i hpk
    refine Out.wp_bind.mpr ?_
    intro q hq
    have hcur : q.cur = .INT := (next_cur hq).trans hpk
    split
    · simp
    · rename_i v hv
      exact parseTagItem_lang hc hp ht ((Span.refl p).next hq (.refl q)) (same_next hq) (.major hcur hv)
        (by rw [hcur]; decide) nofun
  · rename_i hpk
    refine Out.wp_bind.mpr ?_
    intro q hq
    have hcur : q.cur = .FLOAT := (next_cur hq).trans hpk
    split
    · simp
    · rename_i a b hv
      refine parseTagItem_lang hc hp ht ((Span.refl p).next hq (.refl q)) (same_next hq) ?_ (by rw [hcur]; decide) nofun
      unfold parseFloatTag at hv
      split at hv
      · rename_i s0 s1 hsp
        split at hv
        · cases hv
        · rename_i v h1
          split at hv
          · cases hv
          · rename_i w h2
            cases hv
            exact .both (t := q.curTok) hcur hsp h1 h2
      · cases hv
  · rename_i h1 h2
    exact parseTagItem_lang hc hp ht (.refl p) (.refl p) .none (by rw [ht]; decide) fun _ => ⟨h1, h2⟩

theorem single_end (h : Single p.curTok x) (hc : p.cur ≠ .COMMA) : OpD p p x :=
  ⟨_, [], .refl p, .single h, eff_refl p, hc⟩

/-- The result of the handler of a first token. -/
def NuD (p q : PState) (x : Node) : Prop := OpD p q x ∧ p.cur.precedence = 0 ∨ EnD p q x

theorem single_nud (h : Single p.curTok x) (hz : p.cur.precedence = 0) : NuD p p x :=
  .inl ⟨single_end h (prec_zero _ hz).2, hz⟩

theorem parseNamedIdentifier_lang (ht : p.cur = .IDENT) (hk : p.peek ≠ .COLON) :
    (parseNamedIdentifier p).wp (fun r => r.2.1 = none → NuD p r.2.2 r.1) := by
  unfold parseNamedIdentifier
  split
  · exact Out.wp_panic.mpr trivial
  · rename_i c cs hlit
    refine Out.wp_ok.mpr fun _ => .inl ⟨?_, by rw [ht]; decide⟩
    have hh : p.curTok.lit.head? = some c := by show p.lit.head? = _; rw [hlit]; rfl
    have hl := Lang.name (t := p.curTok) (nx := p.peekTok) ht
    dsimp only
    split
    · rename_i hc
      refine ⟨_, _, .refl p, hl, ⟨rfl, rfl, [.exists p.lit p.pos], rfl, ?_⟩, by show p.cur ≠ _; rw [ht]; decide⟩
      rw [if_neg (by rw [hh]; simpa [hc] using (show p.peekTok.tok ≠ .COLON from hk))]
      rfl
    · rename_i hc
      refine ⟨_, _, .refl p, hl, ?_, by rw [ht]; decide⟩
      rw [if_pos (by rw [hh]; exact .inr (by simpa using hc))]
      exact eff_refl p

theorem selectNud_lang (hl : Spells l0) (hc : LC l0 rec) (hp : On l0 p) (hcm : p.cur ≠ .COMMENT) {f}
    (hf : selectNud rec n p = some f) : (f p).wp (fun r => r.2.1 = none → NuD p r.2.2 r.1) := by
  have hsp := spell_cur hl hp
  unfold selectNud at hf
  split at hf
  · rename_i h
    cases hf
    refine Out.wp_ok.mpr fun _ => .inl ⟨?_, by rw [h.1]; decide⟩
    have hl := Lang.name (t := p.curTok) (nx := p.peekTok) h.1
    rw [if_pos (.inl h.2)] at hl
    exact ⟨_, [], .refl p, hl, eff_refl p, by rw [h.1]; decide⟩
  · rename_i h
    generalize htok : p.cur = tok at hf hsp
    have hz : tok.precedence = p.cur.precedence := by rw [htok]
    have one : ∀ {x}, tok.precedence = 0 → Single p.curTok x → NuD p p x := fun h0 h => single_nud h (by rw [← hz]; exact h0)
    cases tok <;> simp only [nudOf] at hf <;> cases hf
    case isFalse.IDENT.refl => exact parseNamedIdentifier_lang htok fun hk => h ⟨htok, hk⟩
    case isFalse.BOOL.refl => exact Out.wp_ok.mpr fun _ => one (by decide) (.bool htok)
    case isFalse.TRUE.refl =>
      unfold parseBooleanLiteral
      rw [hsp.1 (by decide), if_pos (by decide)]
      exact Out.wp_ok.mpr fun _ => one (by decide) (.true htok)
    case isFalse.FALSE.refl =>
      unfold parseBooleanLiteral
      rw [hsp.1 (by decide), if_neg (by decide), if_pos (by decide)]
      exact Out.wp_ok.mpr fun _ => one (by decide) (.false htok)
    case isFalse.TSTR.refl => exact Out.wp_ok.mpr fun _ => one (by decide) (.text (.inl htok))
    case isFalse.TEXT.refl => exact Out.wp_ok.mpr fun _ => one (by decide) (.text (.inr htok))
    case isFalse.TEXT_LITERAL.refl => exact Out.wp_ok.mpr fun _ => one (by decide) (.literal htok)
    case isFalse.FLOAT.refl =>
      unfold parseFloatType
      rw [htok]
      by_cases hlit : p.lit = b!"float"
      · rw [hlit, if_neg (by decide), ← htok]
        exact Out.wp_ok.mpr fun _ => one (by decide) (.float (.inr ⟨htok, hlit⟩))
      · rw [if_pos (show Tok.isLiteral .FLOAT p.lit = Bool.true from decide_eq_true (p := p.lit ≠ Tok.FLOAT.text) hlit)]
        unfold parseFloatLiteral
        split
        · simp
        · rename_i v hv
          exact Out.wp_ok.mpr fun _ => one (by decide) (.fraction htok hlit hv)
    case isFalse.FLOAT16.refl =>
      unfold parseFloatType
      rw [if_neg (by rw [htok, hsp.1 (by decide)]; decide)]
      exact Out.wp_ok.mpr fun _ => one (by decide) (.float (.inl (by show p.cur ∈ _; rw [htok]; decide)))
    case isFalse.FLOAT32.refl =>
      unfold parseFloatType
      rw [if_neg (by rw [htok, hsp.1 (by decide)]; decide)]
      exact Out.wp_ok.mpr fun _ => one (by decide) (.float (.inl (by show p.cur ∈ _; rw [htok]; decide)))
    case isFalse.FLOAT64.refl =>
      unfold parseFloatType
      rw [if_neg (by rw [htok, hsp.1 (by decide)]; decide)]
      exact Out.wp_ok.mpr fun _ => one (by decide) (.float (.inl (by show p.cur ∈ _; rw [htok]; decide)))
    case isFalse.UINT.refl =>
      unfold parseUintType
      rw [if_neg (by rw [htok, hsp.1 (by decide)]; decide)]
      exact Out.wp_ok.mpr fun _ => one (by decide) (.uint htok)
    case isFalse.INT.refl =>
      unfold parseIntegerType
      rw [htok]
      by_cases hlit : p.lit = b!"int"
      · rw [hlit, if_neg (by decide), ← htok]
        exact Out.wp_ok.mpr fun _ => one (by decide) (.int htok hlit)
      · have hlt : Tok.isLiteral .INT p.lit = Bool.true :=
          decide_eq_true (p := p.lit ≠ Tok.INT.text) hlit
        rw [if_pos hlt]
        unfold parseIntegerLiteral
        rw [htok, if_pos hlt, ← htok]
        split
        · simp
        · rename_i v hv
          exact Out.wp_ok.mpr fun _ => one (by decide) (.number htok hlit hv)
    case isFalse.NINT.refl => exact Out.wp_ok.mpr fun _ => one (by decide) (.nint htok)
    case isFalse.BSTR.refl => exact Out.wp_ok.mpr fun _ => one (by decide) (.bstr htok)
    case isFalse.BYTES.refl => exact Out.wp_ok.mpr fun _ => one (by decide) (.bytes htok)
    case isFalse.NULL.refl => exact Out.wp_ok.mpr fun _ => one (by decide) (.null (.inl htok))
    case isFalse.NIL.refl => exact Out.wp_ok.mpr fun _ => one (by decide) (.null (.inr htok))
    case isFalse.LBRACE.refl => exact (parseMap_lang hc hp htok).mono fun r h he => .inl ⟨h he, by rw [htok]; decide⟩
    case isFalse.LPAREN.refl => exact (parseGroup_lang hc hp htok).mono fun r h he => .inl ⟨h he, by rw [htok]; decide⟩
    case isFalse.LBRACK.refl => exact (parseArray_lang hc hp htok).mono fun r h he => .inl ⟨h he, by rw [htok]; decide⟩
    case isFalse.COMMENT.refl => exact absurd htok hcm
    case isFalse.OPTIONAL.refl => exact (parseOptional_lang hc hp htok).mono fun r h he => .inr (h he)
    case isFalse.ZERO_OR_MORE.refl => exact (parseZMOccurrence_lang hc hp htok).mono fun r h he => .inr (h he)
    case isFalse.ONE_OR_MORE.refl => exact (parseOMOccurrence_lang hc hp htok).mono fun r h he => .inr (h he)
    case isFalse.UNWRAP.refl => exact (parseUnwrap_lang hc hp htok).mono fun r h he => .inr (h he)
    case isFalse.HASH.refl =>
      exact (parseTag_lang hc hp htok).mono fun r h he => (h he).imp (fun h => ⟨h, by rw [htok]; decide⟩) id
    case isFalse.AMPERSAND.refl => exact (parseEnumeration_lang hc hp htok).mono fun r h he => .inr (h he)

/-- Comments, up to the last of them. -/
theorem comments_lang : ∀ (n : Nat) (acc : List Comment) (p : PState), p.cur = .COMMENT →
    (loopOut commentStep n (acc, p)).wp (fun r => ∃ gs, Span p gs r.2 ∧ (∀ g ∈ gs, g.tok = .COMMENT) ∧ Same p r.2 ∧
      r.2.peek ≠ .COMMENT ∧ ∃ gs', gs = p.curTok :: gs' ∧ r.1 = acc ++ gs'.map fun c => ⟨c.pos, c.lit⟩) := by
  intro n
  induction n with
  | zero => intro acc p _; exact Out.wp_hang.mpr trivial
  | succ n ih =>
    intro acc p hp
    rw [loopOut]
    by_cases hpk : p.peek = .COMMENT
    · cases hn : p.next with
      | panic w =>
        have : commentStep (acc, p) = .panic w := by
          unfold commentStep; simp only [if_pos hpk, Out.bind_def, hn, Out.bind]
        rw [this]; exact Out.wp_panic.mpr trivial
      | hang =>
        have : commentStep (acc, p) = .hang := by
          unfold commentStep; simp only [if_pos hpk, Out.bind_def, hn, Out.bind]
        rw [this]; exact Out.wp_hang.mpr trivial
      | ok p1 =>
        have : commentStep (acc, p) = .ok (.inl (acc ++ [p1.parseInnerComment], p1)) := by
          unfold commentStep; simp only [if_pos hpk, Out.bind_def, hn, Out.bind]
        rw [this]
        refine (ih _ p1 ((next_cur hn).trans hpk)).mono ?_
        rintro ⟨ds, q⟩ ⟨gs, h1, h2, h3, h4, gs', rfl, h5⟩
        refine ⟨p.curTok :: p1.curTok :: gs', (Span.refl p).next hn h1, ?_, (same_next hn).trans h3, h4, _, rfl, ?_⟩
        · intro g hg
          rcases List.mem_cons.mp hg with rfl | hg
          · exact hp
          · exact h2 g hg
        · dsimp only at h5 ⊢
          rw [h5, List.append_assoc]
          rfl
    · have : commentStep (acc, p) = .ok (.inr (acc, p)) := by
        unfold commentStep; simp only [if_neg hpk]
      rw [this]
      exact Out.wp_ok.mpr ⟨_, .refl p, by simpa using (show p.curTok.tok = .COMMENT from hp), .refl p, hpk, [], rfl, by simp⟩

theorem parseComment_lang (hp : p.cur = .COMMENT) : (parseComment n p).wp (fun r => r.2.1 = none ∧
    ∃ gs, gs ≠ [] ∧ Span p gs r.2.2 ∧ (∀ g ∈ gs, g.tok = .COMMENT) ∧ Same p r.2.2 ∧ r.2.2.peek ≠ .COMMENT ∧ r.1 = commentTree gs) := by
  unfold parseComment
  refine Out.wp_bind.mpr ((comments_lang n _ p hp).mono ?_)
  rintro ⟨cs, q⟩ ⟨gs, h1, h2, h3, h4, gs', rfl, h5⟩
  dsimp only at h1 h3 h4 h5 ⊢
  subst h5
  cases gs' with
  | nil => exact Out.wp_ok.mpr ⟨rfl, _, by simp, h1, h2, h3, h4, rfl⟩
  | cons g gs' => exact Out.wp_ok.mpr ⟨rfl, _, by simp, h1, h2, h3, h4, rfl⟩

omit [Unicode] in
theorem skips {x ts nx cs} (h : Lang (.entry x) ts nx cs) : ∀ gs : List Token, (∀ g ∈ gs, g.tok = .COMMENT) →
    Lang (.entry x) (gs ++ ts) nx cs
  | [], _ => h
  | g :: gs, hg => .skip (hg g (by simp)) (skips h gs fun g h => hg g (by simp [h]))

theorem parseEntry_lang (hl : Spells l0) (n : Nat) : LC l0 (parseEntry n) := by
  induction n with
  | zero => intro prec p _ _; exact Out.wp_hang.mpr trivial
  | succ n ih =>
    have key : ∀ prec p, On l0 p → prec ≤ p.cur.precedence → p.cur ≠ .COMMENT →
        Out.wp (match selectNud (parseEntry n) n p with
          | none => .ok (.nil, some (errPrefix p.pos p.cur), p)
          | some nud => do
            let (exp, err, p') ← nud p
            match err with
            | some e => .ok (exp, some e, p')
            | none => loopOut (ledStep (parseEntry n) prec) n (exp, p')) (fun r => r.2.1 = none → EnD p r.2.2 r.1) := by
      intro prec p hp hz hcm
      split
      · simp
      · rename_i f hf
        refine Out.wp_bind.mpr ((selectNud_lang hl ih hp hcm hf).mono ?_)
        rintro ⟨x, e, q⟩ h
        dsimp only at h ⊢
        split
        · simp
        · refine ledLoop_lang ih hp prec x q ?_
          rcases h rfl with ⟨h, h0⟩ | h
          · exact .inl ⟨h, by omega⟩
          · exact .inr h
    intro prec p hp hz
    rw [parseEntry]
    unfold parseEntryBody
    by_cases hcm : p.cur = .COMMENT
    · unfold skipComment
      rw [if_pos hcm]
      refine Out.wp_bind.mpr (Out.wp_bind.mpr ((parseComment_lang hcm).mono ?_))
      rintro ⟨c, e, p1⟩ ⟨-, gs, -, h1, h2, h3, h4, -⟩
      dsimp only at h1 h3 h4 ⊢
      intro p2 hn
      obtain rfl : prec = 0 := by rw [hcm] at hz; exact Nat.le_zero.mp hz
      refine (key 0 p2 ((h1.on hp).next hn) (Nat.zero_le _) (by rw [next_cur hn]; exact h4)).mono ?_
      intro r hr he
      obtain ⟨ws, cs, g1, g2, g3, g4⟩ := hr he
      exact ⟨gs ++ ws, cs, h1.next hn g1, skips g2 gs h2, (h3.trans (same_next hn)).then g3, g4⟩
    · rw [skip_none hcm]
      exact key prec p hp hz hcm

end PState
end Cddlc
