import Verif.Lemmas.FileFacts
import Verif.Lemmas.Spelled
import Verif.Spec.Diag

/-! Where diagnostics point and what they say: every diagnostic of the parser starts at a token, and
what it says is true of the tokens. -/

namespace Cddlc
open Spec
variable [Unicode]

/-- A token stands at `pos`. -/
def AtTk (l : Lexer) (pos : Pos) : Prop := ∃ t, Tk l t ∧ t.pos = pos

/-- A diagnostic of the rule phase: it starts at a token, and tells the truth. -/
def DiagOK (l : Lexer) (d : Diag) : Prop := AtTk l d.start ∧ onlyDeferred d.msg = false ∧ Tells l d

theorem Spec.TkAt.at {l : Lexer} {t pos} (h : TkAt l t pos) : AtTk l pos := by
  obtain ⟨lit, h⟩ := h; exact ⟨_, h, rfl⟩

theorem Spec.Tk.at {l : Lexer} {t pos lit} (h : Tk l ⟨t, pos, lit⟩) : AtTk l pos := ⟨_, h, rfl⟩

theorem On.atCur {l : Lexer} {p : PState} (h : On l p) : AtTk l p.pos := h.tkAt.at

/-- The start of a node made of tokens is at a token. -/
theorem good_start_at {l : Lexer} : ∀ (x : Node) {pos}, (∀ y ∈ subs x, FromTokens l y) →
    x.start = .ok pos → AtTk l pos := by
  intro x
  have self : ∀ (x : Node), x.isNil = false → x ∈ subs x := by
    intro x h; cases x <;> first | (simp [subs]; done) | cases h
  induction x using Node.start.induct with
  | case1 => intro pos _ h; cases h
  | case2 => intro pos _ h; cases h
  | case13 p t a b ih => intro pos h hs; exact ih (fun y hy => h y (by simp [subs, hy])) hs
  | case14 p t o a b ih => intro pos h hs; exact ih (fun y hy => h y (by simp [subs, hy])) hs
  | case16 p t a b ih => intro pos h hs; exact ih (fun y hy => h y (by simp [subs, hy])) hs
  | case22 p t a b ih => intro pos h hs; exact ih (fun y hy => h y (by simp [subs, hy])) hs
  | case32 p t a b ih => intro pos h hs; exact ih (fun y hy => h y (by simp [subs, hy])) hs
  | case37 p t a b ih => intro pos h hs; exact ih (fun y hy => h y (by simp [subs, hy])) hs
  | case4 p t b e ih => intro pos h hs; exact ih (fun y hy => h y (by simp [subs, hy])) hs
  | case31 => intro pos _ h; cases h
  | case30 p t n m i =>
    intro pos h hs
    cases hs
    have := h _ (self _ rfl)
    obtain ⟨_, h1, _, ⟨u, hu, h2⟩, _⟩ := this
    cases hu
    rcases h2 with ⟨h2, _⟩ | ⟨lit, h2, _⟩ | ⟨lit, h2, _⟩
    · rw [h2]; exact h1.at
    · exact h2.at
    · exact h2.at
  | case17 p n v c =>
    intro pos h hs
    cases hs
    have := h _ (self _ rfl)
    obtain ⟨h1, _, h2 | ⟨_, _, _, _, _, h2⟩⟩ := this
    · exact h2.at
    · rw [h2]; rcases h1 with h1 | h1 <;> exact h1.at
  | case15 p t b r =>
    intro pos h hs
    cases hs
    have : FromTokens l (.tstr b) := h _ (by simp [subs])
    exact this.2.at
  | _ =>
    intro pos h hs
    have := h _ (self _ rfl)
    first
      | exact this.elim
      | (cases hs; first
          | (obtain ⟨_, h⟩ := this; exact h.at)
          | exact this.at
          | (obtain ⟨h, _⟩ := this; exact h.at)
          | (obtain ⟨_, h, _⟩ := this; exact h.at)
          | (obtain ⟨_, _, h, _⟩ := this; exact h.at))

namespace PState

/-- What is known of a deferred check: its names stand in the source. -/
def TaskOK (l : Lexer) : Task → Prop
  | .exists name pos => Tk l ⟨.IDENT, pos, name⟩
  | .identBound tok left to => (tok = .INCLUSIVE_BOUND ∨ tok = .EXCLUSIVE_BOUND) ∧
      Tk l ⟨.IDENT, left.pos, left.name⟩ ∧
      ∀ i, to = .ident i → Tk l ⟨.IDENT, i.pos, i.name⟩
  | .intBound name s _ => Tk l ⟨.IDENT, s, name⟩
  | .floatBound name s _ => Tk l ⟨.IDENT, s, name⟩

/-- The parser is somewhere in the tokens of `l`, and so are its deferred checks. -/
def OnT (l : Lexer) (p : PState) : Prop := On l p ∧ (∀ t ∈ p.tasks, TaskOK l t) ∧ Spells l

theorem OnT.next {l : Lexer} {p q : PState} (h : OnT l p) (hn : p.next = .ok q) : OnT l q :=
  ⟨h.1.next hn, by rw [(next_fields hn).2.2.2.2.1]; exact h.2.1, h.2.2⟩

theorem OnT.atCur {l : Lexer} {p : PState} (h : OnT l p) : AtTk l p.pos := h.1.atCur

theorem OnT.task {l : Lexer} {p : PState} {t} (h : OnT l p) (ht : TaskOK l t) : OnT l (p.addTask t) :=
  ⟨h.1, fun u hu => by
    rcases List.mem_append.mp hu with hu | hu
    · exact h.2.1 u hu
    · rw [List.mem_singleton.mp hu]; exact ht, h.2.2⟩

/-- The diagnostic of a result, if any, is one of the rule phase. -/
def ErrOK (l : Lexer) (r : Node × Option Diag × PState) : Prop :=
  (∀ d, r.2.1 = some d → DiagOK l d) ∧ OnT l r.2.2

/-- What a recursive call is assumed to do. -/
def EC (l : Lexer) (rec : Rec) : Prop := ∀ prec p, (p.cur = .IDENT ∨ p.cur = .COMMENT → prec = 0) →
  OnT l p → (rec prec p).wp (fun r => (r.2.1 = none → Good l r.2.2.tasks r.1) ∧ ErrOK l r)

variable {l : Lexer} {rec : Rec} {p0 p q : PState} {n : Nat} {left : Node}

theorem errOK_none {x : Node} {p : PState} (h : OnT l p) : ErrOK l (x, none, p) :=
  ⟨fun _ h => (nomatch h), h⟩

theorem errOK_some {x : Node} {p : PState} {d} (h : OnT l p) (hd : DiagOK l d) : ErrOK l (x, some d, p) :=
  ⟨fun _ h' => (by cases h'; exact hd), h⟩

theorem nextEntry_err (hc : EC l rec) (h : OnT l p) :
    (nextEntry rec p).wp (fun r => (r.2.1 = none → Good l r.2.2.tasks r.1) ∧ ErrOK l r) := by
  unfold nextEntry
  refine Out.wp_bind.mpr ?_
  intro q hq
  exact hc _ q (prec_cur q) (h.next hq)

/-- An operand and what is done with it. -/
theorem pass_err (hc : EC l rec) (h : OnT l p) {F : Node × Option Diag × PState → PRes}
    (hs : ∀ x e q, OnT l q → DiagOK l e → (F (x, some e, q)).wp (ErrOK l))
    (hn : ∀ x q, OnT l q → Good l q.tasks x → (F (x, none, q)).wp (ErrOK l)) :
    (nextEntry rec p >>= F).wp (ErrOK l) := by
  refine Out.wp_bind.mpr ((nextEntry_err hc h).mono ?_)
  rintro ⟨x, e, r⟩ ⟨h2, h3⟩
  cases e with
  | some d => exact hs x d r h3.2 (h3.1 _ rfl)
  | none => exact hn x r h3.2 (h2 rfl)

theorem diag_at {m : Msg} {pos stop : Pos} (h : AtTk l pos) (hm : onlyDeferred m = false)
    (ht : Tells l ⟨m, pos, stop⟩) : DiagOK l ⟨m, pos, stop⟩ := ⟨h, hm, ht⟩

theorem OnT.spelled (h : OnT l p) : Spelled p.cur p.lit := h.2.2 _ h.1.tk

theorem OnT.follows (h : OnT l p) : Follows l ⟨p.cur, p.pos, p.lit⟩ ⟨p.peek, p.peekPos, p.peekLit⟩ := by
  obtain ⟨ts, h⟩ := h.1
  exact ⟨ts, p.lx, h⟩

theorem OnT.followed (h : OnT l p) (hn : p.next = .ok q) :
    Follows l ⟨p.cur, p.pos, p.lit⟩ ⟨q.cur, q.pos, q.lit⟩ := by
  have := h.follows
  have hf := next_cur hn
  unfold PState.next at hn
  obtain ⟨⟨t, pos, lit, lx⟩, _, hn⟩ := Out.bind_eq_ok.mp hn
  cases hn
  exact this

theorem OnT.missing_uint (h : OnT l p) (hl : p.cur.isLiteral p.lit = true) (hk : p.cur = .INT ∨ p.cur = .UINT)
    {e} (he : parseUint p.lit = .error e) : Missing l .UINT p.pos := by
  rcases hk with hk | hk
  · have := h.1.tk
    rw [hk] at this
    rw [hk] at hl
    exact ⟨_, this, of_decide_eq_true hl, fun v hv => by rw [he] at hv; cases hv⟩
  · exfalso
    have := h.spelled.1 (by rw [hk]; decide)
    rw [hk] at this hl
    simp [Tok.isLiteral, this] at hl

theorem OnT.missing_int (h : OnT l p) (hl : p.cur.isLiteral p.lit = true) (hk : p.cur = .INT)
    {e} (he : parseInt p.lit = .error e) : Missing l .INT p.pos := by
  have := h.1.tk
  rw [hk] at this hl
  exact ⟨_, this, of_decide_eq_true hl, fun v hv => by rw [he] at hv; cases hv⟩

theorem OnT.missing_float (h : OnT l p) (hl : p.cur.isLiteral p.lit = true)
    (hk : p.cur ∈ [Tok.FLOAT, .FLOAT16, .FLOAT32, .FLOAT64])
    {e} (he : parseFloat p.lit = .error e) : Missing l .FLOAT p.pos := by
  by_cases hf : p.cur = .FLOAT
  · have := h.1.tk
    rw [hf] at this hl
    exact ⟨_, this, of_decide_eq_true hl, fun v hv => by rw [he] at hv; cases hv⟩
  · exfalso
    have hk' : p.cur ∈ [Tok.FLOAT16, .FLOAT32, .FLOAT64] := by
      rcases List.mem_cons.mp hk with hk | hk
      · exact absurd hk hf
      · exact hk
    have := h.spelled.1 (by revert hk'; generalize p.cur = c; cases c <;> decide)
    rw [this] at hl
    revert hl hk'; generalize p.cur = c; cases c <;> decide

theorem parseColon_err (hc : EC l rec) (h : OnT l p) (hk : p.cur = .COLON ∨ p.cur = .ARROW_MAP) :
    (parseColon rec left p).wp (ErrOK l) := by
  unfold parseColon
  dsimp only
  split
  · exact Out.wp_ok.mpr (errOK_some h ⟨h.atCur, rfl, rfl, _, h.1.tk, Or.inl ⟨hk, rfl⟩⟩)
  · refine pass_err hc h (fun _ _ _ ho he => Out.wp_ok.mpr (errOK_some ho he)) fun x q ho _ => ?_
    dsimp only
    split
    · refine Out.wp_bind.mpr ?_
      intro r hr
      exact Out.wp_ok.mpr (errOK_none (ho.next hr))
    · exact Out.wp_ok.mpr (errOK_none ho)

theorem parseTypeChoice_err (hc : EC l rec) (h : OnT l p) :
    (parseTypeChoice rec left p).wp (ErrOK l) := by
  unfold parseTypeChoice
  exact pass_err hc h (fun _ _ _ ho he => Out.wp_ok.mpr (errOK_some ho he)) fun _ _ ho _ => Out.wp_ok.mpr (errOK_none ho)

theorem parseUnwrap_err (hc : EC l rec) (h : OnT l p) : (parseUnwrap rec p).wp (ErrOK l) := by
  unfold parseUnwrap
  exact pass_err hc h (fun _ _ _ ho he => Out.wp_ok.mpr (errOK_some ho he)) fun _ _ ho _ => Out.wp_ok.mpr (errOK_none ho)

theorem parseOptional_err (hc : EC l rec) (h : OnT l p) : (parseOptional rec p).wp (ErrOK l) := by
  unfold parseOptional
  exact pass_err hc h (fun _ _ _ ho he => Out.wp_ok.mpr (errOK_some ho he)) fun _ _ ho _ => Out.wp_ok.mpr (errOK_none ho)

theorem parseEnumeration_err (hc : EC l rec) (h : OnT l p) : (parseEnumeration rec p).wp (ErrOK l) := by
  unfold parseEnumeration
  exact pass_err hc h (fun _ _ _ ho he => Out.wp_ok.mpr (errOK_some ho he))
    fun _ _ ho _ => Out.wp_ok.mpr (errOK_none ho)

theorem parseTagItem_err (hc : EC l rec) (h : OnT l p) {pos tok a b} :
    (parseTagItem rec pos tok a b p).wp (ErrOK l) := by
  unfold parseTagItem
  split
  · refine Out.wp_bind.mpr ?_
    intro q hq
    refine pass_err hc (h.next hq) (fun _ _ _ ho he => Out.wp_ok.mpr (errOK_some ho he)) fun x r ho _ => ?_
    refine Out.wp_bind.mpr ?_
    intro s hs
    refine Out.wp_ok.mpr (errOK_none ?_)
    unfold expectPeek at hs
    split at hs
    · cases hs; exact ho
    · exact ho.next hs
  · exact Out.wp_ok.mpr (errOK_none h)

theorem parseFloatTag_err (h : OnT l q) {t : Token} (ht : t.tok = .HASH)
    (hf : Follows l t ⟨.FLOAT, q.pos, q.lit⟩) {d} (he : q.parseFloatTag = .error d) : DiagOK l d := by
  unfold parseFloatTag at he
  split at he
  · rename_i s0 s1 hsp
    split at he
    · rename_i e he'
      cases he; exact ⟨h.atCur, rfl, rfl, ⟨_, _, ht, hf, by rw [hsp]; simp⟩, he'⟩
    · split at he
      · rename_i e he'
        cases he; exact ⟨h.atCur, rfl, rfl, ⟨_, _, ht, hf, by rw [hsp]; simp⟩, he'⟩
      · cases he
  · rename_i hsp
    cases he; exact ⟨h.atCur, rfl, rfl, ⟨_, ht, hf⟩, fun hlen => by
      match hab : splitDots q.lit, hlen with
      | [a, b], _ => exact hsp a b hab⟩

theorem parseTag_err (hc : EC l rec) (h : OnT l p) (hk : p.cur = .HASH) :
    (parseTag rec p).wp (ErrOK l) := by
  unfold parseTag
  split
  · rename_i hp
    refine Out.wp_bind.mpr ?_
    intro q hq
    have hf := h.followed hq
    rw [next_cur hq, hp] at hf
    split
    · rename_i e he
      exact Out.wp_ok.mpr (errOK_some (h.next hq) ⟨(h.next hq).atCur, rfl, rfl, _, _, hk, hf,
        fun v hv => by rw [he] at hv; cases hv⟩)
    · exact parseTagItem_err hc (h.next hq)
  · rename_i hp
    refine Out.wp_bind.mpr ?_
    intro q hq
    have hf := h.followed hq
    rw [next_cur hq, hp] at hf
    split
    · rename_i e he
      exact Out.wp_ok.mpr (errOK_some (h.next hq) (parseFloatTag_err (h.next hq) hk hf he))
    · exact parseTagItem_err hc (h.next hq)
  · exact parseTagItem_err hc h

theorem parseOccItem_err (hc : EC l rec) (h : OnT l p) {pos tok a b} :
    (parseOccItem rec pos tok a b p).wp (ErrOK l) := by
  unfold parseOccItem
  refine Out.wp_bind.mpr ((hc _ p (prec_cur p) h).mono ?_)
  rintro ⟨x, e, r⟩ ⟨h2, h3⟩
  dsimp only at h2 h3 ⊢
  split
  · exact Out.wp_ok.mpr (errOK_some h3.2 (h3.1 _ rfl))
  · exact Out.wp_ok.mpr (errOK_none h3.2)

theorem parseUintType_err (h : OnT l p) (hk : p.cur = .INT ∨ p.cur = .UINT) :
    (parseUintType p).wp (fun r => ErrOK l r ∧ r.2.2 = p) := by
  unfold parseUintType parseUintLiteral
  split
  · rename_i hl
    split
    · rename_i e he
      exact Out.wp_ok.mpr ⟨errOK_some h ⟨h.atCur, rfl, rfl, rfl, h.missing_uint hl hk he⟩, rfl⟩
    · exact Out.wp_ok.mpr ⟨errOK_none h, rfl⟩
  · exact Out.wp_ok.mpr ⟨errOK_none h, rfl⟩

theorem parseOccUpper_err (hc : EC l rec) (h : OnT l p) {u} :
    (parseOccUpper rec u p).wp (ErrOK l) := by
  unfold parseOccUpper
  split
  · rename_i hp
    refine Out.wp_bind.mpr ?_
    intro q hq
    refine Out.wp_bind.mpr ((parseUintType_err (h.next hq) (Or.inl (by rw [next_cur hq]; exact hp.1))).mono ?_)
    rintro ⟨x, e, r⟩ ⟨h1, h2⟩
    dsimp only at h1 h2 ⊢
    subst h2
    split
    · exact Out.wp_ok.mpr (errOK_some (h.next hq) (h1.1 _ rfl))
    · exact parseOccItem_err hc (h.next hq)
  · refine Out.wp_bind.mpr ?_
    intro q hq
    exact parseOccItem_err hc (h.next hq)

theorem parseOccurrence_err (hc : EC l rec) (h : OnT l p) (hop : p.cur = .ZERO_OR_MORE ∨ p.cur = .ONE_OR_MORE)
    {ts} (hl : Good l ts left) :
    (parseOccurrence rec left p).wp (ErrOK l) := by
  unfold parseOccurrence
  split
  · exact parseOccUpper_err hc h
  · split
    · rename_i hneg
      obtain ⟨_, lit, hk, hv⟩ := hl.self
      rename_i htok
      subst htok
      exact absurd ((h.2.2 _ hk).int_nonneg hv) (by omega)
    · exact parseOccUpper_err hc h
  · refine Out.wp_bind.mpr ?_
    intro s hs
    refine Out.wp_bind.mpr (Out.wp_true.mono ?_)
    intro e _
    exact Out.wp_ok.mpr (errOK_some h (diag_at (good_start_at left (fun y hy => (hl.2 y hy).1) hs) rfl
      ⟨hop, _, h.1.tkAt⟩))

theorem parseSizeOperator_err (hc : EC l rec) (h : OnT l p) (hk : p.cur = .SIZE) :
    (parseSizeOperator rec left p).wp (ErrOK l) := by
  unfold parseSizeOperator
  split
  all_goals first
    | exact pass_err hc h (fun _ _ _ ho he => Out.wp_ok.mpr (errOK_some ho he)) fun _ _ ho _ => Out.wp_ok.mpr (errOK_none ho)
    | exact Out.wp_ok.mpr (errOK_some h ⟨h.atCur, rfl, rfl, _, h.1.tk, Or.inr (Or.inl ⟨hk, rfl⟩)⟩)

theorem parseRegexp_err (hc : EC l rec) (h : OnT l p) (hk : p.cur = .REGEXP) :
    (parseRegexp rec left p).wp (ErrOK l) := by
  unfold parseRegexp
  split
  · rename_i base
    split
    · rename_i hp
      have hf := h.follows
      rw [hk] at hf
      exact Out.wp_ok.mpr (errOK_some h ⟨h.atCur, rfl, rfl, rfl, _, _, hf, hp.1, hp.2⟩)
    · exact pass_err hc h (fun _ _ _ ho he => Out.wp_ok.mpr (errOK_some ho he))
        fun _ _ ho _ => Out.wp_ok.mpr (errOK_none ho)
  · exact Out.wp_panic.mpr trivial

theorem parseBits_err (hc : EC l rec) (h : OnT l p) : (parseBits rec left p).wp (ErrOK l) := by
  unfold parseBits
  refine Out.wp_bind.mpr ((nextEntry_err hc h).mono ?_)
  rintro ⟨x, e, r⟩ ⟨h2, h3⟩
  dsimp only at h2 h3 ⊢
  split
  · exact Out.wp_bind.mpr (Out.wp_true.mono fun _ _ => Out.wp_ok.mpr (errOK_some h3.2 (h3.1 _ rfl)))
  · exact Out.wp_ok.mpr (errOK_none h3.2)

theorem parseComparatorOp_err (hc : EC l rec) (h : OnT l p)
    (hk : p.cur ∈ [Tok.LT, .LE, .GT, .GE, .EQ, .NE]) :
    (parseComparatorOp rec left p).wp (ErrOK l) := by
  unfold parseComparatorOp
  split
  all_goals first
    | exact pass_err hc h (fun _ _ _ ho he => Out.wp_ok.mpr (errOK_some ho he))
        fun _ _ ho _ => Out.wp_ok.mpr (errOK_none ho)
    | exact Out.wp_ok.mpr (errOK_some h ⟨h.atCur, rfl, rfl, _, h.1.tk, Or.inr (Or.inr ⟨hk, rfl⟩)⟩)

theorem parseBound_err (hc : EC l rec) (h : OnT l p)
    (hb : p.cur = .INCLUSIVE_BOUND ∨ p.cur = .EXCLUSIVE_BOUND) {ts} (hl : Good l ts left) :
    (parseBound rec left p).wp (ErrOK l) := by
  unfold parseBound
  split
  · rename_i a b c
    refine pass_err hc h (fun _ _ _ ho he => Out.wp_ok.mpr (errOK_some ho he)) fun x q ho hx => ?_
    dsimp only
    split
    · exact Out.wp_ok.mpr (errOK_none ho)
    · obtain ⟨lit, hk, hv, _⟩ := hx.self
      exact Out.wp_ok.mpr (errOK_some ho (diag_at hk.at rfl ⟨_, _, _, hk, hv⟩))
    · exact Out.wp_ok.mpr (errOK_none (ho.task hx.self))
    · exact Out.wp_ok.mpr (errOK_none ho)
  · rename_i a b c
    refine pass_err hc h (fun _ _ _ ho he => Out.wp_ok.mpr (errOK_some ho he)) fun x q ho hx => ?_
    dsimp only
    split
    · exact Out.wp_ok.mpr (errOK_none ho)
    · obtain ⟨htok, lit, hk, hv⟩ := hx.self
      rw [htok] at hk
      exact Out.wp_ok.mpr (errOK_some ho (diag_at hk.at rfl ⟨_, _, hk, hv⟩))
    · exact Out.wp_ok.mpr (errOK_none (ho.task hx.self))
    · exact Out.wp_ok.mpr (errOK_none ho)
  · rename_i i
    exact pass_err hc h (fun _ _ _ ho he => Out.wp_ok.mpr (errOK_some ho he))
      fun x q ho hx => Out.wp_ok.mpr (errOK_none (ho.task ⟨hb, hl.self, fun i hi => by
        subst hi; exact hx.self⟩))
  · exact Out.wp_ok.mpr (errOK_none h)

theorem ledOf_err (hc : EC l rec) (h : OnT l p) {ts} (hl : Good l ts left) {f}
    (hf : ledOf rec p.cur = some f) : (f left p).wp (ErrOK l) := by
  generalize ht : p.cur = t at hf
  unfold ledOf at hf
  split at hf <;> cases hf
  all_goals first
    | exact parseColon_err hc h (by first | exact Or.inl ht | exact Or.inr ht)
    | exact parseTypeChoice_err hc h
    | exact parseComparatorOp_err hc h (by rw [ht]; decide)
    | exact parseSizeOperator_err hc h ht
    | exact parseRegexp_err hc h ht
    | exact parseBits_err hc h
    | exact parseBound_err hc h (by first | exact Or.inl ht | exact Or.inr ht) hl
    | exact parseOccurrence_err hc h (by first | exact Or.inl ht | exact Or.inr ht) hl
    | exact Out.wp_ok.mpr (errOK_none h)

theorem parseList_err (hc : EC l rec) (h : OnT l p) {close keep} :
    (parseList rec n close keep p).wp (fun r => (∀ d, r.2.1 = some d → DiagOK l d) ∧ OnT l r.2.2) := by
  unfold parseList
  refine Out.wp_bind.mpr ?_
  intro q hq
  refine loopOut_wp (I := fun s => OnT l s.2) ?_ n _ (h.next hq)
  rintro ⟨xs, s⟩ hs
  unfold listStep
  dsimp only at hs ⊢
  split
  · exact Out.wp_ok.mpr ⟨fun d hd => (by cases hd), hs⟩
  · refine Out.wp_bind.mpr ((hc _ s (prec_cur s) hs).mono ?_)
    rintro ⟨x, e, r⟩ ⟨h2, h3⟩
    dsimp only at h2 h3 ⊢
    split
    · exact Out.wp_ok.mpr ⟨fun d hd => (by cases hd; exact h3.1 _ rfl), h3.2⟩
    · refine Out.wp_bind.mpr ?_
      intro r' hr'
      exact Out.wp_ok.mpr (h3.2.next hr')

theorem comments_onT {p q : PState} {cs} (hc : Comments p cs q) : OnT l p → OnT l q := by
  induction hc with
  | stop _ => exact id
  | more _ hn _ ih => exact fun h => ih (h.next hn)

theorem nudOf_err (hc : EC l rec) (h : OnT l p) {f} (hf : nudOf rec n p.cur = some f) :
    (f p).wp (ErrOK l) := by
  have hlist : ∀ {close keep} {k : List Node → Node},
      (do
        let (es, err, p') ← parseList rec n close keep p
        .ok (k es, err, p') : PRes).wp (ErrOK l) := by
    intro close keep k
    refine Out.wp_bind.mpr ((parseList_err hc h).mono ?_)
    rintro ⟨es, e, r⟩ hr
    exact Out.wp_ok.mpr hr
  have hz : ∀ u, (parseOccurrence rec (.uintLit u) p).wp (ErrOK l) := fun u => parseOccUpper_err hc h
  generalize ht : p.cur = t at hf
  unfold nudOf at hf
  split at hf <;> cases hf
  all_goals first
    | exact Out.wp_ok.mpr (errOK_none h)
    | exact hlist
    | exact parseOptional_err hc h
    | exact parseUnwrap_err hc h
    | exact parseEnumeration_err hc h
    | exact parseTag_err hc h ht
    | exact hz _
    | exact (parseUintType_err h (by first | exact Or.inl ht | exact Or.inr ht)).mono fun _ h => h.1
    | (unfold parseNamedIdentifier
       split
       · exact Out.wp_panic.mpr trivial
       · split
         · exact Out.wp_ok.mpr (errOK_none (h.task (show Tk l ⟨.IDENT, p.pos, p.lit⟩ by have := h.1.tk; rwa [ht] at this)))
         · exact Out.wp_ok.mpr (errOK_none h))
    | (unfold parseBooleanLiteral
       split
       · exact Out.wp_ok.mpr (errOK_none h)
       · split
         · exact Out.wp_ok.mpr (errOK_none h)
         · rename_i h1 h2
           have hs := h.spelled.1 (by rw [ht]; decide)
           rw [ht] at hs
           first | exact absurd hs h1 | exact absurd hs h2)
    | (unfold parseFloatType parseFloatLiteral
       split
       · rename_i hl
         split
         · rename_i e he
           exact Out.wp_ok.mpr (errOK_some h ⟨h.atCur, rfl, rfl, rfl, h.missing_float hl (by rw [ht]; decide) he⟩)
         · exact Out.wp_ok.mpr (errOK_none h)
       · exact Out.wp_ok.mpr (errOK_none h))
    | (unfold parseIntegerType parseIntegerLiteral
       split
       · rename_i hl
         split
         · rename_i e he
           exact Out.wp_ok.mpr (errOK_some h ⟨h.atCur, rfl, rfl, rfl, h.missing_int hl ht he⟩)
         · exact Out.wp_ok.mpr (errOK_none h)
       · exact Out.wp_ok.mpr (errOK_none h))
    | exact parseComment_der.mono fun r hr => ⟨fun d hd => (by rw [hr.1] at hd; cases hd),
        let ⟨_, _, h1, _⟩ := hr; comments_onT h1 h⟩

theorem ledLoop_err (hd : DC rec) (hc : EC l rec) (h0 : OnT l p0) (prec : Nat) (x : Node) (q : PState)
    (h : Der false p0 [x] q) (hq : OnT l q) : (loopOut (ledStep rec prec) n (x, q)).wp (ErrOK l) := by
  refine loopOut_wp (I := fun s => Der false p0 [s.1] s.2 ∧ OnT l s.2) ?_ n _ ⟨h, hq⟩
  rintro ⟨x, s⟩ ⟨hs, hos⟩
  unfold ledStep
  dsimp only at hs hos ⊢
  split
  · split
    · exact Out.wp_ok.mpr (errOK_none hos)
    · rename_i f hf
      refine Out.wp_bind.mpr ?_
      intro q1 hq1
      refine Out.wp_bind.mpr (((ledOf_der hd hs hq1 hf).and
        (ledOf_err hc (hos.next hq1) (der_good hs h0.1 _ (List.mem_singleton.mpr rfl)) (by rw [next_cur hq1]; exact hf))).mono ?_)
      rintro ⟨y, e, r⟩ ⟨hr, he⟩
      dsimp only at hr he ⊢
      split
      · exact Out.wp_ok.mpr he
      · exact Out.wp_ok.mpr ⟨hr rfl, he.2⟩
  · exact Out.wp_ok.mpr (errOK_none hos)

theorem afterSkip_err (hd : DC rec) (hc : EC l rec) {prec} (h0 : p.cur = .IDENT → prec = 0)
    (hcm : p.cur ≠ .COMMENT) (h : OnT l p) :
    (match selectNud rec n p with
      | none => .ok (.nil, some (errPrefix p.pos p.cur), p)
      | some nud => do
        let (exp, err, p') ← nud p
        match err with
        | some e => .ok (exp, some e, p')
        | none => loopOut (ledStep rec prec) n (exp, p') : PRes).wp (ErrOK l) := by
  unfold selectNud
  by_cases hic : p.cur = .IDENT ∧ p.peek = .COLON
  · rw [if_pos hic]
    show (loopOut (ledStep rec prec) n (.ident ⟨p.pos, p.lit⟩, p)).wp _
    rw [h0 hic.1]
    cases n with
    | zero => exact Out.wp_hang.mpr trivial
    | succ n =>
      rw [loopOut]
      unfold ledStep
      have hcond : p.cur ≠ .COMMA ∧ 0 < p.peek.precedence := by
        rw [hic.1, hic.2]; decide
      simp only [if_pos hcond]
      rw [show ledOf rec p.peek = some (parseColon rec) by rw [hic.2]; rfl]
      simp only [Out.bind_def]
      cases hnx : p.next with
      | panic w => exact Out.wp_panic.mpr trivial
      | hang => exact Out.wp_hang.mpr trivial
      | ok q1 =>
        have := (parseColon_field hd hic.1 hic.2 hnx).and
          (parseColon_err (left := .ident ⟨p.pos, p.lit⟩) hc (h.next hnx)
            (Or.inl (by rw [next_cur hnx]; exact hic.2)))
        simp only [Out.bind]
        cases hcol : parseColon rec (.ident ⟨p.pos, p.lit⟩) q1 with
        | panic w => exact Out.wp_panic.mpr trivial
        | hang => exact Out.wp_hang.mpr trivial
        | ok v =>
          obtain ⟨y, e, r⟩ := v
          rw [hcol] at this
          have := Out.wp_ok.mp this
          cases e with
          | some e => exact Out.wp_ok.mpr this.2
          | none => exact ledLoop_err hd hc h 0 y r (this.1 rfl) this.2.2
  · rw [if_neg hic]
    split
    · rename_i hno
      refine Out.wp_ok.mpr (errOK_some h ⟨h.atCur, rfl, rfl, rfl, h.1.tkAt, fun hm => ?_⟩)
      revert hno hm
      generalize p.cur = c
      cases c <;> first | (intro hno; cases hno; done) | (intro _ hm; exact absurd hm (by decide))
    · rename_i f hf
      refine Out.wp_bind.mpr (((nudOf_der hd hcm hf).and (nudOf_err hc h hf)).mono ?_)
      rintro ⟨x, e, q⟩ ⟨hq, he⟩
      dsimp only at hq he ⊢
      split
      · exact Out.wp_ok.mpr he
      · exact ledLoop_err hd hc h prec x q (hq rfl) he.2

/-- The diagnostic of a failed entry is one of the rule phase. -/
theorem parseEntry_err (n : Nat) : EC l (parseEntry n) := by
  induction n with
  | zero => intro prec p _ _; exact Out.wp_hang.mpr trivial
  | succ n ih =>
    intro prec p h0 h
    have hD := parseEntry_der (n + 1) prec p h0
    have hE : (parseEntry (n + 1) prec p).wp (ErrOK l) := by
      show (parseEntryBody (parseEntry n) n prec p).wp _
      unfold parseEntryBody skipComment
      by_cases hcm : p.cur = .COMMENT
      · rw [if_pos hcm]
        refine Out.wp_bind.mpr (Out.wp_bind.mpr (parseComment_der.mono ?_))
        rintro ⟨x, e, q⟩ ⟨he, cs, h1, h2⟩
        dsimp only at h1 ⊢
        intro q1 hq1
        have hcur : q1.cur ≠ .COMMENT := by rw [next_cur hq1]; exact comments_peek h1
        exact afterSkip_err (parseEntry_der n) ih (fun _ => h0 (Or.inr hcm)) hcur
          ((comments_onT h1 h).next hq1)
      · rw [if_neg hcm]
        exact afterSkip_err (parseEntry_der n) ih (fun h => h0 (Or.inl h)) hcm h
    intro r hr
    exact ⟨fun he => der_good (hD r hr he) h.1 _ (List.mem_singleton.mpr rfl), hE r hr⟩

end PState

end Cddlc
