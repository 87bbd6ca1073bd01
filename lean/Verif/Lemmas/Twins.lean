import Verif.Lemmas.Reach
import Verif.Lemmas.FileFacts
import Verif.Lemmas.Fuel
import Verif.Spec.Work

/-! The parser run twice, on inputs that are the same up to some point or in states that differ only in
what is not looked at. -/

namespace Cddlc

/-- All of a parser but the token it is at. -/
structure Side where
  lx : Lexer
  tok : Tok
  pos : Pos
  lit : Bytes
  errors : List Diag
  env : Env
  tasks : List Task

/-- The parser with all the rest replaced. -/
macro:max p:term:max "⟪" m:term "⟫" : term =>
  `(({ $p with lx := Side.lx $m, peek := Side.tok $m, peekPos := Side.pos $m, peekLit := Side.lit $m, errors := Side.errors $m, env := Side.env $m, tasks := Side.tasks $m } : PState))

/-- The next token. -/
def Side.token (m : Side) : Token := ⟨m.tok, m.pos, m.lit⟩

def Side.addTask (m : Side) (t : Task) : Side := { m with tasks := m.tasks ++ [t] }

/-- Something with a parser in it: the parser, and the thing with another rest. -/
class HasLx (α : Type) where
  get : α → PState
  set : α → Side → α

@[reducible] instance : HasLx PState := ⟨fun p => p, fun p m => p⟪m⟫⟩
@[reducible] instance {α β : Type} [HasLx β] : HasLx (α × β) := ⟨fun x => HasLx.get x.2, fun x l => (x.1, HasLx.set x.2 l)⟩
@[reducible] instance {α β : Type} [HasLx α] [HasLx β] : HasLx (α ⊕ β) :=
  ⟨fun x => match x with
    | .inl a => HasLx.get a
    | .inr b => HasLx.get b, fun x l => match x with
    | .inl a => .inl (HasLx.set a l)
    | .inr b => .inr (HasLx.set b l)⟩

variable [Unicode]
open HasLx PState

/-- A token that ends a rule wherever it is. -/
def fringe (t : Tok) : Prop := t = .EOF ∨ t = .IDENT ∨ t = .COMMENT

/-- The next tokens differ, but either is one that a rule ends before; `c` is the token before. -/
structure Edge (c t u : Token) : Prop where
  comment : c.tok ≠ .COMMENT
  regexp : c.tok ≠ .REGEXP
  fringe : fringe t.tok ∧ fringe u.tok
  line : (t.tok = .COMMENT → c.pos.line ≠ t.pos.line) ∧ (u.tok = .COMMENT → c.pos.line ≠ u.pos.line)

/-- Two parsers that do the same, until the first is past some point. -/
structure Twins where
  gone : PState → Prop
  near : PState → Side → Prop
  gone_next : ∀ {p q}, gone p → p.next = .ok q → gone q
  gone_task : ∀ {p t}, gone p → gone (p.addTask t)
  gone_declare : ∀ {p q i x}, gone p → p.declare i x = .ok q → gone q
  near_next : ∀ {p q m}, near p m → p.next = .ok q → gone q ∨ ∃ m', near q m' ∧ p⟪m⟫.next = .ok q⟪m'⟫
  near_task : ∀ {p m t}, near p m → near (p.addTask t) (m.addTask t)
  near_declare : ∀ {p q m i x}, near p m → p.declare i x = .ok q →
    gone q ∨ ∃ m', near q m' ∧ p⟪m⟫.declare i x = .ok q⟪m'⟫
  look : ∀ {p m}, near p m → p.peekTok = m.token ∨ Edge p.curTok p.peekTok m.token

variable {T : Twins} {rec rec' : Rec} {p q : PState} {l : Lexer} {m : Side} {left : Node} {n : Nat}

/-- If the first run returns, it is past the point or the second returns the same. -/
def Rel (T : Twins) {α : Type} [HasLx α] (o o' : Out α) : Prop :=
  o.wp fun a => T.gone (get a) ∨ ∃ m, T.near (get a) m ∧ o' = .ok (set a m)

theorem Rel.ok {α : Type} [HasLx α] {a : α} (h : T.near (get a) m) : Rel T (.ok a) (.ok (set a m)) :=
  Out.wp_ok.mpr (.inr ⟨m, h, rfl⟩)

theorem Rel.panic {α : Type} [HasLx α] {w} {o : Out α} : Rel T (.panic w) o := Out.wp_panic.mpr trivial

theorem Rel.hang {α : Type} [HasLx α] {o : Out α} : Rel T .hang o := Out.wp_hang.mpr trivial

theorem Rel.bind {α β : Type} [HasLx α] [HasLx β] {o o' : Out α} {f f' : α → Out β} (h : Rel T o o')
    (hp : ∀ a, T.gone (get a) → (f a).wp fun b => T.gone (get b))
    (hf : ∀ a m, T.near (get a) m → Rel T (f a) (f' (set a m))) : Rel T (o >>= f) (o' >>= f') := by
  refine Out.wp_bind.mpr (h.mono ?_)
  rintro a (ha | ⟨m, ha, rfl⟩)
  · exact (hp a ha).mono fun b hb => .inl hb
  · exact hf a m ha

/-- The same with a fact about the first result. -/
theorem Rel.bind' {α β : Type} [HasLx α] [HasLx β] {o o' : Out α} {f f' : α → Out β} {P : α → Prop} (h : Rel T o o')
    (hw : o.wp P) (hp : ∀ a, T.gone (get a) → (f a).wp fun b => T.gone (get b))
    (hf : ∀ a m, P a → T.near (get a) m → Rel T (f a) (f' (set a m))) : Rel T (o >>= f) (o' >>= f') := by
  cases o with
  | panic => exact .panic
  | hang => exact .hang
  | ok a =>
    rcases Out.wp_ok.mp h with ha | ⟨m, ha, rfl⟩
    · exact (hp a ha).mono fun b hb => .inl hb
    · exact hf a m (Out.wp_ok.mp hw) ha

/-- The next token of the other input is the same, or both end a rule. -/
theorem near_look (h : T.near p m) :
    (∃ s : Side, m = { s with tok := p.peek, pos := p.peekPos, lit := p.peekLit }) ∨ Edge p.curTok p.peekTok m.token := by
  rcases T.look h with h | h
  · refine .inl ⟨m, ?_⟩
    cases m
    cases h
    rfl
  · exact .inr h

/-- A result that does not involve the parser. -/
theorem Rel.pure {α β : Type} [HasLx β] {o : Out α} {f f' : α → Out β} (hf : ∀ a, Rel T (f a) (f' a)) :
    Rel T (o >>= f) (o >>= f') := by
  cases o with
  | ok a => exact hf a
  | panic => exact .panic
  | hang => exact .hang

theorem reach_past (h : Reach p q) (hp : T.gone p) : T.gone q := by
  induction h with
  | refl => exact hp
  | next _ hn ih => exact T.gone_next ih hn
  | task t _ ih => exact T.gone_task ih

theorem past_next (hp : T.gone p) : p.next.wp fun q => T.gone q := fun _ h => T.gone_next hp h

theorem rel_next (h : T.near p m) : Rel T p.next p⟪m⟫.next := fun _ hq => T.near_next h hq

theorem next_is : p.next.wp fun q => q.cur = p.peek := fun _ h => next_cur h

theorem rel_loopI {σ ρ : Type} [HasLx σ] [HasLx ρ] {step step' : σ → Out (σ ⊕ ρ)} {I : σ → Prop}
    (hp : ∀ s, T.gone (get s) → (step s).wp fun r => T.gone (get r))
    (hI : ∀ s, I s → (step s).wp fun r => ∀ s', r = .inl s' → I s')
    (h : ∀ s m, I s → T.near (get s) m → Rel T (step s) (step' (set s m))) (n : Nat) {s m} (hi : I s)
    (hs : T.near (get s) m) : Rel T (loopOut step n s) (loopOut step' n (set s m)) := by
  have hpl : ∀ n s, T.gone (get s) → (loopOut step n s).wp fun r => T.gone (get r) :=
    loopOut_wp (I := fun s => T.gone (get s)) fun s hs => (hp s hs).mono fun r hr => by cases r <;> exact hr
  induction n generalizing s m with
  | zero => exact .hang
  | succ n ih =>
    have h1 := h s m hi hs
    have h0 := hI s hi
    unfold loopOut
    cases e : step s with
    | ok x =>
      rw [e] at h1 h0
      rcases Out.wp_ok.mp h1 with h2 | ⟨m', h2, h3⟩
      · cases x with
        | inl s' => exact (hpl n s' h2).mono fun _ h => .inl h
        | inr r => exact Out.wp_ok.mpr (.inl h2)
      · rw [h3]
        cases x with
        | inl s' => exact ih (Out.wp_ok.mp h0 _ rfl) h2
        | inr r => exact .ok h2
    | panic w => exact .panic
    | hang => exact .hang

theorem rel_loop {σ ρ : Type} [HasLx σ] [HasLx ρ] {step step' : σ → Out (σ ⊕ ρ)}
    (hp : ∀ s, T.gone (get s) → (step s).wp fun r => T.gone (get r))
    (h : ∀ s m, T.near (get s) m → Rel T (step s) (step' (set s m))) (n : Nat) {s m} (hs : T.near (get s) m) :
    Rel T (loopOut step n s) (loopOut step' n (set s m)) :=
  rel_loopI (I := fun _ => True) hp (fun _ _ => Out.wp_true.mono fun _ _ _ _ => trivial) (fun s m _ => h s m) n trivial hs

/-- The recursive calls of either. -/
structure RecR (T : Twins) (rec rec' : Rec) : Prop where
  reach : RC rec
  rel : ∀ prec p m, T.near p m → Rel T (rec prec p) (rec' prec p⟪m⟫)

theorem past_of {o : PRes} (h : o.wp fun r => Reach p r.2.2) (hp : T.gone p) : o.wp fun r => T.gone (get r) :=
  h.mono fun _ hr => reach_past hr hp

/-! ### Operands -/

theorem R_comment (n : Nat) (hc : p.cur = .COMMENT) (h : T.near p m) : Rel T (parseComment n p) (parseComment n p⟪m⟫) := by
  unfold parseComment
  refine Rel.bind (rel_loopI (I := fun s => s.2.cur = .COMMENT) ?_ ?_ ?_ n (s := (_, p)) hc h) ?_ ?_
  · rintro ⟨cs, p⟩ hp
    unfold commentStep
    split
    · refine Out.wp_bind.mpr ((past_next hp).mono fun q hq => Out.wp_ok.mpr hq)
    · exact Out.wp_ok.mpr hp
  · rintro ⟨cs, p⟩ hc
    unfold commentStep
    dsimp only at hc ⊢
    split
    · rename_i hk
      refine Out.wp_bind.mpr (next_is.mono fun q hq => Out.wp_ok.mpr ?_)
      rintro s' ⟨⟩
      exact hq.trans hk
    · exact Out.wp_ok.mpr (by rintro s' ⟨⟩)
  · rintro ⟨cs, p⟩ m hc h
    unfold commentStep
    dsimp only [HasLx.set, HasLx.get] at hc h ⊢
    obtain ⟨l, rfl⟩ | he := near_look h
    · dsimp only
      split
      · refine Rel.bind (rel_next h) (fun q hq => Out.wp_ok.mpr hq) fun q m h => ?_
        exact .ok (a := (Sum.inl (_, q) : (List Comment × PState) ⊕ (List Comment × PState))) h
      · exact .ok (a := (Sum.inr (_, p) : (List Comment × PState) ⊕ (List Comment × PState))) h
    · exact absurd hc he.comment
  · rintro ⟨cs, p⟩ hp
    dsimp only
    split <;> exact Out.wp_ok.mpr hp
  · rintro ⟨cs, p⟩ m h
    dsimp only [HasLx.set, HasLx.get] at h ⊢
    split <;> exact .ok (a := (_, _, p)) h

omit [Unicode] in
/-- No token that ends a rule stands for anything else. -/
theorem Edge.ne (h : Edge p.curTok p.peekTok m.token) {k : Tok} (hk : k ≠ .EOF ∧ k ≠ .IDENT ∧ k ≠ .COMMENT) :
    p.peek ≠ k ∧ m.tok ≠ k := by
  obtain ⟨h1, h2⟩ := h.fringe
  constructor
  · rintro rfl
    rcases h1 with h1 | h1 | h1
    · exact hk.1 h1
    · exact hk.2.1 h1
    · exact hk.2.2 h1
  · rintro rfl
    rcases h2 with h2 | h2 | h2
    · exact hk.1 h2
    · exact hk.2.1 h2
    · exact hk.2.2 h2

omit [Unicode] in
theorem Edge.trailing (h : Edge p.curTok p.peekTok m.token) :
    ¬ (p.peek = .COMMENT ∧ sameLine p.pos p.peekPos) ∧ ¬ (m.tok = .COMMENT ∧ sameLine p.pos m.pos) := by
  constructor
  · rintro ⟨h1, h2⟩
    exact h.line.1 h1 (of_decide_eq_true h2)
  · rintro ⟨h1, h2⟩
    exact h.line.2 h1 (of_decide_eq_true h2)

theorem R_named (h : T.near p m) : Rel T p.parseNamedIdentifier p⟪m⟫.parseNamedIdentifier := by
  unfold parseNamedIdentifier
  simp only
  split
  · exact .panic
  · split
    · exact .ok (a := (_, _, p.addTask _)) (m := m.addTask _) (T.near_task h)
    · exact .ok (a := (_, _, p)) h

theorem R_boolLit (h : T.near p m) : Rel T p.parseBooleanLiteral p⟪m⟫.parseBooleanLiteral := by
  unfold parseBooleanLiteral
  simp only
  split
  · exact .ok (a := (_, _, p)) h
  · split <;> exact .ok (a := (_, _, p)) h

theorem R_float (h : T.near p m) : Rel T p.parseFloatType p⟪m⟫.parseFloatType := by
  unfold parseFloatType parseFloatLiteral
  simp only
  split
  · split <;> exact .ok (a := (_, _, p)) h
  · exact .ok (a := (_, _, p)) h

theorem R_uint (h : T.near p m) : Rel T p.parseUintType p⟪m⟫.parseUintType := by
  unfold parseUintType parseUintLiteral
  simp only
  split
  · split <;> exact .ok (a := (_, _, p)) h
  · exact .ok (a := (_, _, p)) h

theorem R_int (h : T.near p m) : Rel T p.parseIntegerType p⟪m⟫.parseIntegerType := by
  unfold parseIntegerType parseIntegerLiteral
  simp only
  split
  · split <;> exact .ok (a := (_, _, p)) h
  · exact .ok (a := (_, _, p)) h

/-! ### Operators -/

theorem R_nextEntry (hr : RecR T rec rec') (h : T.near p m) :
    Rel T (nextEntry rec p) (nextEntry rec' p⟪m⟫) := by
  unfold nextEntry
  exact Rel.bind (rel_next h) (fun q hq => past_of (hr.reach _ q) hq) fun q m h => hr.rel _ q m h

/-- Most operators: the next entry, and a result made of it. -/
theorem R_after (hr : RecR T rec rec') (h : T.near p m) {f f' : Node × Option Diag × PState → PRes}
    (hp : ∀ x e q, T.gone q → (f (x, e, q)).wp fun r => T.gone (get r))
    (hf : ∀ x e q m, T.near q m → Rel T (f (x, e, q)) (f' (x, e, q⟪m⟫))) :
    Rel T (nextEntry rec p >>= f) (nextEntry rec' p⟪m⟫ >>= f') :=
  Rel.bind (R_nextEntry hr h) (fun _ ha => hp _ _ _ ha) fun _ m hm => hf _ _ _ m hm

theorem R_colon (hr : RecR T rec rec') (h : T.near p m) :
    Rel T (parseColon rec left p) (parseColon rec' left p⟪m⟫) := by
  unfold parseColon
  dsimp only
  split
  · exact .ok (a := (_, _, p)) h
  · refine R_after hr h (fun x e q hq => ?_) fun x e q m hm => ?_
    · dsimp only
      split
      · exact Out.wp_ok.mpr hq
      · split
        · exact Out.wp_bind.mpr ((past_next hq).mono fun r hr => Out.wp_ok.mpr hr)
        · exact Out.wp_ok.mpr hq
    · dsimp only
      split
      · exact .ok (a := (_, _, q)) hm
      · obtain ⟨l, rfl⟩ | he := near_look hm
        · dsimp only
          split
          · exact Rel.bind (rel_next hm) (fun r hr => Out.wp_ok.mpr hr) fun r m hm => .ok (a := (_, _, r)) hm
          · exact .ok (a := (_, _, q)) hm
        · rw [if_neg he.trailing.1, if_neg he.trailing.2]
          exact .ok (a := (_, _, q)) hm

/-- Closes goals where the result of the next entry is only packed. -/
macro "packed" hr:term "," h:term : tactic => `(tactic| (
  refine R_after $hr $h (fun x e q hq => ?_) fun x e q m hm => ?_
  · dsimp only
    split <;> exact Out.wp_ok.mpr hq
  · dsimp only
    split <;> exact .ok (a := (_, _, q)) hm))

theorem R_typeChoice (hr : RecR T rec rec') (h : T.near p m) :
    Rel T (parseTypeChoice rec left p) (parseTypeChoice rec' left p⟪m⟫) := by
  unfold parseTypeChoice
  packed hr, h

theorem R_unwrap (hr : RecR T rec rec') (h : T.near p m) : Rel T (parseUnwrap rec p) (parseUnwrap rec' p⟪m⟫) := by
  unfold parseUnwrap
  packed hr, h

theorem R_optional (hr : RecR T rec rec') (h : T.near p m) :
    Rel T (parseOptional rec p) (parseOptional rec' p⟪m⟫) := by
  unfold parseOptional
  packed hr, h

theorem R_enumeration (hr : RecR T rec rec') (h : T.near p m) :
    Rel T (parseEnumeration rec p) (parseEnumeration rec' p⟪m⟫) := by
  unfold parseEnumeration
  packed hr, h

theorem past_expect (hp : T.gone p) (t : Tok) : (p.expectPeek t).wp fun q => T.gone q := by
  unfold expectPeek
  split
  · exact Out.wp_ok.mpr hp
  · exact past_next hp

theorem R_expectPeek (t : Tok) (ht : t ≠ .EOF ∧ t ≠ .IDENT ∧ t ≠ .COMMENT) (h : T.near p m) : Rel T (p.expectPeek t) (p⟪m⟫.expectPeek t) := by
  unfold expectPeek
  dsimp only
  obtain ⟨l, rfl⟩ | he := near_look h
  · dsimp only
    split
    · exact .ok (a := p) h
    · exact rel_next h
  · rw [if_pos (he.ne ht).1, if_pos (he.ne ht).2]
    exact .ok (a := p) h

theorem R_tagItem (hr : RecR T rec rec') {a b : Option UintLit} {x : Pos} (t : Tok) (h : T.near p m) :
    Rel T (parseTagItem rec x t a b p) (parseTagItem rec' x t a b p⟪m⟫) := by
  unfold parseTagItem
  dsimp only
  rcases (near_look h).symm with he | ⟨l, rfl⟩
  · rw [if_neg (he.ne (k := .LPAREN) (by decide)).1, if_neg (he.ne (k := .LPAREN) (by decide)).2]
    exact .ok (a := (_, _, p)) h
  dsimp only
  split
  · refine Rel.bind (rel_next h) (fun q hq => ?_) fun q m hq => ?_
    · refine Out.wp_bind.mpr ((past_of (nextEntry_reach hr.reach (.refl q)) hq).mono ?_)
      rintro ⟨x, e, r⟩ hr'
      dsimp only
      split
      · exact Out.wp_ok.mpr hr'
      · exact Out.wp_bind.mpr ((past_expect hr' _).mono fun r hr => Out.wp_ok.mpr hr)
    · refine R_after hr hq (fun x e q hq => ?_) fun x e q m hm => ?_
      · dsimp only
        split
        · exact Out.wp_ok.mpr hq
        · exact Out.wp_bind.mpr ((past_expect hq _).mono fun r hr => Out.wp_ok.mpr hr)
      · dsimp only
        split
        · exact .ok (a := (_, _, q)) hm
        · exact Rel.bind (R_expectPeek _ (by decide) hm) (fun r hr => Out.wp_ok.mpr hr) fun r m hm => .ok (a := (_, _, r)) hm
  · exact .ok (a := (_, _, p)) h

theorem R_tag (hr : RecR T rec rec') (h : T.near p m) : Rel T (parseTag rec p) (parseTag rec' p⟪m⟫) := by
  unfold parseTag
  dsimp only
  rcases (near_look h).symm with he | ⟨l, rfl⟩
  · have h1 := he.ne (k := .INT) (by decide)
    have h2 := he.ne (k := .FLOAT) (by decide)
    split
    · rename_i h3; exact absurd h3 h1.1
    · rename_i h3; exact absurd h3 h2.1
    · split
      · rename_i h3; exact absurd h3 h1.2
      · rename_i h3; exact absurd h3 h2.2
      · exact R_tagItem hr _ h
  dsimp only
  split
  · refine Rel.bind (rel_next h) (fun q hq => ?_) fun q m hq => ?_
    · split
      · exact Out.wp_ok.mpr hq
      · exact past_of (parseTagItem_reach hr.reach (.refl q)) hq
    · dsimp only [HasLx.set]
      split
      · exact .ok (a := (_, _, q)) hq
      · exact R_tagItem hr _ hq
  · refine Rel.bind (rel_next h) (fun q hq => ?_) fun q m hq => ?_
    · split
      · exact Out.wp_ok.mpr hq
      · exact past_of (parseTagItem_reach hr.reach (.refl q)) hq
    · have : q⟪m⟫.parseFloatTag = q.parseFloatTag := rfl
      dsimp only [HasLx.set]
      rw [this]
      split
      · exact .ok (a := (_, _, q)) hq
      · exact R_tagItem hr _ hq
  · exact R_tagItem hr _ h

theorem R_occItem (hr : RecR T rec rec') {a b : Option UintLit} {x : Pos} (t : Tok) (h : T.near p m) :
    Rel T (parseOccItem rec x t a b p) (parseOccItem rec' x t a b p⟪m⟫) := by
  unfold parseOccItem
  refine Rel.bind (hr.rel _ p m h) ?_ ?_
  · rintro ⟨x, e, q⟩ hq
    dsimp only
    split <;> exact Out.wp_ok.mpr hq
  · rintro ⟨x, e, q⟩ m hq
    dsimp only
    split <;> exact .ok (a := (_, _, q)) hq

theorem R_occUpper (hr : RecR T rec rec') {u : UintLit} (h : T.near p m) :
    Rel T (parseOccUpper rec u p) (parseOccUpper rec' u p⟪m⟫) := by
  unfold parseOccUpper
  dsimp only
  rcases (near_look h).symm with he | ⟨l, rfl⟩
  · have h1 := he.ne (k := .INT) (by decide)
    rw [if_neg fun h => h1.1 h.1, if_neg fun h => h1.2 h.1]
    exact Rel.bind (rel_next h) (fun q hq => past_of (parseOccItem_reach hr.reach (.refl q)) hq)
      fun q m hq => R_occItem hr _ hq
  dsimp only
  split
  · refine Rel.bind (rel_next h) (fun q hq => ?_) fun q m hq => ?_
    · refine Out.wp_bind.mpr (parseUintType_state.mono ?_)
      rintro ⟨x, e, q'⟩ hq'
      dsimp only at hq' ⊢
      subst hq'
      split
      · exact Out.wp_ok.mpr hq
      · exact past_of (parseOccItem_reach hr.reach (.refl _)) hq
    · refine Rel.bind (R_uint hq) ?_ ?_
      · rintro ⟨x, e, q⟩ hq
        dsimp only
        split
        · exact Out.wp_ok.mpr hq
        · exact past_of (parseOccItem_reach hr.reach (.refl _)) hq
      · rintro ⟨x, e, q⟩ m hq
        dsimp only
        split
        · exact .ok (a := (_, _, q)) hq
        · exact R_occItem hr _ hq
  · exact Rel.bind (rel_next h) (fun q hq => past_of (parseOccItem_reach hr.reach (.refl q)) hq)
      fun q m hq => R_occItem hr _ hq

theorem R_occurrence (hr : RecR T rec rec') (h : T.near p m) :
    Rel T (parseOccurrence rec left p) (parseOccurrence rec' left p⟪m⟫) := by
  unfold parseOccurrence
  dsimp only
  split
  · exact R_occUpper hr h
  · split
    · exact .ok (a := (_, _, p)) h
    · exact R_occUpper hr h
  · exact Rel.pure fun s => Rel.pure fun e => .ok (a := (_, _, p)) h

theorem R_size (hr : RecR T rec rec') (h : T.near p m) :
    Rel T (parseSizeOperator rec left p) (parseSizeOperator rec' left p⟪m⟫) := by
  unfold parseSizeOperator
  dsimp only
  split <;> first | exact .ok (a := (_, _, p)) h | (packed hr, h)

theorem R_regexp (hr : RecR T rec rec') (hc : p.cur = .REGEXP) (h : T.near p m) :
    Rel T (parseRegexp rec left p) (parseRegexp rec' left p⟪m⟫) := by
  unfold parseRegexp
  dsimp only
  rcases (near_look h).symm with he | ⟨l, rfl⟩
  · exact absurd hc he.regexp
  dsimp only
  split
  · split
    · exact .ok (a := (_, _, p)) h
    · packed hr, h
  · exact .panic

theorem R_bits (hr : RecR T rec rec') (h : T.near p m) :
    Rel T (parseBits rec left p) (parseBits rec' left p⟪m⟫) := by
  unfold parseBits
  refine R_after hr h (fun x e q hq => ?_) fun x e q m hm => ?_
  · dsimp only
    split
    · exact Out.wp_bind.mpr (Out.wp_true.mono fun _ _ => Out.wp_ok.mpr hq)
    · exact Out.wp_ok.mpr hq
  · dsimp only
    split
    · exact Rel.pure fun _ => .ok (a := (_, _, q)) hm
    · exact .ok (a := (_, _, q)) hm

theorem R_list (hr : RecR T rec rec') (n : Nat) (close : Tok) (keep : Node → Bool) (h : T.near p m) :
    Rel T (parseList rec n close keep p) (parseList rec' n close keep p⟪m⟫) := by
  have hpast : ∀ s : List Node × PState, T.gone (get s) → (listStep rec close keep s).wp fun r => T.gone (get r) := by
    rintro ⟨xs, q⟩ hq
    unfold listStep
    split
    · exact Out.wp_ok.mpr hq
    · refine Out.wp_bind.mpr ((past_of (hr.reach _ q) hq).mono ?_)
      rintro ⟨x, e, r⟩ hr'
      dsimp only
      split
      · exact Out.wp_ok.mpr hr'
      · exact Out.wp_bind.mpr ((past_next hr').mono fun _ h => Out.wp_ok.mpr h)
  unfold parseList
  refine Rel.bind (rel_next h) (fun q hq => ?_) fun q m hq => ?_
  · exact loopOut_wp (I := fun s => T.gone (get s)) (fun s hs => (hpast s hs).mono fun r hr => by cases r <;> exact hr) n _ hq
  · refine rel_loop hpast ?_ n (s := ([], q)) hq
    rintro ⟨xs, q⟩ m hq
    unfold listStep
    dsimp only [HasLx.set, HasLx.get] at hq ⊢
    split
    · exact .ok (a := (Sum.inr (_, _, q) : (List Node × PState) ⊕ (List Node × Option Diag × PState))) hq
    · refine Rel.bind (hr.rel _ q m hq) ?_ ?_
      · rintro ⟨x, e, r⟩ hr'
        dsimp only
        split
        · exact Out.wp_ok.mpr hr'
        · exact Out.wp_bind.mpr ((past_next hr').mono fun _ h => Out.wp_ok.mpr h)
      · rintro ⟨x, e, r⟩ m hm
        dsimp only
        split
        · exact .ok (a := (Sum.inr (_, _, r) : (List Node × PState) ⊕ (List Node × Option Diag × PState))) hm
        · exact Rel.bind (rel_next hm) (fun _ h => Out.wp_ok.mpr h) fun r m hm =>
            .ok (a := (Sum.inl (_, r) : (List Node × PState) ⊕ (List Node × Option Diag × PState))) hm

theorem R_group (hr : RecR T rec rec') (n : Nat) (h : T.near p m) :
    Rel T (parseGroup rec n p) (parseGroup rec' n p⟪m⟫) := by
  unfold parseGroup
  exact Rel.bind (R_list hr n _ _ h) (fun _ h => Out.wp_ok.mpr h) fun r m hm => .ok (a := (_, _, r.2.2)) hm

theorem R_map (hr : RecR T rec rec') (n : Nat) (h : T.near p m) :
    Rel T (parseMap rec n p) (parseMap rec' n p⟪m⟫) := by
  unfold parseMap
  exact Rel.bind (R_list hr n _ _ h) (fun _ h => Out.wp_ok.mpr h) fun r m hm => .ok (a := (_, _, r.2.2)) hm

theorem R_array (hr : RecR T rec rec') (n : Nat) (h : T.near p m) :
    Rel T (parseArray rec n p) (parseArray rec' n p⟪m⟫) := by
  unfold parseArray
  exact Rel.bind (R_list hr n _ _ h) (fun _ h => Out.wp_ok.mpr h) fun r m hm => .ok (a := (_, _, r.2.2)) hm

theorem R_comparator (hr : RecR T rec rec') (h : T.near p m) :
    Rel T (parseComparatorOp rec left p) (parseComparatorOp rec' left p⟪m⟫) := by
  unfold parseComparatorOp
  dsimp only
  split <;> first | exact .ok (a := (_, _, p)) h | (packed hr, h)

theorem R_bound (hr : RecR T rec rec') (h : T.near p m) :
    Rel T (parseBound rec left p) (parseBound rec' left p⟪m⟫) := by
  unfold parseBound
  split
  · unfold parseIntBound
    refine R_after hr h (fun x e q hq => ?_) fun x e q m hm => ?_
    · dsimp only
      split
      · exact Out.wp_ok.mpr hq
      · split <;> first | exact Out.wp_ok.mpr hq | exact Out.wp_ok.mpr (T.gone_task hq)
    · dsimp only
      split
      · exact .ok (a := (_, _, q)) hm
      · split <;> first | exact .ok (a := (_, _, q)) hm | exact .ok (a := (_, _, q.addTask _)) (m := m.addTask _) (T.near_task hm)
  · unfold parseFloatBound
    refine R_after hr h (fun x e q hq => ?_) fun x e q m hm => ?_
    · dsimp only
      split
      · exact Out.wp_ok.mpr hq
      · split <;> first | exact Out.wp_ok.mpr hq | exact Out.wp_ok.mpr (T.gone_task hq)
    · dsimp only
      split
      · exact .ok (a := (_, _, q)) hm
      · split <;> first | exact .ok (a := (_, _, q)) hm | exact .ok (a := (_, _, q.addTask _)) (m := m.addTask _) (T.near_task hm)
  · unfold parseIdentBound
    refine R_after hr h (fun x e q hq => ?_) fun x e q m hm => ?_
    · dsimp only
      split <;> first | exact Out.wp_ok.mpr hq | exact Out.wp_ok.mpr (T.gone_task hq)
    · dsimp only
      split
      · exact .ok (a := (_, _, q)) hm
      · exact .ok (a := (_, _, q.addTask _)) (m := m.addTask _) (T.near_task hm)
  · exact .ok (a := (_, _, p)) h

/-! ### Entries -/

theorem R_nud (hr : RecR T rec rec') (n : Nat) {t : Tok} {f f'} (hf : nudOf rec n t = some f) (hf' : nudOf rec' n t = some f')
    (hc : p.cur = t) (h : T.near p m) : Rel T (f p) (f' p⟪m⟫) := by
  cases t <;> simp only [nudOf, Option.some.injEq, reduceCtorEq] at hf hf' <;> subst hf <;> subst hf' <;>
    first
    | exact R_named h | exact R_boolLit h | exact R_float h | exact R_uint h | exact R_int h
    | exact .ok (a := (_, _, p)) h
    | exact R_map hr n h | exact R_group hr n h | exact R_array hr n h | exact R_comment n hc h | exact R_optional hr h
    | exact R_occurrence hr h | exact R_unwrap hr h | exact R_tag hr h | exact R_enumeration hr h

theorem R_led (hr : RecR T rec rec') {t : Tok} {f f'} (hf : ledOf rec t = some f) (hf' : ledOf rec' t = some f')
    (hc : p.cur = t) (h : T.near p m) : Rel T (f left p) (f' left p⟪m⟫) := by
  cases t <;> simp only [ledOf, Option.some.injEq, reduceCtorEq] at hf hf' <;> subst hf <;> subst hf' <;>
    first
    | exact R_colon hr h | exact R_typeChoice hr h | exact R_comparator hr h | exact R_size hr h
    | exact R_regexp hr hc h | exact R_bits hr h | exact R_bound hr h | exact R_occurrence hr h
    | exact .ok (a := (_, _, p)) h

theorem ledOf_none (rec rec' : Rec) (t : Tok) : ledOf rec t = none ↔ ledOf rec' t = none := by
  cases t <;> simp [ledOf]

theorem nudOf_none (rec rec' : Rec) (n : Nat) (t : Tok) : nudOf rec n t = none ↔ nudOf rec' n t = none := by
  cases t <;> simp [nudOf]

theorem R_skip (n : Nat) (h : T.near p m) : Rel T (skipComment n p) (skipComment n p⟪m⟫) := by
  unfold skipComment
  dsimp only
  split
  · rename_i hc
    exact Rel.bind (R_comment n hc h) (fun a ha => past_next ha) fun a m hm => rel_next hm
  · exact .ok h

theorem R_body (hr : RecR T rec rec') (n prec : Nat) (h : T.near p m) :
    Rel T (parseEntryBody rec n prec p) (parseEntryBody rec' n prec p⟪m⟫) := by
  have hled : ∀ s : Node × PState, T.gone (get s) → (ledStep rec prec s).wp fun r => T.gone (get r) := by
    rintro ⟨x, q⟩ hq
    unfold ledStep
    split
    · split
      · exact Out.wp_ok.mpr hq
      · rename_i g hg
        refine Out.wp_bind.mpr ((past_next hq).mono fun r hr' => ?_)
        refine Out.wp_bind.mpr ((past_of (ledOf_reach hr.reach (.refl r) hg) hr').mono ?_)
        rintro ⟨x, e, r⟩ hr
        dsimp only
        split <;> exact Out.wp_ok.mpr hr
    · exact Out.wp_ok.mpr hq
  have hloop : ∀ n (s : Node × PState), T.gone (get s) → (loopOut (ledStep rec prec) n s).wp fun r => T.gone (get r) :=
    loopOut_wp (I := fun s => T.gone (get s)) fun s hs => (hled s hs).mono fun r hr => by cases r <;> exact hr
  have hnud : ∀ {q : PState} {f}, selectNud rec n q = some f → (f q).wp fun r => Reach q r.2.2 := by
    intro q f hf
    unfold selectNud at hf
    split at hf
    · cases hf; exact Out.wp_ok.mpr (.refl q)
    · exact nudOf_reach hr.reach (.refl q) hf
  unfold parseEntryBody
  refine Rel.bind (R_skip n h) (fun q hq => ?_) fun q m hq => ?_
  · dsimp only
    split
    · exact Out.wp_ok.mpr hq
    · rename_i f hf
      refine Out.wp_bind.mpr ((past_of (hnud hf) hq).mono ?_)
      rintro ⟨x, e, r⟩ hr'
      dsimp only
      split
      · exact Out.wp_ok.mpr hr'
      · exact hloop n (x, r) hr'
  · have hsel : (q.cur = .IDENT ∧ m.tok = .COLON) ↔ (q.cur = .IDENT ∧ q.peek = .COLON) := by
      obtain ⟨l, rfl⟩ | he := near_look hq
      · rfl
      · have h1 := he.ne (k := .COLON) (by decide)
        exact ⟨fun h => absurd h.2 h1.2, fun h => absurd h.2 h1.1⟩
    dsimp only [HasLx.set]
    cases hf : selectNud rec n q with
    | none =>
      have hf' : selectNud rec' n q⟪m⟫ = none := by
        unfold selectNud at hf ⊢
        dsimp only
        split at hf
        · cases hf
        · rename_i hc
          rw [if_neg fun h => hc (hsel.mp h)]
          exact (nudOf_none rec rec' n _).mp hf
      rw [hf']
      exact .ok (a := (_, _, q)) hq
    | some f =>
      obtain ⟨f', hf', this⟩ : ∃ f', selectNud rec' n q⟪m⟫ = some f' ∧ Rel T (f q) (f' q⟪m⟫) := by
        unfold selectNud at hf ⊢
        dsimp only
        split at hf
        · rename_i hc
          rw [if_pos (hsel.mpr hc)]
          cases hf
          exact ⟨_, rfl, .ok (a := (_, _, q)) hq⟩
        · rename_i hc
          rw [if_neg fun h => hc (hsel.mp h)]
          cases hf' : nudOf rec' n q.cur with
          | none => rw [(nudOf_none rec rec' n _).mpr hf'] at hf; cases hf
          | some f' => exact ⟨f', rfl, R_nud hr n hf hf' rfl hq⟩
      rw [hf']
      refine Rel.bind this ?_ ?_
      · rintro ⟨x, e, r⟩ hr'
        dsimp only
        split
        · exact Out.wp_ok.mpr hr'
        · exact hloop n (x, r) hr'
      · rintro ⟨x, e, r⟩ m hm
        dsimp only
        split
        · exact .ok (a := (_, _, r)) hm
        · refine rel_loop hled ?_ n (s := (x, r)) hm
          rintro ⟨x, r⟩ m hm
          unfold ledStep
          dsimp only [HasLx.set, HasLx.get] at hm ⊢
          rcases (near_look hm).symm with he | ⟨l, rfl⟩
          · have h1 : ∀ (rec : Rec) t, fringe t → ledOf rec t = none := by
              rintro rec t (rfl | rfl | rfl) <;> rfl
            have h2 : ∀ (rec : Rec) (s : Node × PState), fringe s.2.peek → ledStep rec prec s = .ok (.inr (s.1, none, s.2)) := by
              intro rec s hs
              unfold ledStep
              rw [h1 _ _ hs]
              split <;> rfl
            have e1 := h2 rec (x, r) he.fringe.1
            have e2 := h2 rec' (x, r⟪m⟫) he.fringe.2
            unfold ledStep at e1 e2
            dsimp only at e1 e2
            rw [e1, e2]
            exact .ok (a := (Sum.inr (_, _, r) : (Node × PState) ⊕ (Node × Option Diag × PState))) hm
          dsimp only
          split
          · cases hg : ledOf rec r.peek with
            | none =>
              rw [(ledOf_none rec rec' _).mp hg]
              exact .ok (a := (Sum.inr (_, _, r) : (Node × PState) ⊕ (Node × Option Diag × PState))) hm
            | some g =>
              cases hg' : ledOf rec' r.peek with
              | none => rw [(ledOf_none rec rec' _).mpr hg'] at hg; cases hg
              | some g' => ?_
              refine Rel.bind' (rel_next hm) next_is (fun q hq => ?_) fun q m hc hm => ?_
              · refine Out.wp_bind.mpr ((past_of (ledOf_reach hr.reach (.refl q) hg) hq).mono ?_)
                rintro ⟨x, e, r⟩ hr
                dsimp only
                split <;> exact Out.wp_ok.mpr hr
              · refine Rel.bind (R_led hr hg hg' hc hm) ?_ ?_
                · rintro ⟨x, e, r⟩ hr
                  dsimp only
                  split <;> exact Out.wp_ok.mpr hr
                · rintro ⟨x, e, r⟩ m hm
                  dsimp only
                  split
                  · exact .ok (a := (Sum.inr (_, _, r) : (Node × PState) ⊕ (Node × Option Diag × PState))) hm
                  · exact .ok (a := (Sum.inl (_, r) : (Node × PState) ⊕ (Node × Option Diag × PState))) hm
          · exact .ok (a := (Sum.inr (_, _, r) : (Node × PState) ⊕ (Node × Option Diag × PState))) hm

theorem R_entry (n : Nat) : RecR T (parseEntry n) (parseEntry n) := by
  refine ⟨parseEntry_reach n, ?_⟩
  induction n with
  | zero => intro _ _ _ _; exact .hang
  | succ n ih => intro prec p m h; exact R_body ⟨parseEntry_reach n, ih⟩ n prec h

/-! ### Rules -/

theorem past_trailing (hp : T.gone p) : p.ruleTrailing.wp fun r => T.gone r.2 := by
  unfold ruleTrailing
  split
  · refine Out.wp_bind.mpr ((past_next hp).mono fun q hq => ?_)
    exact Out.wp_bind.mpr ((past_next hq).mono fun r hr => Out.wp_ok.mpr hr)
  · exact Out.wp_ok.mpr hp

theorem R_trailing (h : T.near p m) : Rel T p.ruleTrailing p⟪m⟫.ruleTrailing := by
  unfold ruleTrailing
  dsimp only
  rcases (near_look h).symm with he | ⟨l, rfl⟩
  · rw [if_neg he.trailing.1, if_neg he.trailing.2]
    exact .ok (a := (_, p)) h
  dsimp only
  split
  · refine Rel.bind (rel_next h) (fun q hq => ?_) fun q m hq => ?_
    · exact Out.wp_bind.mpr ((past_next hq).mono fun r hr => Out.wp_ok.mpr hr)
    · exact Rel.bind (rel_next hq) (fun r hr => Out.wp_ok.mpr hr) fun r m hm => .ok (a := (_, r)) hm
  · exact .ok (a := (_, p)) h

theorem past_declare {name entry} (hp : T.gone p) : (p.declare name entry).wp fun r => T.gone r :=
  fun _ h => T.gone_declare hp h

theorem R_declare {name entry} (h : T.near p m) : Rel T (p.declare name entry) (p⟪m⟫.declare name entry) :=
  fun _ hq => T.near_declare h hq

theorem R_ruleWith (hR : RecR T rec rec') (h : T.near p m) :
    Rel T (Spec.ruleWith rec n p) (Spec.ruleWith rec' n p⟪m⟫) := by
  unfold Spec.ruleWith
  dsimp only
  split
  · exact R_comment n (by assumption) h
  · refine Rel.bind (rel_next h) (fun q hq => ?_) fun q m hq => ?_
    · split
      · refine Out.wp_bind.mpr ((past_of (nextEntry_reach hR.reach (.refl q)) hq).mono ?_)
        rintro ⟨x, e, r⟩ hr
        dsimp only
        split
        · exact Out.wp_ok.mpr hr
        · refine Out.wp_bind.mpr ((past_trailing hr).mono fun a ha => ?_)
          exact Out.wp_bind.mpr ((past_declare ha).mono fun b hb => Out.wp_ok.mpr hb)
      iterate 2
        · refine Out.wp_bind.mpr ((past_next hq).mono fun a ha => ?_)
          refine Out.wp_bind.mpr ((past_of (hR.reach _ a) ha).mono ?_)
          rintro ⟨x, e, r⟩ hr
          dsimp only
          split
          · exact Out.wp_ok.mpr hr
          · exact Out.wp_bind.mpr ((past_trailing hr).mono fun b hb => Out.wp_ok.mpr hb)
      · exact Out.wp_ok.mpr hq
    · dsimp only [HasLx.set]
      split
      · refine R_after hR hq (fun x e r hr => ?_) fun x e r m hr => ?_
        · dsimp only
          split
          · exact Out.wp_ok.mpr hr
          · refine Out.wp_bind.mpr ((past_trailing hr).mono fun a ha => ?_)
            exact Out.wp_bind.mpr ((past_declare ha).mono fun b hb => Out.wp_ok.mpr hb)
        · dsimp only
          split
          · exact .ok (a := (_, _, r)) hr
          · refine Rel.bind (R_trailing hr) (fun a ha => ?_) fun a m ha => ?_
            · exact Out.wp_bind.mpr ((past_declare ha).mono fun b hb => Out.wp_ok.mpr hb)
            · exact Rel.bind (R_declare ha) (fun b hb => Out.wp_ok.mpr hb) fun b m hb => .ok (a := (_, _, b)) hb
      iterate 2
        · refine Rel.bind (rel_next hq) (fun a ha => ?_) fun a m ha => ?_
          · refine Out.wp_bind.mpr ((past_of (hR.reach _ a) ha).mono ?_)
            rintro ⟨x, e, r⟩ hr
            dsimp only
            split
            · exact Out.wp_ok.mpr hr
            · exact Out.wp_bind.mpr ((past_trailing hr).mono fun b hb => Out.wp_ok.mpr hb)
          · refine Rel.bind (hR.rel _ a m ha) ?_ ?_
            · rintro ⟨x, e, r⟩ hr
              dsimp only
              split
              · exact Out.wp_ok.mpr hr
              · exact Out.wp_bind.mpr ((past_trailing hr).mono fun b hb => Out.wp_ok.mpr hb)
            · rintro ⟨x, e, r⟩ m hr
              dsimp only
              split
              · exact .ok (a := (_, _, r)) hr
              · exact Rel.bind (R_trailing hr) (fun b hb => Out.wp_ok.mpr hb) fun b m hb => .ok (a := (_, _, b.2)) hb
      · exact .ok (a := (_, _, q)) hq
  · exact .ok (a := (_, _, p)) h

theorem parseRule_with (n : Nat) (p : PState) : parseRule n p = Spec.ruleWith (parseEntry n) n p := rfl

theorem R_rule (h : T.near p m) : Rel T (parseRule n p) (parseRule n p⟪m⟫) := by
  rw [parseRule_with, parseRule_with]
  exact R_ruleWith (R_entry n) h

end Cddlc
