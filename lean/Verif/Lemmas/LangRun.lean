import Verif.Lemmas.Listable
import Verif.Lemmas.LangFile
import Verif.Lemmas.RunOps

/-! What the grammar of Spec/Language.lean allows is accepted. -/

namespace Cddlc
open Spec PState
attribute [local instance] noMarks

/-! ### The first tokens -/

theorem lang_first {part ts nx cs} (h : Lang part ts nx cs) :
    ∀ x, part = .operand x → ∃ t us, ts = t :: us ∧ t.tok ∈ starters ∧ t.tok.precedence = 0 := by
  induction h with
  | name h => exact fun _ _ => ⟨_, _, rfl, by rw [h]; decide⟩
  | single h => exact fun _ _ => ⟨_, _, rfl, single_starter h⟩
  | group h _ _ | array h _ _ | map h _ _ | tag h _ _ _ => exact fun _ _ => ⟨_, _, rfl, by rw [h]; decide⟩
  | tagged h _ _ _ _ => exact fun _ _ => ⟨_, _, rfl, by rw [h]; decide⟩
  | noRange _ _ _ ih =>
    intro _ _
    obtain ⟨t, us, rfl, h⟩ := ih _ rfl
    exact ⟨t, _, rfl, h⟩
  | noted _ _ _ _ ih _ =>
    intro _ _
    obtain ⟨t, us, rfl, h⟩ := ih _ rfl
    exact ⟨t, _, rfl, h⟩
  | only | comma | marked | unclosed | joined | skip | nil | cons => nofun

/-- An entry begins with one of the starters, behind comments. -/
theorem lang_head {part ts nx cs} (h : Lang part ts nx cs) :
    ∀ x, part = .entry x → ∃ gs t us, ts = gs ++ t :: us ∧ (∀ g ∈ gs, g.tok = .COMMENT) ∧ t.tok ∈ starters := by
  induction h with
  | only h _ _ _ | comma _ h _ =>
    intro _ _
    obtain ⟨t, us, rfl, h', -⟩ := lang_first h _ rfl
    exact ⟨[], t, _, rfl, nofun, h'⟩
  | marked h _ _ => exact fun _ _ => ⟨[], _, _, rfl, nofun, marked_starter h⟩
  | unclosed h _ _ _ _ => exact fun _ _ => ⟨[], _, _, rfl, nofun, by rw [h]; decide⟩
  | joined h _ _ _ _ _ =>
    intro _ _
    obtain ⟨t, us, rfl, h', -⟩ := lang_first h _ rfl
    exact ⟨[], t, _, rfl, nofun, h'⟩
  | skip h _ ih =>
    intro x hx
    obtain ⟨gs, t, us, rfl, h1, h2⟩ := ih x hx
    refine ⟨_ :: gs, t, us, rfl, ?_, h2⟩
    intro g hg
    rcases List.mem_cons.mp hg with rfl | hg
    · exact h
    · exact h1 g hg
  | name | single | group | array | map | tag | tagged | noRange | noted | nil | cons => nofun

/-- The token an entry begins with closes no bracket. -/
theorem lang_opens {x ts nx cs} (h : Lang (.entry x) ts nx cs) : ∃ t us, ts = t :: us ∧
    t.tok ∉ [Tok.RPAREN, .RBRACK, .RBRACE] := by
  obtain ⟨gs, t, us, rfl, h1, h2⟩ := lang_head h _ rfl
  cases gs with
  | nil => exact ⟨t, us, rfl, by revert h2; generalize t.tok = k; cases k <;> decide⟩
  | cons g gs => exact ⟨g, _, rfl, by rw [h1 g (by simp)]; decide⟩

/-! ### Where the parser stands -/

variable [Unicode] {p q : PState} {n m : Nat} {rec : Rec}

/-- The tokens behind the one the parser is at are `ts` (and perhaps more). -/
def Ahead (p : PState) : List Token → Prop
  | [] => True
  | t :: ts => p.peekTok = t ∧ ∃ l, Scans p.lx ts l

/-- The parser is at the first token of `ts`. -/
def Stands (p : PState) : List Token → Prop
  | [] => True
  | t :: ts => p.curTok = t ∧ Ahead p ts

theorem ahead_next {t u : Token} {ts : List Token} (h : Ahead p (t :: u :: ts)) :
    ∃ q, p.next = .ok q ∧ q.curTok = t ∧ Ahead q (u :: ts) ∧ Same p q := by
  obtain ⟨h1, l, h2⟩ := h
  cases h2 with
  | cons hs hr =>
    rename_i l' tok pos lit
    obtain ⟨q, hq⟩ : ∃ q, p.next = .ok q := by unfold PState.next; rw [hs]; exact ⟨_, rfl⟩
    obtain ⟨g1, g2, g3, g4, g5, g6, g7⟩ := next_fields hq
    rw [hs] at g7
    cases g7
    exact ⟨q, hq, (curTok_next hq).trans h1, ⟨rfl, _, hr⟩, g4, g6, g5⟩

theorem at_next {s t u : Token} {ts : List Token} (h : Stands p (s :: t :: u :: ts)) :
    ∃ q, p.next = .ok q ∧ Stands q (t :: u :: ts) ∧ Same p q := by
  obtain ⟨q, h1, h2, h3, h4⟩ := ahead_next h.2
  exact ⟨q, h1, ⟨h2, h3⟩, h4⟩

theorem at_into {a : Token} {ts : List Token} {r u rs} (h : Stands p (a :: (ts ++ r :: u :: rs))) :
    ∃ q, p.next = .ok q ∧ Stands q (ts ++ r :: u :: rs) ∧ Same p q := by
  match ts with
  | [] => exact at_next h
  | [b] => exact at_next (s := a) (t := b) (u := r) h
  | b :: c :: ts => exact at_next (s := a) (t := b) (u := c) (ts := ts ++ r :: u :: rs) h

theorem peek_at {t : Token} {ts : List Token} (h : Ahead p (t :: ts)) :
    p.peek = t.tok ∧ p.peekPos = t.pos ∧ p.peekLit = t.lit := by
  rw [← h.1]; exact ⟨rfl, rfl, rfl⟩

theorem ahead_task {ts : List Token} {t : Task} (h : Ahead p ts) : Ahead (p.addTask t) ts := by
  cases ts with
  | nil => trivial
  | cons a ts => exact h

/-- Consecutive comments are read together. -/
theorem comments_at (gs : List Token) (hgs : ∀ g ∈ gs, g.tok = .COMMENT) {u rest acc} {c : Token} (hc : p.curTok = c)
    (h : Ahead p (gs ++ u :: rest)) (hu : u.tok ≠ .COMMENT) (hn : gs.length + 1 ≤ n) :
    ∃ q, loopOut commentStep n (acc, p) = .ok (acc ++ gs.map (fun c => ⟨c.pos, c.lit⟩), q) ∧
      (c :: gs).getLast? = some q.curTok ∧ Ahead q (u :: rest) ∧ Same p q := by
  induction gs generalizing p n acc c with
  | nil =>
    obtain ⟨n, rfl⟩ : ∃ m, n = m + 1 := ⟨n - 1, by simp at hn; omega⟩
    refine ⟨p, ?_, by simp [hc], h, .refl _⟩
    rw [loopOut]
    unfold commentStep
    dsimp only
    rw [if_neg (by rw [(peek_at h).1]; exact hu)]
    simp
  | cons g gs ih =>
    obtain ⟨n, rfl⟩ : ∃ m, n = m + 1 := ⟨n - 1, by simp at hn; omega⟩
    obtain ⟨v, vs, hv⟩ : ∃ v vs, gs ++ u :: rest = v :: vs := by
      cases gs with
      | nil => exact ⟨_, _, rfl⟩
      | cons a as => exact ⟨_, _, rfl⟩
    have h' : Ahead p (g :: v :: vs) := by rw [← hv]; exact h
    obtain ⟨p1, h1, h2, h3, h4⟩ := ahead_next h'
    rw [← hv] at h3
    obtain ⟨q, g1, g2, g3, g4⟩ := ih (n := n) (acc := acc ++ [⟨g.pos, g.lit⟩])
      (fun c hc => hgs c (by simp [hc])) h2 h3 (by simp at hn ⊢; omega)
    refine ⟨q, ?_, by rw [← g2]; simp [List.getLast?_cons_cons], g3, h4.trans g4⟩
    rw [loopOut]
    unfold commentStep
    dsimp only
    rw [if_pos ((peek_at h').1.trans (hgs g (by simp))), h1]
    have : p1.parseInnerComment = ⟨g.pos, g.lit⟩ := by
      unfold parseInnerComment
      rw [(cur_of h2).2.1, (cur_of h2).2.2]
    show loopOut commentStep n (acc ++ [p1.parseInnerComment], p1) = _
    rw [this, g1]
    simp

/-- Reading comments. -/
theorem comment_at {gs : List Token} {u rest} (hgs : ∀ g ∈ gs, g.tok = .COMMENT) (hne : gs ≠ [])
    (h : Stands p (gs ++ u :: rest)) (hu : u.tok ≠ .COMMENT) (hn : gs.length + 1 ≤ n) :
    ∃ q, parseComment n p = .ok (commentTree gs, none, q) ∧ gs.getLast? = some q.curTok ∧ Ahead q (u :: rest) ∧ Same p q := by
  cases gs with
  | nil => exact absurd rfl hne
  | cons c cs =>
    obtain ⟨h1, h2⟩ := h
    obtain ⟨q, g1, g2, g3, g4⟩ := comments_at (n := n) (acc := [p.parseInnerComment]) cs
      (fun c hc => hgs c (by simp [hc])) h1 h2 hu (by simp at hn ⊢; omega)
    refine ⟨q, ?_, g2, g3, g4⟩
    unfold parseComment
    rw [g1]
    have : p.parseInnerComment = ⟨c.pos, c.lit⟩ := by
      unfold parseInnerComment
      rw [(cur_of h1).2.1, (cur_of h1).2.2]
    rw [this]
    cases cs with
    | nil => rfl
    | cons d ds => rfl

/-- Comments in front of an entry are passed over. -/
theorem skip_at {gs : List Token} {u v rest} (hgs : ∀ g ∈ gs, g.tok = .COMMENT) (hu : u.tok ≠ .COMMENT)
    (h : Stands p (gs ++ u :: v :: rest)) (hn : gs.length + 1 ≤ n) :
    ∃ q, skipComment n p = .ok q ∧ Stands q (u :: v :: rest) ∧ Same p q := by
  by_cases hne : gs = []
  · subst hne
    exact ⟨p, skip_none (by rw [(cur_of h.1).1]; exact hu), h, .refl p⟩
  · obtain ⟨q1, h1, h2, h3, h4⟩ := comment_at hgs hne h hu hn
    obtain ⟨q, k1, k2, k3, k4⟩ := ahead_next h3
    refine ⟨q, ?_, ⟨k2, k3⟩, h4.trans k4⟩
    unfold skipComment
    obtain ⟨g, gs, rfl⟩ := List.exists_cons_of_ne_nil hne
    rw [if_pos ((cur_of h.1).1.trans (hgs g (by simp))), h1]
    exact k1

/-! ### Running the parser -/

/-- Spelled as the tokens of a source are. -/
def TokOK (t : Token) : Prop := Spelled t.tok t.lit ∧ (t.tok = .IDENT → t.lit ≠ [])

def RunsOp (x : Node) (ts : List Token) (nx : Token) (cs : List Check) : Prop :=
  ∃ k N, ∀ n, N ≤ n → ∀ (p : PState) u rs, Stands p (ts ++ nx :: u :: rs) → (∀ t ∈ ts, TokOK t) →
    ∃ nud y q0 q, selectNud (parseEntry n) n p = some nud ∧ nud p = .ok (y, none, q0) ∧
      (∀ m, loopOut (ledStep (parseEntry n) 0) (m + k) (y, q0) = loopOut (ledStep (parseEntry n) 0) m (x, q)) ∧
      Ahead q (nx :: u :: rs) ∧ Eff p q cs ∧ q.cur ≠ .COMMA ∧ ts.getLast? = some q.curTok

/-- An entry without comments in front of it. -/
def RunsTail (x : Node) (ts : List Token) (nx : Token) (cs : List Check) : Prop :=
  ∃ N, ∀ n, N ≤ n → ∀ (p : PState) prec u rs, Stands p (ts ++ nx :: u :: rs) → (∀ t ∈ ts, TokOK t) → prec ≤ p.cur.precedence →
    ∃ nud y q0 q, selectNud (parseEntry n) n p = some nud ∧ nud p = .ok (y, none, q0) ∧
      loopOut (ledStep (parseEntry n) prec) n (y, q0) = .ok (x, none, q) ∧ Ahead q (nx :: u :: rs) ∧ Eff p q cs ∧
      (q.cur = .COMMA ∨ nx.tok ∉ infixes ∧ nx.tok ≠ .COMMA) ∧ ts.getLast? = some q.curTok

def RunsEn (x : Node) (ts : List Token) (nx : Token) (cs : List Check) : Prop :=
  ∃ gs us, ts = gs ++ us ∧ (∀ g ∈ gs, g.tok = .COMMENT) ∧ RunsTail x us nx cs ∧ ∃ t vs, us = t :: vs ∧ t.tok ∈ starters

def RunsEs (xs : List Node) (ts : List Token) (nx : Token) (cs : List Check) : Prop :=
  ∃ N, ∀ n, N ≤ n → ∀ m, N ≤ m → ∀ keep acc (p : PState) u rs, Stands p (ts ++ nx :: u :: rs) →
    nx.tok ∈ [Tok.RPAREN, .RBRACK, .RBRACE] → (∀ t ∈ ts, TokOK t) →
    ∃ q, loopOut (listStep (parseEntry n) nx.tok keep) m (acc, p) = .ok (acc ++ xs.filter keep, none, q) ∧
      Stands q (nx :: u :: rs) ∧ Eff p q cs

def RunsPart : Spec.Part → List Token → Token → List Check → Prop
  | .operand x => RunsOp x
  | .entry x => RunsEn x
  | .entries xs => RunsEs xs

/-- What the parser does at an entry. -/
theorem runs_entry {x ts nx cs} (h : RunsEn x ts nx cs) : ∃ N, ∀ n, N ≤ n → ∀ (p : PState) prec u rs,
    Stands p (ts ++ nx :: u :: rs) → (∀ t ∈ ts, TokOK t) → prec ≤ p.cur.precedence →
    ∃ q, parseEntry n prec p = .ok (x, none, q) ∧ Ahead q (nx :: u :: rs) ∧ Eff p q cs ∧
      (q.cur = .COMMA ∨ nx.tok ∉ infixes ∧ nx.tok ≠ .COMMA) ∧ ts.getLast? = some q.curTok := by
  obtain ⟨gs, us, rfl, hg, ⟨N, h⟩, t, vs, rfl, ht⟩ := h
  refine ⟨N + gs.length + 2, fun n hn p prec u rs h1 h2 h3 => ?_⟩
  obtain ⟨n, rfl⟩ : ∃ m, n = m + 1 := ⟨n - 1, by omega⟩
  obtain ⟨w, ws, hw⟩ : ∃ w ws, vs ++ nx :: u :: rs = w :: ws := by
    cases vs with
    | nil => exact ⟨_, _, rfl⟩
    | cons a b => exact ⟨_, _, rfl⟩
  have h1' : Stands p (gs ++ t :: w :: ws) := by rw [← hw]; simpa using h1
  obtain ⟨p1, a1, a2, a3⟩ := skip_at (n := n) hg (starter_ne ht).2 h1' (by omega)
  have a2' : Stands p1 (t :: vs ++ nx :: u :: rs) := by rw [List.cons_append, hw]; exact a2
  have hprec : prec ≤ p1.cur.precedence := by
    cases gs with
    | nil =>
      have : p1 = p := by
        rw [skip_none (by rw [(cur_of h1.1).1]; exact (starter_ne ht).2)] at a1
        cases a1; rfl
      rw [this]; exact h3
    | cons g gs =>
      rw [(cur_of h1.1).1, hg g (by simp)] at h3
      exact Nat.le_trans h3 (Nat.zero_le _)
  obtain ⟨nud, y, q0, q, k1, k2, k3, k4, k5, k6, k7⟩ := h n (by omega) p1 prec u rs a2' (fun t ht => h2 t (List.mem_append_right _ ht)) hprec
  refine ⟨q, parseEntry_of a1 k1 k2 k3, k4, a3.then k5, k6, ?_⟩
  rw [List.getLast?_append, k7]
  rfl

theorem runs_bare {x ts nx cs} (h : RunsTail x ts nx cs) (ht : ∃ t vs, ts = t :: vs ∧ t.tok ∈ starters) : RunsEn x ts nx cs :=
  ⟨[], ts, rfl, nofun, h, ht⟩

theorem run_skip {c x ts nx cs} (hc : c.tok = .COMMENT) (h : RunsEn x ts nx cs) : RunsEn x (c :: ts) nx cs := by
  obtain ⟨gs, us, rfl, hg, h⟩ := h
  refine ⟨c :: gs, us, rfl, ?_, h⟩
  intro g hg'
  rcases List.mem_cons.mp hg' with rfl | hg'
  · exact hc
  · exact hg g hg'

/-- An operand that the handler of its first token reads on its own. -/
theorem runs_nud {x ts nx cs} (N : Nat) (h : ∀ n, N ≤ n → ∀ (p : PState) u rs, Stands p (ts ++ nx :: u :: rs) →
    (∀ t ∈ ts, TokOK t) → ∃ nud q, selectNud (parseEntry n) n p = some nud ∧ nud p = .ok (x, none, q) ∧
      Ahead q (nx :: u :: rs) ∧ Eff p q cs ∧ q.cur ≠ .COMMA ∧ ts.getLast? = some q.curTok) : RunsOp x ts nx cs := by
  refine ⟨0, N, fun n hn p u rs h1 h4 => ?_⟩
  obtain ⟨nud, q, g1, g2, g3, g4, g5⟩ := h n hn p u rs h1 h4
  exact ⟨nud, x, q, q, g1, g2, fun m => rfl, g3, g4, g5⟩

/-- An entry that the handler of its first token reads to the end. -/
theorem runs_prefix {x ts nx cs} (N : Nat) (hne : ∃ t us, ts = t :: us ∧ t.tok ∈ starters)
    (h : ∀ n, N ≤ n → ∀ (p : PState) u rs, Stands p (ts ++ nx :: u :: rs) → (∀ t ∈ ts, TokOK t) →
      ∃ nud q, selectNud (parseEntry n) n p = some nud ∧ nud p = .ok (x, none, q) ∧ Ahead q (nx :: u :: rs) ∧ Eff p q cs ∧
        (q.cur = .COMMA ∨ nx.tok ∉ infixes ∧ nx.tok ≠ .COMMA) ∧ ts.getLast? = some q.curTok) : RunsEn x ts nx cs := by
  refine runs_bare ⟨N + 1, fun n hn p prec u rs h1 h4 _ => ?_⟩ hne
  obtain ⟨n, rfl⟩ : ∃ m, n = m + 1 := ⟨n - 1, by omega⟩
  obtain ⟨nud, q, g1, g2, g3, g4, g5, g6⟩ := h (n + 1) (by omega) p u rs h1 h4
  refine ⟨nud, x, q, q, g1, g2, led_stop ?_, g3, g4, g5, g6⟩
  refine g5.imp id fun h => ?_
  rw [(peek_at g3).1]
  exact led_none h.1 h.2

omit [Unicode] in
theorem last_append {ts : List Token} {v : Token} {vs : List Token} : (ts ++ v :: vs).getLast? = (v :: vs).getLast? := by
  rw [List.getLast?_append]
  cases h : (v :: vs).getLast? with
  | some x => rfl
  | none => simp at h

/-- An operand and then one round of the operator loop. -/
theorem runs_round {x y ts nx cs ds} {v : Token} {vs : List Token} (h : RunsOp x ts v cs) (hop : v.tok ∈ .COMMA :: infixes)
    (hf : ∃ t us, ts = t :: us ∧ t.tok ∈ starters ∧ t.tok.precedence = 0) (N : Nat)
    (hl : ∀ n, N ≤ n → ∀ (p : PState) u rs, Stands p (v :: vs ++ nx :: u :: rs) → (∀ t ∈ v :: vs, TokOK t) →
      ∃ led q, ledOf (parseEntry n) v.tok = some led ∧ led x p = .ok (y, none, q) ∧ Ahead q (nx :: u :: rs) ∧ Eff p q ds ∧
        (q.cur = .COMMA ∨ nx.tok ∉ infixes ∧ nx.tok ≠ .COMMA) ∧ (v :: vs).getLast? = some q.curTok) :
    RunsEn y (ts ++ v :: vs) nx (cs ++ ds) := by
  obtain ⟨k, M, h⟩ := h
  obtain ⟨t, us, rfl, hs, hp0⟩ := hf
  refine runs_bare ⟨N + M + k + 4, fun n hn p prec u rs h1 h4 hprec => ?_⟩ ⟨t, _, rfl, hs⟩
  rw [List.append_assoc, List.cons_append (a := v)] at h1
  obtain ⟨w, ws, hw⟩ : ∃ w ws, vs ++ nx :: u :: rs = w :: ws := by
    cases vs with
    | nil => exact ⟨_, _, rfl⟩
    | cons a b => exact ⟨_, _, rfl⟩
  have hz : 0 < v.tok.precedence := by
    generalize v.tok = t at hop
    cases t <;> first | (exact absurd hop (by decide)) | decide
  rw [hw] at h1
  obtain ⟨nud, y0, q0, q1, a1, a2, a3, a4, a5, a6, a7⟩ := h n (by omega) p w ws h1
    (fun t ht => h4 t (List.mem_append_left _ ht))
  have hcur : p.cur = t.tok := (cur_of h1.1).1
  obtain rfl : prec = 0 := by rw [hcur, hp0] at hprec; omega
  obtain ⟨q2, b1, b2, b3, b4⟩ := ahead_next a4
  have hf2 : Stands q2 (v :: vs ++ nx :: u :: rs) := by
    rw [List.cons_append, hw]; exact ⟨b2, b3⟩
  obtain ⟨led, q3, c1, c2, c3, c4, c5, c6⟩ := hl n (by omega) q2 u rs hf2
    (fun t ht => h4 t (List.mem_append_right _ ht))
  obtain ⟨m, hm⟩ : ∃ m, n = m + 2 + k := ⟨n - 2 - k, by omega⟩
  have hpk : q1.peek = v.tok := (peek_at a4).1
  refine ⟨nud, y0, q0, q3, a1, a2, ?_, c3, ?_, c5, by rw [last_append]; exact c6⟩
  · have hlp : loopOut (ledStep (parseEntry n) 0) n (y0, q0) = loopOut (ledStep (parseEntry n) 0) (m + 2 + k) (y0, q0) := by
      rw [← hm]
    rw [hlp, a3, led_step a6 (by rw [hpk]; exact hz) (by rw [hpk]; exact c1) b1 c2]
    refine led_stop (c5.imp id fun h => ?_)
    rw [(peek_at c3).1]
    exact led_none h.1 h.2
  · exact a5.trans (b4.then c4)

/-- Going to the next token and reading an entry there. -/
theorem runs_next {x ts nx cs} (h : RunsEn x ts nx cs) : ∃ N, ∀ n, N ≤ n → ∀ (p : PState) a u rs,
    Stands p (a :: (ts ++ nx :: u :: rs)) → (∀ t ∈ ts, TokOK t) →
    ∃ p1 q, p.next = .ok p1 ∧ Stands p1 (ts ++ nx :: u :: rs) ∧ parseEntry n p1.cur.precedence p1 = .ok (x, none, q) ∧
      nextEntry (parseEntry n) p = .ok (x, none, q) ∧ Ahead q (nx :: u :: rs) ∧ Eff p q cs ∧
      (q.cur = .COMMA ∨ nx.tok ∉ infixes ∧ nx.tok ≠ .COMMA) ∧ ts.getLast? = some q.curTok := by
  obtain ⟨N, h⟩ := runs_entry h
  refine ⟨N, fun n hn p a u rs h1 h4 => ?_⟩
  obtain ⟨p1, g1, g2, g3⟩ := at_into h1
  obtain ⟨q, k1, k2, k3, k4⟩ := h n hn p1 p1.cur.precedence u rs g2 h4 (Nat.le_refl _)
  exact ⟨p1, q, g1, g2, k1, nextEntry_of g1 k1, k2, g3.then k3, k4⟩

/-! ### Operands -/

theorem run_name {t nx : Token} (ht : t.tok = .IDENT) : RunsOp (.ident ⟨t.pos, t.lit⟩) [t] nx
    (if nx.tok = .COLON ∨ t.lit.head? = some 36 then [] else [.declared t.lit]) := by
  refine runs_nud 0 fun n _ p u rs hf hok => ?_
  obtain ⟨hc, hs⟩ := hf
  obtain ⟨c1, c2, c3⟩ := cur_of hc
  have hcur : p.cur = .IDENT := c1.trans ht
  have hpk : p.peek = nx.tok := (peek_at hs).1
  have hlast : [t].getLast? = some p.curTok := by rw [hc]; rfl
  have hcomma : p.cur ≠ .COMMA := by rw [hcur]; decide
  unfold selectNud
  by_cases hk : nx.tok = .COLON
  · rw [if_pos ⟨hcur, hpk.trans hk⟩, if_pos (.inl hk), ← c2, ← c3]
    exact ⟨parseIdentifier, p, rfl, rfl, hs, eff_refl p, hcomma, hlast⟩
  · rw [if_neg (fun h => hk (hpk.symm.trans h.2)), hcur]
    have hne : p.lit ≠ [] := by rw [c3]; exact (hok t (by simp)).2 ht
    obtain ⟨c, l, hl⟩ := List.exists_cons_of_ne_nil hne
    have hnud : parseNamedIdentifier p = .ok (.ident ⟨p.pos, p.lit⟩, none, if c ≠ 36 then p.addTask (.exists p.lit p.pos) else p) := by
      unfold parseNamedIdentifier
      split
      · rename_i h; rw [hl] at h; cases h
      · rename_i h; rw [hl] at h; cases h; rfl
    have hh : t.lit.head? = some c := by rw [← c3, hl]; rfl
    rw [← c2, ← c3]
    by_cases h36 : c = 36
    · rw [if_neg (by simpa using h36)] at hnud
      refine ⟨_, p, rfl, hnud, hs, ?_, hcomma, hlast⟩
      rw [if_pos (.inr (by rw [c3, hh, h36]))]
      exact eff_refl p
    · rw [if_pos h36] at hnud
      refine ⟨_, _, rfl, hnud, hs, ?_, hcomma, hlast⟩
      rw [if_neg (by rw [c3, hh]; simp [hk, h36])]
      exact ⟨rfl, rfl, [.exists p.lit p.pos], rfl, rfl⟩

theorem run_single {t : Token} {x nx} (h : Single t x) : RunsOp x [t] nx [] := by
  refine runs_nud 0 fun n _ p u rs hf hok => ?_
  obtain ⟨hc, hs⟩ := hf
  obtain ⟨c1, c2, c3⟩ := cur_of hc
  have hsp := (hok t (by simp)).1
  have key : ∀ {nud}, nudOf (parseEntry n) n t.tok = some nud → t.tok ≠ .IDENT → t.tok ≠ .COMMA → nud p = .ok (x, none, p) →
      ∃ nud q, selectNud (parseEntry n) n p = some nud ∧ nud p = .ok (x, none, q) ∧
        Ahead q (nx :: u :: rs) ∧ Eff p q [] ∧ q.cur ≠ .COMMA ∧ [t].getLast? = some q.curTok := by
    intro nud h1 h2 h3 h4
    exact ⟨nud, p, (select_of c1 h2).trans h1, h4, hs, eff_refl p, by rw [c1]; exact h3, by rw [hc]; rfl⟩
  have full : ∀ {k : Tok}, t.tok = k → nudOf (parseEntry n) n k = nudOf (parseEntry n) n t.tok := fun h => by rw [h]
  cases h with
  | bool h => exact key ((full h).symm.trans rfl) (by rw [h]; decide) (by rw [h]; decide) (by rw [← c1, ← c2]; rfl)
  | true h =>
    refine key ((full h).symm.trans rfl) (by rw [h]; decide) (by rw [h]; decide) ?_
    unfold parseBooleanLiteral
    rw [c3, hsp.1 (by rw [h]; decide), h, if_pos (by decide), ← c2]
  | false h =>
    refine key ((full h).symm.trans rfl) (by rw [h]; decide) (by rw [h]; decide) ?_
    unfold parseBooleanLiteral
    rw [c3, hsp.1 (by rw [h]; decide), h, if_neg (by decide), if_pos (by decide), ← c2]
  | text h =>
    rcases h with h | h <;>
      exact key ((full h).symm.trans rfl) (by rw [h]; decide) (by rw [h]; decide) (by rw [← c1, ← c2]; rfl)
  | literal h => exact key ((full h).symm.trans rfl) (by rw [h]; decide) (by rw [h]; decide) (by rw [← c1, ← c2, ← c3]; rfl)
  | float h =>
    have go : ∀ {k : Tok}, t.tok = k → nudOf (parseEntry n) n k = some parseFloatType → k ≠ .IDENT → k ≠ .COMMA →
        k.isLiteral t.lit = Bool.false → ∃ nud q, selectNud (parseEntry n) n p = some nud ∧
        nud p = .ok (.floatType t.pos t.tok, none, q) ∧ Ahead q (nx :: u :: rs) ∧ Eff p q [] ∧ q.cur ≠ .COMMA ∧ [t].getLast? = some q.curTok := by
      intro k h1 h2 h3 h4 h5
      refine key ((full h1).symm.trans h2) (by rw [h1]; exact h3) (by rw [h1]; exact h4) ?_
      unfold parseFloatType
      rw [c1, c3, h1, h5, ← c2]
      rfl
    rcases h with h | ⟨h, h'⟩
    · have hl : t.lit = t.tok.text := hsp.1 (by
        simp only [List.mem_cons, List.not_mem_nil, or_false] at h
        rcases h with h | h | h <;> (rw [h]; decide))
      simp only [List.mem_cons, List.not_mem_nil, or_false] at h
      rcases h with h | h | h <;> exact go h rfl (by decide) (by decide) (by rw [hl, h]; decide)
    · exact go h rfl (by decide) (by decide) (by rw [h']; decide)
  | fraction h h' hv =>
    refine key ((full h).symm.trans rfl) (by rw [h]; decide) (by rw [h]; decide) ?_
    show parseFloatType p = _
    unfold parseFloatType
    rw [c1, c3, h, if_pos (show Tok.isLiteral .FLOAT t.lit = Bool.true from decide_eq_true (p := t.lit ≠ Tok.FLOAT.text) h')]
    unfold parseFloatLiteral
    rw [c3, hv, ← c2, c1, h]
  | uint h =>
    refine key ((full h).symm.trans rfl) (by rw [h]; decide) (by rw [h]; decide) ?_
    show parseUintType p = _
    unfold parseUintType
    rw [c1, c3, hsp.1 (by rw [h]; decide), h, if_neg (by decide), ← c2]
  | int h h' =>
    refine key ((full h).symm.trans rfl) (by rw [h]; decide) (by rw [h]; decide) ?_
    show parseIntegerType p = _
    unfold parseIntegerType
    rw [c1, c3, h', h, if_neg (by decide), ← c2]
  | number h h' hv =>
    have hl : Tok.isLiteral .INT t.lit = Bool.true := decide_eq_true (p := t.lit ≠ Tok.INT.text) h'
    refine key ((full h).symm.trans rfl) (by rw [h]; decide) (by rw [h]; decide) ?_
    show parseIntegerType p = _
    unfold parseIntegerType parseIntegerLiteral
    rw [c1, c3, h, if_pos hl, if_pos hl, hv, ← c2]
  | nint h => exact key ((full h).symm.trans rfl) (by rw [h]; decide) (by rw [h]; decide) (by rw [← c1, ← c2]; rfl)
  | bstr h => exact key ((full h).symm.trans rfl) (by rw [h]; decide) (by rw [h]; decide) (by rw [← c1, ← c2]; rfl)
  | bytes h => exact key ((full h).symm.trans rfl) (by rw [h]; decide) (by rw [h]; decide) (by rw [← c1, ← c2]; rfl)
  | null h =>
    rcases h with h | h <;>
      exact key ((full h).symm.trans rfl) (by rw [h]; decide) (by rw [h]; decide) (by rw [← c1, ← c2]; rfl)

/-- Between brackets. -/
theorem run_list {xs ts cs} {c : Token} (h : RunsEs xs ts c cs) (hc : c.tok ∈ [Tok.RPAREN, .RBRACK, .RBRACE]) :
    ∃ N, ∀ n, N ≤ n → ∀ keep (p : PState) o r u rs, Stands p (o :: ts ++ [c] ++ r :: u :: rs) → (∀ t ∈ ts, TokOK t) →
    ∃ q, parseList (parseEntry n) n c.tok keep p = .ok (xs.filter keep, none, q) ∧ Ahead q (r :: u :: rs) ∧ Eff p q cs ∧
      q.cur ≠ .COMMA ∧ (o :: ts ++ [c]).getLast? = some q.curTok := by
  obtain ⟨N, h⟩ := h
  refine ⟨N, fun n hn keep p o r u rs hf hok => ?_⟩
  have hf' : Stands p (o :: (ts ++ c :: r :: u :: rs)) := by simpa using hf
  obtain ⟨p1, g1, g2, g3⟩ := at_into hf'
  obtain ⟨q, k1, k2, k3⟩ := h n hn n hn keep [] p1 r (u :: rs) g2 hc hok
  refine ⟨q, ?_, k2.2, g3.then k3, ?_, ?_⟩
  · unfold parseList
    rw [g1]
    exact k1
  · rw [(cur_of k2.1).1]
    simp only [List.mem_cons, List.not_mem_nil, or_false] at hc
    rcases hc with h | h | h <;> rw [h] <;> decide
  · rw [k2.1, List.getLast?_append]; rfl

theorem run_group {xs ts cs o c nx} (ho : o.tok = .LPAREN) (hc : c.tok = .RPAREN) (h : RunsEs xs ts c cs) :
    RunsOp (.group o.pos (xs.filter (listable ·.kind))) (o :: ts ++ [c]) nx cs := by
  rw [show (listable ·.kind) = (fun x : Node => x.kind.isGroupEntry) from funext fun x => listable_kind x.kind]
  obtain ⟨N, h⟩ := run_list h (by rw [hc]; decide)
  rw [hc] at h
  refine runs_nud N fun n hn p u rs hf hok => ?_
  obtain ⟨q, k1, k2, k3, k4⟩ := h n hn (fun e => e.kind.isGroupEntry) p o nx u rs hf
    fun t ht => hok t (by simp [ht])
  obtain ⟨c1, c2, c3⟩ := cur_of hf.1
  refine ⟨_, q, (select_of (c1.trans ho) (by decide)).trans rfl, ?_, k2, k3, k4⟩
  unfold parseGroup
  rw [k1, ← c2]
  rfl

theorem run_array {xs ts cs o c nx} (ho : o.tok = .LBRACK) (hc : c.tok = .RBRACK) (h : RunsEs xs ts c cs) :
    RunsOp (.array o.pos (xs.filter (listable ·.kind))) (o :: ts ++ [c]) nx cs := by
  rw [show (listable ·.kind) = (fun x : Node => x.kind.isGroupEntry) from funext fun x => listable_kind x.kind]
  obtain ⟨N, h⟩ := run_list h (by rw [hc]; decide)
  rw [hc] at h
  refine runs_nud N fun n hn p u rs hf hok => ?_
  obtain ⟨q, k1, k2, k3, k4⟩ := h n hn (fun e => e.kind.isGroupEntry) p o nx u rs hf
    fun t ht => hok t (by simp [ht])
  obtain ⟨c1, c2, c3⟩ := cur_of hf.1
  refine ⟨_, q, (select_of (c1.trans ho) (by decide)).trans rfl, ?_, k2, k3, k4⟩
  unfold parseArray
  rw [k1, ← c2]
  rfl

theorem run_map {xs ts cs o c nx} (ho : o.tok = .LBRACE) (hc : c.tok = .RBRACE) (hl : Lang (.entries xs) ts c cs)
    (h : RunsEs xs ts c cs) : RunsOp (.map o.pos xs) (o :: ts ++ [c]) nx cs := by
  obtain ⟨N, h⟩ := run_list h (by rw [hc]; decide)
  rw [hc] at h
  refine runs_nud N fun n hn p u rs hf hok => ?_
  obtain ⟨q, k1, k2, k3, k4⟩ := h n hn (fun e => !e.isNil) p o nx u rs hf fun t ht => hok t (by simp [ht])
  obtain ⟨c1, c2, c3⟩ := cur_of hf.1
  have hfil : xs.filter (fun e => !e.isNil) = xs :=
    List.filter_eq_self.mpr fun x hx => by simp [(entries_nil hl).2 _ rfl x hx]
  refine ⟨_, q, (select_of (c1.trans ho) (by decide)).trans rfl, ?_, k2, k3, k4⟩
  unfold parseMap
  rw [k1, ← c2, hfil]
  rfl

/-- The head of a tag. -/
theorem run_nums {ns a b} (h : TagNums ns a b) {hd s t : Token} {vs} (hf : Stands p (hd :: ns ++ s :: t :: vs))
    (h0 : ns = [] → s.tok ≠ .INT ∧ s.tok ≠ .FLOAT) :
    ∃ p1, parseTag rec p = parseTagItem rec p.pos p.cur a b p1 ∧ Same p p1 ∧ Ahead p1 (s :: t :: vs) ∧ (ns = [] → p1 = p) ∧
      (ns ≠ [] → p1.cur = .INT ∨ p1.cur = .FLOAT) ∧ (hd :: ns).getLast? = some p1.curTok := by
  unfold parseTag
  cases h with
  | none =>
    obtain ⟨h1, h2⟩ := h0 rfl
    have hpk := (peek_at hf.2).1
    refine ⟨p, ?_, .refl p, hf.2, fun _ => rfl, nofun, by rw [hf.1]; rfl⟩
    split
    · rename_i h; exact absurd (hpk.symm.trans h) h1
    · rename_i h; exact absurd (hpk.symm.trans h) h2
    · rfl
  | @major w v h hv =>
    obtain ⟨p1, g1, g2, g3, g4⟩ := ahead_next hf.2
    obtain ⟨c1, c2, c3⟩ := cur_of g2
    have hpk := (peek_at hf.2).1.trans h
    refine ⟨p1, ?_, g4, g3, nofun, fun _ => .inl (c1.trans h), by rw [g2]; rfl⟩
    rw [hpk]
    dsimp only
    rw [g1]
    show (match parseUint p1.lit with | .error _ => _ | .ok major => _) = _
    rw [c3, hv]
  | @both w x y v v' h h1 h2 h3 =>
    obtain ⟨p1, g1, g2, g3, g4⟩ := ahead_next hf.2
    obtain ⟨c1, c2, c3⟩ := cur_of g2
    have hpk := (peek_at hf.2).1.trans h
    refine ⟨p1, ?_, g4, g3, nofun, fun _ => .inr (c1.trans h), by rw [g2]; rfl⟩
    have hft : p1.parseFloatTag = .ok (⟨w.pos, w.tok, v⟩, ⟨w.pos, w.tok, v'⟩) := by
      unfold parseFloatTag
      rw [c3, h1]
      dsimp only
      rw [h2]
      dsimp only
      rw [h3, c1, c2]
    rw [hpk]
    dsimp only
    rw [g1]
    show (match p1.parseFloatTag with | .error _ => _ | .ok (major, number) => _) = _
    rw [hft]

theorem run_tag {hd ns a b} {nx : Token} (hh : hd.tok = .HASH) (hn : TagNums ns a b) (h1 : nx.tok ≠ .LPAREN)
    (h2 : ns = [] → nx.tok ≠ .INT ∧ nx.tok ≠ .FLOAT) : RunsOp (.tag hd.pos hd.tok a b .nil) (hd :: ns) nx [] := by
  refine runs_nud 0 fun n _ p u rs hf hok => ?_
  obtain ⟨p1, g1, g2, g3, g4, g5, g6⟩ := run_nums (rec := parseEntry n) hn hf h2
  obtain ⟨c1, c2, c3⟩ := cur_of hf.1
  refine ⟨_, p1, (select_of (c1.trans hh) (by decide)).trans rfl, ?_, g3, g2.eff, ?_, g6⟩
  · rw [g1]
    unfold parseTagItem
    rw [if_neg (by rw [(peek_at g3).1]; exact h1), c1, c2]
  · cases ns with
    | nil => rw [g4 rfl, c1, hh]; decide
    | cons => rcases g5 (by simp) with h | h <;> rw [h] <;> decide

theorem run_tagged {hd ns a b o c ts x cs nx} (hh : hd.tok = .HASH) (hn : TagNums ns a b) (ho : o.tok = .LPAREN)
    (hc : c.tok = .RPAREN) (h : RunsEn x ts c cs) :
    RunsOp (.tag hd.pos hd.tok a b x) (hd :: ns ++ o :: ts ++ [c]) nx cs := by
  obtain ⟨N, h⟩ := runs_next h
  refine runs_nud N fun n hnn p u rs hf hok => ?_
  obtain ⟨w, ws, hw⟩ : ∃ w ws, ts ++ c :: nx :: u :: rs = w :: ws := by
    cases ts with
    | nil => exact ⟨_, _, rfl⟩
    | cons a b => exact ⟨_, _, rfl⟩
  have hf' : Stands p (hd :: ns ++ o :: w :: ws) := by rw [← hw]; simpa using hf
  obtain ⟨p1, g1, g2, g3, g4, g5, g6⟩ := run_nums (rec := parseEntry n) hn hf' (by rw [ho]; intro; decide)
  obtain ⟨p2, k1, k2, k3, k4⟩ := ahead_next g3
  have hf2 : Stands p2 (o :: (ts ++ c :: nx :: (u :: rs))) := by rw [hw]; exact ⟨k2, k3⟩
  obtain ⟨p3, q, m1, m2, m3, m4, m5, m6, m7⟩ := h n hnn p2 o nx (u :: rs) hf2
    fun t ht => hok t (by simp [ht])
  obtain ⟨q1, j1, j2, j3, j4⟩ := ahead_next m5
  obtain ⟨c1, c2, c3⟩ := cur_of hf'.1
  refine ⟨_, q1, (select_of (c1.trans hh) (by decide)).trans rfl, ?_, j3, ?_, ?_, by rw [last_append, j2]; rfl⟩
  · rw [g1]
    unfold parseTagItem
    rw [if_pos (by rw [(peek_at g3).1]; exact ho), k1]
    show Out.bind (nextEntry (parseEntry n) p2) _ = _
    rw [m4]
    show Out.bind (expectPeek q .RPAREN) _ = _
    unfold expectPeek
    rw [if_neg (by rw [(peek_at m5).1]; simpa using hc), j1, c1, c2]
    rfl
  · exact (g2.then (k4.then m6)).same j4
  · rw [(cur_of j2).1, hc]; decide

theorem run_unclosed {hd ns a b o ts x cs nx} (hh : hd.tok = .HASH) (hn : TagNums ns a b) (ho : o.tok = .LPAREN)
    (hnx : nx.tok ≠ .RPAREN) (h : RunsEn x ts nx cs) :
    RunsEn (.tag hd.pos hd.tok a b x) (hd :: ns ++ o :: ts) nx cs := by
  obtain ⟨N, h⟩ := runs_next h
  refine runs_prefix N ⟨_, _, rfl, by rw [hh]; decide⟩ fun n hnn p u rs hf hok => ?_
  obtain ⟨w, ws, hw⟩ : ∃ w ws, ts ++ nx :: u :: rs = w :: ws := by
    cases ts with
    | nil => exact ⟨_, _, rfl⟩
    | cons a b => exact ⟨_, _, rfl⟩
  have hf' : Stands p (hd :: ns ++ o :: w :: ws) := by rw [← hw]; simpa using hf
  obtain ⟨p1, g1, g2, g3, g4, g5, g6⟩ := run_nums (rec := parseEntry n) hn hf' (by rw [ho]; intro; decide)
  obtain ⟨p2, k1, k2, k3, k4⟩ := ahead_next g3
  have hf2 : Stands p2 (o :: (ts ++ nx :: u :: rs)) := by rw [hw]; exact ⟨k2, k3⟩
  obtain ⟨p3, q, m1, m2, m3, m4, m5, m6, m7, m8⟩ := h n hnn p2 o u rs hf2
    fun t ht => hok t (by simp [ht])
  obtain ⟨c1, c2, c3⟩ := cur_of hf'.1
  refine ⟨_, q, (select_of (c1.trans hh) (by decide)).trans rfl, ?_, m5, g2.then (k4.then m6), m7, ?_⟩
  rotate_left
  · obtain ⟨t, vs, rfl⟩ : ∃ t vs, ts = t :: vs := by
      cases ts with
      | nil => cases m8
      | cons t vs => exact ⟨t, vs, rfl⟩
    rw [last_append, List.getLast?_cons_cons]; exact m8
  rw [g1]
  unfold parseTagItem
  rw [if_pos (by rw [(peek_at g3).1]; exact ho), k1]
  show Out.bind (nextEntry (parseEntry n) p2) _ = _
  rw [m4]
  show Out.bind (expectPeek q .RPAREN) _ = _
  unfold expectPeek
  rw [if_pos (by rw [(peek_at m5).1]; exact hnx), c1, c2]
  rfl

/-! ### Marks -/

theorem run_upper {m f : Token} {lo w ts x} {p1 : PState} (hf : Stands p (m :: f :: ts)) (hu : Upper f w) (hn : p.next = .ok p1)
    (hr : rec p1.cur.precedence p1 = .ok (x, none, q)) :
    parseOccUpper rec lo p = .ok (.nm p.pos p.cur (some lo) w x, none, q) := by
  have hpk := peek_at hf.2
  have hcur : p1.curTok = f := (curTok_next hn).trans hf.2.1
  obtain ⟨c1, c2, c3⟩ := cur_of hcur
  have item : ∀ w, parseOccItem rec p.pos p.cur (some lo) w p1 = .ok (.nm p.pos p.cur (some lo) w x, none, q) := by
    intro w
    unfold parseOccItem
    rw [hr]
    rfl
  unfold parseOccUpper
  cases hu with
  | none h =>
    rw [if_neg]
    · rw [hn]; exact item none
    · rintro ⟨h1, h2⟩
      rw [h1, hpk.2.2] at h2
      refine h ⟨hpk.1.symm.trans h1, ?_⟩
      intro h3
      rw [h3] at h2
      revert h2; decide
  | @some v h1 h2 h3 =>
    have hl : Tok.isLiteral .INT f.lit = Bool.true := decide_eq_true (p := f.lit ≠ Tok.INT.text) h2
    rw [if_pos ⟨hpk.1.trans h1, by rw [hpk.1, hpk.2.2, h1]; exact hl⟩, hn]
    show Out.bind (parseUintType p1) _ = _
    have : parseUintType p1 = .ok (.uintLit ⟨f.pos, f.tok, v⟩, none, p1) := by
      unfold parseUintType parseUintLiteral
      rw [c1, c3, h1, if_pos hl, if_pos hl, h3, ← c2]
    rw [this]
    exact item _

theorem run_marked {m f ts x y cs nx} (hm : Marked m f x y) (h : RunsEn x (f :: ts) nx cs) :
    RunsEn y (m :: f :: ts) nx cs := by
  obtain ⟨N, h⟩ := runs_next h
  refine runs_prefix N ⟨_, _, rfl, marked_starter hm⟩ fun n hn p u rs hf hok => ?_
  obtain ⟨p1, q, h1, h2, h3, h4, h5, h6, h7⟩ := h n hn p m u rs hf fun t ht => hok t (List.mem_cons_of_mem _ ht)
  obtain ⟨c1, c2, c3⟩ := cur_of hf.1
  rw [← List.getLast?_cons_cons (a := m)] at h7
  cases hm with
  | optional hm =>
    refine ⟨_, q, (select_of (c1.trans hm) (by decide)).trans rfl, ?_, h5, h6, h7⟩
    unfold parseOptional
    rw [h4, ← c1, ← c2]
    rfl
  | unwrap hm =>
    refine ⟨_, q, (select_of (c1.trans hm) (by decide)).trans rfl, ?_, h5, h6, h7⟩
    unfold parseUnwrap
    rw [h4, ← c1, ← c2]
    rfl
  | enumeration hm =>
    refine ⟨_, q, (select_of (c1.trans hm) (by decide)).trans rfl, ?_, h5, h6, h7⟩
    unfold parseEnumeration
    rw [h4, ← c1, ← c2]
    rfl
  | any hm hu =>
    refine ⟨_, q, (select_of (c1.trans hm) (by decide)).trans rfl, ?_, h5, h6, h7⟩
    unfold parseZMOccurrence parseOccurrence
    rw [← c1, ← c2]
    exact run_upper hf hu h1 h3
  | some hm hu =>
    refine ⟨_, q, (select_of (c1.trans hm) (by decide)).trans rfl, ?_, h5, h6, h7⟩
    unfold parseOMOccurrence parseOccurrence
    rw [← c1, ← c2]
    exact run_upper hf hu h1 h3

/-! ### Operators -/

theorem lang_op {op f : Token} {a b y es} (hj : Joined op f a b y es) {ts p1} (hf : Stands p (op :: f :: ts))
    (hn : p.next = .ok p1) (hr : rec p1.cur.precedence p1 = .ok (b, none, q))
    (hcm : op.tok = .COLON ∨ op.tok = .ARROW_MAP → ¬ (q.peek = .COMMENT ∧ sameLine q.pos q.peekPos = true)) :
    ∃ led q', ledOf rec op.tok = some led ∧ led a p = .ok (y, none, q') ∧ (q' = q ∨ ∃ t, q' = q.addTask t) ∧ Eff q q' es := by
  have hne : nextEntry rec p = .ok (b, none, q) := nextEntry_of hn hr
  obtain ⟨c1, c2, c3⟩ := cur_of hf.1
  have hpk := peek_at hf.2
  cases hj with
  | field h =>
    refine ⟨parseColon rec, q, by rcases h with h | h <;> rw [h] <;> rfl, ?_, .inl rfl, eff_refl q⟩
    unfold parseColon
    dsimp only
    rw [hne]
    show (if q.peek = .COMMENT ∧ sameLine q.pos q.peekPos then _ else _) = _
    rw [if_neg (hcm h), c2]
  | keyed h =>
    refine ⟨parseColon rec, q, by rcases h with h | h <;> rw [h] <;> rfl, ?_, .inl rfl, eff_refl q⟩
    unfold parseColon
    dsimp only
    rw [hne]
    show (if q.peek = .COMMENT ∧ sameLine q.pos q.peekPos then _ else _) = _
    rw [if_neg (hcm h), c2]
  | choice h =>
    refine ⟨parseTypeChoice rec, q, by rcases h with h | h <;> rw [h] <;> rfl, ?_, .inl rfl, eff_refl q⟩
    unfold parseTypeChoice
    rw [hne, ← c1, ← c2]
    rfl
  | size h ha =>
    refine ⟨parseSizeOperator rec, q, by rw [h]; rfl, ?_, .inl rfl, eff_refl q⟩
    unfold parseSizeOperator
    simp only [List.mem_cons, List.not_mem_nil, or_false] at ha
    rcases ha with ha | ha | ha <;> (rw [ha, hne, ← c1, ← c2]; rfl)
  | regexp h ht =>
    refine ⟨parseRegexp rec, q, by rw [h]; rfl, ?_, .inl rfl, eff_refl q⟩
    unfold parseRegexp
    dsimp only
    rw [if_neg, hne, ← c1, ← c2]
    · rfl
    · rw [hpk.1]
      rintro ⟨h1, h2⟩
      exact ht.elim h1 h2
  | bits h =>
    refine ⟨parseBits rec, q, by rw [h]; rfl, ?_, .inl rfl, eff_refl q⟩
    unfold parseBits
    rw [hne, ← c1, ← c2]
    rfl
  | compare h ha =>
    refine ⟨parseComparatorOp rec, q, ?_, ?_, .inl rfl, eff_refl q⟩
    · simp only [List.mem_cons, List.not_mem_nil, or_false] at h
      rcases h with h | h | h | h | h | h <;> (rw [h]; rfl)
    · unfold parseComparatorOp
      simp only [List.mem_cons, List.not_mem_nil, or_false] at ha
      rcases ha with ha | ha | ha <;> (rw [ha, hne, ← c1, ← c2, ← c3]; rfl)
  | occ h hv hu =>
    refine ⟨parseOccurrence rec, q, by rcases h with h | h <;> rw [h] <;> rfl, ?_, .inl rfl, eff_refl q⟩
    unfold parseOccurrence
    rw [if_neg (by omega), ← c1, ← c2]
    exact run_upper hf hu hn hr
  | range h hk =>
    have hled : ledOf rec op.tok = some (parseBound rec) := by rcases h with h | h <;> rw [h] <;> rfl
    unfold keptEnd at hk
    split at hk <;> cases hk
    · rename_i i
      refine ⟨parseBound rec, q.addTask (.identBound p.cur i b), hled, ?_, .inr ⟨_, rfl⟩, ⟨rfl, rfl, [.identBound p.cur i b], rfl, ?_⟩⟩
      · unfold parseBound parseIdentBound
        dsimp only
        rw [hne, ← c1, ← c2]
        rfl
      · rw [c1]
        cases b <;> rfl
    · refine ⟨parseBound rec, q, hled, ?_, .inl rfl, eff_refl q⟩
      unfold parseBound parseIntBound
      dsimp only
      rw [hne, ← c1, ← c2]
      rfl
    · rename_i i
      refine ⟨parseBound rec, q.addTask (.intBound i.name i.pos i.stop), hled, ?_, .inr ⟨_, rfl⟩, ⟨rfl, rfl, [_], rfl, rfl⟩⟩
      unfold parseBound parseIntBound
      dsimp only
      rw [hne, ← c1, ← c2]
      rfl
    · rename_i g1 g2 g3
      refine ⟨parseBound rec, q, hled, ?_, .inl rfl, ?_⟩
      · unfold parseBound parseIntBound
        dsimp only
        rw [hne, ← c1, ← c2]
        cases b <;> first | rfl | exact absurd rfl (g1 _ _ _) | exact absurd rfl (g2 _) | exact absurd rfl (g3 _ _ _)
      · have : ∀ x y z, rangeChecks op.tok (.intLit x y z) b = [] := by
          intro x y z
          cases b <;> first | rfl | exact absurd rfl (g2 _)
        rw [this]
        exact eff_refl q
    · refine ⟨parseBound rec, q, hled, ?_, .inl rfl, eff_refl q⟩
      unfold parseBound parseFloatBound
      dsimp only
      rw [hne, ← c1, ← c2]
      rfl
    · rename_i i
      refine ⟨parseBound rec, q.addTask (.floatBound i.name i.pos i.stop), hled, ?_, .inr ⟨_, rfl⟩, ⟨rfl, rfl, [_], rfl, rfl⟩⟩
      unfold parseBound parseFloatBound
      dsimp only
      rw [hne, ← c1, ← c2]
      rfl
    · rename_i g1 g2 g3
      refine ⟨parseBound rec, q, hled, ?_, .inl rfl, ?_⟩
      · unfold parseBound parseFloatBound
        dsimp only
        rw [hne, ← c1, ← c2]
        cases b <;> first | rfl | exact absurd rfl (g1 _ _ _) | exact absurd rfl (g2 _) | exact absurd rfl (g3 _ _ _)
      · have : ∀ x y z, rangeChecks op.tok (.floatLit x y z) b = [] := by
          intro x y z
          cases b <;> first | rfl | exact absurd rfl (g2 _)
        rw [this]
        exact eff_refl q

theorem trails_at {ts : List Token} {nx : Token} {us} (h : Ahead q (nx :: us)) (hl : ts.getLast? = some q.curTok) :
    Trails ts nx ↔ q.peek = .COMMENT ∧ sameLine q.pos q.peekPos = true := by
  obtain ⟨k1, k2, -⟩ := peek_at h
  unfold Trails sameLine
  rw [hl, k1, k2]
  simp only [Option.some.injEq, exists_eq_left', decide_eq_true_eq]
  rfl

theorem run_joined {op f : Token} {a b y es ts us cs ds nx} (hl : Lang (.operand a) ts op cs) (ha : RunsOp a ts op cs)
    (hb : RunsEn b (f :: us) nx ds) (hj : Joined op f a b y es)
    (ht : op.tok = .COLON ∨ op.tok = .ARROW_MAP → ¬ Trails (f :: us) nx) :
    RunsEn y (ts ++ op :: f :: us) nx (cs ++ (ds ++ es)) := by
  obtain ⟨N, hb⟩ := runs_next hb
  refine runs_round ha (List.mem_cons_of_mem _ (joined_infix hj)) (lang_first hl _ rfl) N fun n hn p u rs hf hok => ?_
  obtain ⟨p1, q, h1, h2, h3, h4, h5, h6, h7, h8⟩ := hb n hn p op u rs hf fun t ht => hok t (List.mem_cons_of_mem _ ht)
  rw [trails_at h5 h8] at ht
  obtain ⟨led, q', k1, k2, k3, k4⟩ := lang_op hj hf h1 h3 ht
  rw [← List.getLast?_cons_cons (a := op)] at h8
  refine ⟨led, q', k1, k2, ?_, h6.trans k4, ?_, ?_⟩
  · rcases k3 with rfl | ⟨t, rfl⟩ <;> exact h5
  · rcases k3 with rfl | ⟨t, rfl⟩ <;> exact h7
  · rcases k3 with rfl | ⟨t, rfl⟩ <;> exact h8

/-- A field with a comment on its line. -/
theorem run_noted {op f c : Token} {a b r i v es ts us cs ds nx} (ha : RunsOp a ts op cs)
    (hb : RunsEn b (f :: us) c ds) (hj : Joined op f a b (.entry r i v none) es) (ht : Trails (f :: us) c) :
    RunsOp (.entry r i v (some ⟨c.pos, c.lit⟩)) (ts ++ op :: f :: us ++ [c]) nx (cs ++ (ds ++ es)) := by
  obtain ⟨k, M, ha⟩ := ha
  obtain ⟨N, hb⟩ := runs_next hb
  refine ⟨k + 1, N + M, fun n hn p u rs hf hok => ?_⟩
  have hf' : Stands p (ts ++ op :: f :: (us ++ c :: nx :: u :: rs)) := by simpa using hf
  obtain ⟨nud, y0, q0, q1, a1, a2, a3, a4, a5, a6, a7⟩ := ha n (by omega) p f (us ++ c :: nx :: u :: rs) hf'
    fun t ht => hok t (by simp [ht])
  obtain ⟨q2, b1, b2, b3, b4⟩ := ahead_next a4
  have hf2 : Stands q2 (op :: (f :: us ++ c :: nx :: u :: rs)) := ⟨b2, b3⟩
  obtain ⟨p1, q, h1, h2, h3, h4, h5, h6, h7, h8⟩ := hb n (by omega) q2 op nx (u :: rs) hf2
    fun t ht => hok t (by
      simp only [List.mem_append, List.mem_cons] at ht ⊢
      rcases ht with h | h <;> simp [h])
  rw [trails_at h5 h8] at ht
  obtain ⟨q3, d1, d2, d3, d4⟩ := ahead_next h5
  have hpk : q1.peek = op.tok := (peek_at a4).1
  obtain ⟨c1, c2, c3⟩ := cur_of b2
  obtain ⟨e1, e2, e3⟩ := cur_of d2
  have hct : q3.cur = .COMMENT := (next_cur d1).trans ht.1
  have key : (op.tok = .COLON ∨ op.tok = .ARROW_MAP) ∧ es = [] ∧
      parseColon (parseEntry n) a q2 = .ok (.entry r i v (some ⟨c.pos, c.lit⟩), none, q3) := by
    cases hj with
    | field h =>
      refine ⟨h, rfl, ?_⟩
      unfold parseColon
      dsimp only
      rw [h4]
      show (if q.peek = .COMMENT ∧ sameLine q.pos q.peekPos then Out.bind q.next _ else _) = _
      rw [if_pos ht, d1, c2]
      show Out.ok (Node.entry _ _ _ (some q3.parseInnerComment), none, q3) = _
      unfold parseInnerComment
      rw [e2, e3]
    | keyed h =>
      refine ⟨h, rfl, ?_⟩
      unfold parseColon
      dsimp only
      rw [h4]
      show (if q.peek = .COMMENT ∧ sameLine q.pos q.peekPos then Out.bind q.next _ else _) = _
      rw [if_pos ht, d1, c2]
      show Out.ok (Node.entry _ _ _ (some q3.parseInnerComment), none, q3) = _
      unfold parseInnerComment
      rw [e2, e3]
  obtain ⟨hop, rfl, hcol⟩ := key
  refine ⟨nud, y0, q0, q3, a1, a2, fun m => ?_, d3, ?_, by rw [hct]; decide, by rw [last_append, d2]; rfl⟩
  · rw [show m + (k + 1) = m + 1 + k from by omega, a3]
    refine led_step (led := parseColon (parseEntry n)) a6 ?_ ?_ b1 hcol
    · rw [hpk]; rcases hop with h | h <;> rw [h] <;> decide
    · rw [hpk]; rcases hop with h | h <;> rw [h] <;> rfl
  · rw [List.append_nil]
    exact (a5.trans (b4.then h6)).same d4

theorem run_comma {c : Token} {x ts cs nx} (hc : c.tok = .COMMA) (hl : Lang (.operand x) ts c cs)
    (h : RunsOp x ts c cs) : RunsEn x (ts ++ [c]) nx cs := by
  have := runs_round (y := x) (vs := []) (ds := []) (nx := nx) h (by rw [hc]; decide) (lang_first hl _ rfl) 0
    fun n hn p u rs hf hok => ⟨parseComma, p, by rw [hc]; rfl, rfl, hf.2, eff_refl p, .inl ((cur_of hf.1).1.trans hc), by rw [hf.1]; rfl⟩
  simpa using this

theorem run_only {x ts cs nx} (hl : Lang (.operand x) ts nx cs) (h : RunsOp x ts nx cs) (h1 : nx.tok ∉ infixes)
    (h2 : nx.tok ≠ .COMMA) : RunsEn x ts nx cs := by
  obtain ⟨k, N, h⟩ := h
  obtain ⟨t, us, rfl, hs, hp0⟩ := lang_first hl _ rfl
  refine runs_bare ⟨N + k + 3, fun n hn p prec u rs hf hok hprec => ?_⟩ ⟨t, us, rfl, hs⟩
  obtain ⟨nud, y0, q0, q1, a1, a2, a3, a4, a5, a6, a7⟩ := h n (by omega) p u rs hf hok
  have hcur : p.cur = t.tok := (cur_of hf.1).1
  obtain rfl : prec = 0 := by rw [hcur, hp0] at hprec; omega
  obtain ⟨m, hm⟩ : ∃ m, n = m + 1 + k := ⟨n - 1 - k, by omega⟩
  refine ⟨nud, y0, q0, q1, a1, a2, ?_, a4, a5, .inr ⟨h1, h2⟩, a7⟩
  have hlp : loopOut (ledStep (parseEntry n) 0) n (y0, q0) = loopOut (ledStep (parseEntry n) 0) (m + 1 + k) (y0, q0) := by
    rw [← hm]
  rw [hlp, a3]
  refine led_stop (.inr ?_)
  rw [(peek_at a4).1]
  exact led_none h1 h2

theorem run_noRange {op : Token} {a ts cs nx} (ho : op.tok = .INCLUSIVE_BOUND ∨ op.tok = .EXCLUSIVE_BOUND)
    (hk : a.kind ∉ [NodeKind.ident, .intLit, .floatLit]) (h : RunsOp a ts op cs) :
    RunsOp (.range {} .ILLEGAL .nil .nil) (ts ++ [op]) nx cs := by
  obtain ⟨k, N, h⟩ := h
  refine ⟨k + 1, N, fun n hn p u rs hf hok => ?_⟩
  rw [List.append_assoc] at hf
  obtain ⟨nud, y0, q0, q1, a1, a2, a3, a4, a5, a6, a7⟩ := h n hn p nx (u :: rs) hf
    fun t ht => hok t (List.mem_append_left _ ht)
  obtain ⟨q2, b1, b2, b3, b4⟩ := ahead_next a4
  have hpk : q1.peek = op.tok := (peek_at a4).1
  refine ⟨nud, y0, q0, q2, a1, a2, fun m => ?_, b3, a5.same b4, ?_, by rw [last_append, b2]; rfl⟩
  · rw [show m + (k + 1) = m + 1 + k from by omega, a3]
    refine led_step (led := parseBound (parseEntry n)) a6 ?_ ?_ b1 ?_
    · rw [hpk]; rcases ho with h | h <;> rw [h] <;> decide
    · rw [hpk]; rcases ho with h | h <;> rw [h] <;> rfl
    · unfold parseBound
      cases a <;> first | rfl | exact absurd (by simp [Node.kind]) hk
  · rw [(cur_of b2).1]
    rcases ho with h | h <;> rw [h] <;> decide

/-! ### Lists -/

theorem run_nil {nx} : RunsEs [] [] nx [] := by
  refine ⟨1, fun n _ m hm keep acc p u rs hf _ _ => ?_⟩
  obtain ⟨m, rfl⟩ : ∃ k, m = k + 1 := ⟨m - 1, by omega⟩
  refine ⟨p, ?_, hf, eff_refl p⟩
  rw [loopOut]
  unfold listStep
  rw [if_pos (cur_of hf.1).1]
  simp

theorem run_cons {ts us x xs cs ds nx} (hlx : Lang (.entry x) ts (firstTok us nx) cs)
    (hx : RunsEn x ts (firstTok us nx) cs) (hxs : RunsEs xs us nx ds) : RunsEs (x :: xs) (ts ++ us) nx (cs ++ ds) := by
  obtain ⟨N, hx⟩ := runs_entry hx
  obtain ⟨M, hxs⟩ := hxs
  refine ⟨N + M + 1, fun n hn m hm keep acc p u rs hf hcl hok => ?_⟩
  obtain ⟨m, rfl⟩ : ∃ k, m = k + 1 := ⟨m - 1, by omega⟩
  obtain ⟨w', ws, hw⟩ : ∃ w' ws, us ++ nx :: u :: rs = firstTok us nx :: w' :: ws := by
    match us with
    | [] => exact ⟨_, _, rfl⟩
    | [a] => exact ⟨_, _, rfl⟩
    | a :: b :: us => exact ⟨_, _, rfl⟩
  rw [List.append_assoc, hw] at hf
  obtain ⟨q, k1, k2, k3, k4⟩ := hx n (by omega) p p.cur.precedence w' ws hf
    (fun t ht => hok t (List.mem_append_left _ ht)) (Nat.le_refl _)
  obtain ⟨q1, j1, j2, j3, j4⟩ := ahead_next k2
  have hf1 : Stands q1 (us ++ nx :: u :: rs) := by rw [hw]; exact ⟨j2, j3⟩
  obtain ⟨q2, i1, i2, i3⟩ := hxs n (by omega) m (by omega) keep (if keep x then acc ++ [x] else acc) q1 u rs hf1 hcl
    (fun t ht => hok t (List.mem_append_right _ ht))
  refine ⟨q2, ?_, i2, k3.trans (j4.then i3)⟩
  rw [loopOut]
  have hst : listStep (parseEntry n) nx.tok keep (acc, p) = .ok (.inl (if keep x then acc ++ [x] else acc, q1)) := by
    unfold listStep
    rw [if_neg]
    · dsimp only
      rw [k1]
      show Out.bind q.next _ = _
      rw [j1]
      rfl
    · obtain ⟨t, us', rfl, hs⟩ := lang_opens hlx
      show p.cur ≠ nx.tok
      rw [(cur_of hf.1).1]
      intro h
      exact hs (h ▸ hcl)
  rw [hst]
  dsimp only
  rw [i1]
  congr 1
  rw [List.filter_cons]
  split <;> simp

/-- **Completeness** for entries. -/
theorem lang_runs {part ts nx cs} (h : Lang part ts nx cs) : RunsPart part ts nx cs := by
  induction h with
  | name h => exact run_name h
  | single h => exact run_single h
  | group h1 h2 _ ih => exact run_group h1 h2 ih
  | array h1 h2 _ ih => exact run_array h1 h2 ih
  | map h1 h2 hl ih => exact run_map h1 h2 hl ih
  | tag h1 h2 h3 h4 => exact run_tag h1 h2 h3 h4
  | tagged h1 h2 h3 h4 _ ih => exact run_tagged h1 h2 h3 h4 ih
  | noRange h1 _ h3 ih => exact run_noRange h1 h3 ih
  | noted _ _ h hc ih1 ih2 => exact run_noted ih1 ih2 h hc
  | only h h1 h2 ih => exact run_only h ih h1 h2
  | comma h hl ih => exact run_comma h hl ih
  | marked h _ ih => exact run_marked h ih
  | unclosed h1 h2 h3 h4 _ ih => exact run_unclosed h1 h2 h3 h4 ih
  | joined hl _ h hc ih1 ih2 => exact run_joined hl ih1 ih2 h hc
  | skip h _ ih => exact run_skip h ih
  | nil => exact run_nil
  | cons h1 _ ih1 ih2 => exact run_cons h1 ih1 ih2

end Cddlc
