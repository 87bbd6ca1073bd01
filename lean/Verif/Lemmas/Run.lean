import Verif.Lemmas.File
import Verif.Spec.Schema

/-! Running the parser on a known sequence of tokens. -/

namespace Cddlc
variable [Unicode]
open Spec

/-- Which comments are on the line of the token before them. -/
class Marks where
  same : Token → Bool

variable [Marks]

/-- Comments are on the line of the token before them where they are marked so. -/
def OwnLine : List Token → Prop
  | a :: b :: ts => (b.tok = .COMMENT → (a.pos.line = b.pos.line ↔ Marks.same b = true)) ∧ OwnLine (b :: ts)
  | _ => True

/-- Not a comment on the line of the token before it. -/
def Calm (t : Token) : Prop := t.tok = .COMMENT → Marks.same t = false

omit [Unicode] in
theorem OwnLine.tail {a : Token} {ts : List Token} (h : OwnLine (a :: ts)) : OwnLine ts := by
  cases ts with
  | nil => trivial
  | cons b ts => exact h.2

/-- The tokens behind the one the parser is at are `ts` (and perhaps more). -/
def Sees (p : PState) : List Token → Prop
  | [] => True
  | t :: ts => p.peekTok = t ∧ (∃ l, Scans p.lx ts l) ∧ OwnLine (p.curTok :: t :: ts)

/-- The parser is at the first token of `ts`. -/
def Feeds (p : PState) : List Token → Prop
  | [] => True
  | t :: ts => p.curTok = t ∧ Sees p ts

/-- Environment, errors and tasks are the same. -/
def Same (p q : PState) : Prop := q.env = p.env ∧ q.errors = p.errors ∧ q.tasks = p.tasks

omit [Unicode] in
theorem Same.refl (p : PState) : Same p p := ⟨rfl, rfl, rfl⟩

omit [Unicode] in
theorem Same.trans {p q r : PState} (h : Same p q) (h' : Same q r) : Same p r :=
  ⟨h'.1.trans h.1, h'.2.1.trans h.2.1, h'.2.2.trans h.2.2⟩

/-- The check a task makes; a range with a name below and no name above is not checked. -/
def Task.check : Task → Option Check
  | .exists k _ => some (.declared k)
  | .identBound tok l to =>
    match to with
    | .ident r => some (.alike tok l.name r.name)
    | _ => none
  | .intBound k _ _ => some (.isInt k)
  | .floatBound k _ _ => some (.isFloat k)

/-- Environment and errors are the same, and tasks were added for the checks `cs`. -/
def Eff (p q : PState) (cs : List Check) : Prop :=
  q.env = p.env ∧ q.errors = p.errors ∧
    ∃ new, q.tasks = p.tasks ++ new ∧ new.filterMap Task.check = cs

omit [Unicode] in
theorem Same.eff {p q : PState} (h : Same p q) : Eff p q [] := ⟨h.1, h.2.1, [], by simp [h.2.2], rfl⟩

omit [Unicode] in
theorem Eff.trans {p q r : PState} {a b} (h : Eff p q a) (h' : Eff q r b) : Eff p r (a ++ b) := by
  obtain ⟨h1, h2, n1, h3, h4⟩ := h
  obtain ⟨g1, g2, n2, g3, g4⟩ := h'
  exact ⟨g1.trans h1, g2.trans h2, n1 ++ n2, by rw [g3, h3, List.append_assoc], by
    rw [List.filterMap_append, h4, g4]⟩

omit [Unicode] in
theorem Eff.same {p q r : PState} {a} (h : Eff p q a) (h' : Same q r) : Eff p r a := by
  simpa using h.trans h'.eff

omit [Unicode] in
theorem Same.then {p q r : PState} {a} (h : Same p q) (h' : Eff q r a) : Eff p r a := by
  simpa using h.eff.trans h'

omit [Unicode] in
theorem eff_task {p : PState} {t : Task} {cs} (h : [t].filterMap Task.check = cs) :
    Eff p (p.addTask t) cs := ⟨rfl, rfl, [t], rfl, h⟩

namespace PState

theorem next_sees {p : PState} {t u : Token} {ts : List Token} (h : Sees p (t :: u :: ts)) :
    ∃ q, p.next = .ok q ∧ q.curTok = t ∧ Sees q (u :: ts) ∧ Same p q := by
  obtain ⟨h1, ⟨l, h2⟩, h3⟩ := h
  cases h2 with
  | cons hs hr =>
    rename_i l' tok pos lit
    obtain ⟨q, hq⟩ : ∃ q, p.next = .ok q := by unfold PState.next; rw [hs]; exact ⟨_, rfl⟩
    obtain ⟨g1, g2, g3, g4, g5, g6, g7⟩ := next_fields hq
    rw [hs] at g7
    cases g7
    have hcur : q.curTok = t := by rw [← h1]; unfold curTok peekTok; rw [g1, g2, g3]
    refine ⟨q, hq, hcur, ⟨rfl, ⟨_, hr⟩, ?_⟩, g4, g6, g5⟩
    rw [hcur]
    exact h3.2

theorem feeds_next {p : PState} {s t u : Token} {ts : List Token} (h : Feeds p (s :: t :: u :: ts)) :
    ∃ q, p.next = .ok q ∧ Feeds q (t :: u :: ts) ∧ Same p q := by
  obtain ⟨q, h1, h2, h3, h4⟩ := next_sees h.2
  exact ⟨q, h1, ⟨h2, h3⟩, h4⟩

omit [Unicode] in
theorem cur_of {p : PState} {t : Token} (h : p.curTok = t) : p.cur = t.tok ∧ p.pos = t.pos ∧ p.lit = t.lit := by
  rw [← h]; exact ⟨rfl, rfl, rfl⟩

theorem peek_of {p : PState} {t : Token} {ts : List Token} (h : Sees p (t :: ts)) :
    p.peek = t.tok ∧ p.peekPos = t.pos ∧ p.peekLit = t.lit := by
  rw [← h.1]; exact ⟨rfl, rfl, rfl⟩

/-- No comment stands behind the current token on its line. -/
theorem no_trail {p : PState} {t : Token} {ts : List Token} (h : Sees p (t :: ts)) (hc : Calm t) :
    ¬ (p.peek = .COMMENT ∧ sameLine p.pos p.peekPos = true) := by
  rintro ⟨h1, h2⟩
  have h3 := h.2.2.1
  rw [(peek_of h).1] at h1
  have : p.pos.line = p.peekPos.line := by simpa [sameLine] using h2
  rw [(peek_of h).2.1] at this
  have h4 := (h3 h1).mp this
  rw [hc h1] at h4
  cases h4

/-- A marked comment stands behind the current token on its line. -/
theorem trail {p : PState} {t : Token} {ts : List Token} (h : Sees p (t :: ts)) (ht : t.tok = .COMMENT)
    (hc : Marks.same t = true) : p.peek = .COMMENT ∧ sameLine p.pos p.peekPos = true := by
  refine ⟨(peek_of h).1.trans ht, ?_⟩
  have h3 : p.pos.line = t.pos.line := (h.2.2.1 ht).mpr hc
  rw [(peek_of h).2.1]
  simpa [sameLine] using h3

theorem sees_task {p : PState} {ts : List Token} {t : Task} (h : Sees p ts) : Sees (p.addTask t) ts := by
  cases ts with
  | nil => trivial
  | cons a ts => exact h

/-- How the parser stops behind an entry: at its last token, or at the comma behind it. -/
def End (q : PState) (rest : List Token) : Prop :=
  ∃ r rs, rest = r :: rs ∧
    ((r.tok = .COMMA ∧ q.curTok = r ∧ Sees q rs) ∨ (r.tok ≠ .COMMA ∧ q.cur ≠ .COMMA ∧ Sees q rest))

/-! ### The loop over the infix operators -/

variable {rec : Rec} {p q : PState} {n prec : Nat} {x y : Node}

theorem led_stop (h : p.cur = .COMMA ∨ ledOf rec p.peek = none) :
    loopOut (ledStep rec prec) (n + 1) (x, p) = .ok (x, none, p) := by
  rw [loopOut]
  unfold ledStep
  dsimp only
  by_cases hc : p.cur ≠ .COMMA ∧ prec < p.peek.precedence
  · rw [if_pos hc, h.resolve_left hc.1]
  · rw [if_neg hc]

theorem led_step {led p1} (hc : p.cur ≠ .COMMA) (hp : prec < p.peek.precedence)
    (hl : ledOf rec p.peek = some led) (hn : p.next = .ok p1) (hr : led x p1 = .ok (y, none, q)) :
    loopOut (ledStep rec prec) (n + 1) (x, p) = loopOut (ledStep rec prec) n (y, q) := by
  have key : ledStep rec prec (x, p) = .ok (.inl (y, q)) := by
    unfold ledStep
    dsimp only
    rw [if_pos ⟨hc, hp⟩, hl]
    dsimp only
    rw [hn]
    show Out.bind (led x p1) _ = _
    rw [hr]
    rfl
  rw [loopOut, key]

/-- Tokens that are not infix operators have no handler. -/
theorem led_none {t : Tok} (h : t ∉ infixes) (hc : t ≠ .COMMA) : ledOf rec t = none := by
  cases t <;> first | rfl | exact absurd rfl hc | exact absurd (by decide) h

theorem end_stop {r rs} (h : End p (r :: rs)) (hr : r.tok ∉ infixes) :
    loopOut (ledStep rec prec) (n + 1) (x, p) = .ok (x, none, p) := by
  obtain ⟨_, _, h1, h2⟩ := h
  cases h1
  rcases h2 with ⟨h2, h3, _⟩ | ⟨h2, h3, h4⟩
  · exact led_stop (.inl ((cur_of h3).1.trans h2))
  · exact led_stop (.inr (by rw [(peek_of h4).1]; exact led_none hr h2))

/-- Behind a complete operand: a comma is taken, anything but an infix operator is left. -/
theorem finish {r u rs} (hc : p.cur ≠ .COMMA) (h : Sees p (r :: u :: rs)) (hr : r.tok ∉ infixes)
    (hn : 2 ≤ n) :
    ∃ q, loopOut (ledStep rec 0) n (x, p) = .ok (x, none, q) ∧ End q (r :: u :: rs) ∧ Same p q := by
  obtain ⟨n, rfl⟩ : ∃ m, n = m + 2 := ⟨n - 2, by omega⟩
  by_cases hcomma : r.tok = .COMMA
  · obtain ⟨q, h1, h2, h3, h4⟩ := next_sees h
    have hpk : p.peek = .COMMA := (peek_of h).1.trans hcomma
    refine ⟨q, ?_, ⟨r, _, rfl, .inl ⟨hcomma, h2, h3⟩⟩, h4⟩
    rw [led_step (led := parseComma) (p1 := q) (y := x) (q := q) hc (by rw [hpk]; decide) (by rw [hpk]; rfl) h1 rfl]
    exact led_stop (.inl ((cur_of h2).1.trans hcomma))
  · exact ⟨p, led_stop (.inr (by rw [(peek_of h).1]; exact led_none hr hcomma)),
      ⟨r, _, rfl, .inr ⟨hcomma, hc, h⟩⟩, .refl _⟩

/-! ### Recursive calls -/

theorem nextEntry_of {r} (hn : p.next = .ok q) (hr : rec q.cur.precedence q = r) :
    nextEntry rec p = r := by
  unfold nextEntry
  rw [hn]
  exact hr

/-- The parts of a call of `parseEntry`. -/
theorem parseEntry_of {p1 p2 nud r} (hs : skipComment n p = .ok p1)
    (hsel : selectNud (parseEntry n) n p1 = some nud) (hnud : nud p1 = .ok (x, none, p2))
    (hl : loopOut (ledStep (parseEntry n) prec) n (x, p2) = r) : parseEntry (n + 1) prec p = r := by
  rw [parseEntry]
  unfold parseEntryBody
  rw [hs]
  show (match selectNud (parseEntry n) n p1 with | none => _ | some nud => _) = r
  rw [hsel]
  show Out.bind (nud p1) _ = r
  rw [hnud]
  exact hl

theorem skip_none (h : p.cur ≠ .COMMENT) : skipComment n p = .ok p := by
  unfold skipComment
  rw [if_neg h]

/-- Consecutive comments are read together. -/
theorem comments_loop (cs : List Token) (hcs : ∀ c ∈ cs, c.tok = .COMMENT) {u rest acc}
    (h : Sees p (cs ++ u :: rest)) (hu : u.tok ≠ .COMMENT) (hn : cs.length + 1 ≤ n) :
    ∃ q, loopOut commentStep n (acc, p) = .ok (acc ++ cs.map (fun c => ⟨c.pos, c.lit⟩), q) ∧
      (cs = [] → q = p) ∧ (∀ c ∈ cs.getLast?, q.curTok = c) ∧ Sees q (u :: rest) ∧ Same p q := by
  induction cs generalizing p n acc with
  | nil =>
    obtain ⟨n, rfl⟩ : ∃ m, n = m + 1 := ⟨n - 1, by simp at hn; omega⟩
    refine ⟨p, ?_, fun _ => rfl, by simp, h, .refl _⟩
    rw [loopOut]
    unfold commentStep
    dsimp only
    rw [if_neg (by rw [(peek_of h).1]; exact hu)]
    simp
  | cons c cs ih =>
    obtain ⟨n, rfl⟩ : ∃ m, n = m + 1 := ⟨n - 1, by simp at hn; omega⟩
    obtain ⟨v, vs, hv⟩ : ∃ v vs, cs ++ u :: rest = v :: vs := by
      cases cs with
      | nil => exact ⟨_, _, rfl⟩
      | cons a as => exact ⟨_, _, rfl⟩
    have h' : Sees p (c :: v :: vs) := by rw [← hv]; exact h
    obtain ⟨p1, h1, h2, h3, h4⟩ := next_sees h'
    rw [← hv] at h3
    obtain ⟨q, g1, g2, g3, g4, g5⟩ := ih (n := n) (acc := acc ++ [⟨c.pos, c.lit⟩])
      (fun c hc => hcs c (by simp [hc])) h3 (by simp at hn ⊢; omega)
    refine ⟨q, ?_, by simp, ?_, g4, h4.trans g5⟩
    · rw [loopOut]
      unfold commentStep
      dsimp only
      rw [if_pos ((peek_of h').1.trans (hcs c (by simp))), h1]
      have : p1.parseInnerComment = ⟨c.pos, c.lit⟩ := by
        unfold parseInnerComment
        rw [(cur_of h2).2.1, (cur_of h2).2.2]
      show loopOut commentStep n (acc ++ [p1.parseInnerComment], p1) = _
      rw [this, g1]
      simp
    · cases cs with
      | nil => rw [g2 rfl]; simpa using h2
      | cons a as => simpa using g3

omit [Unicode] in
theorem comment_node (cs : List Comment) (q : PState) : (match cs with
    | [c] => .ok (.comment c, none, q)
    | _ => .ok (.commentGroup cs, none, q) : PRes) = .ok (commentNode cs, none, q) := by
  match cs with
  | [] => rfl
  | [c] => rfl
  | c :: d :: cs => rfl

/-- Comment lines before an operand are skipped. -/
theorem skip_comments {cs : List Token} {u v rest} (hcs : ∀ c ∈ cs, c.tok = .COMMENT) (hne : cs ≠ [])
    (h : Feeds p (cs ++ u :: v :: rest)) (hu : u.tok ≠ .COMMENT) (hn : cs.length + 1 ≤ n) :
    ∃ q, skipComment n p = .ok q ∧ Feeds q (u :: v :: rest) ∧ Same p q := by
  cases cs with
  | nil => exact absurd rfl hne
  | cons c cs =>
    obtain ⟨h1, h2⟩ := h
    obtain ⟨q1, g1, g2, g3, g4, g5⟩ := comments_loop (n := n) (acc := [p.parseInnerComment]) cs
      (fun c hc => hcs c (by simp [hc])) h2 hu (by simp at hn ⊢; omega)
    obtain ⟨q, k1, k2, k3, k4⟩ := next_sees g4
    refine ⟨q, ?_, ⟨k2, k3⟩, g5.trans k4⟩
    unfold skipComment
    rw [if_pos ((cur_of h1).1.trans (hcs c (by simp)))]
    have : parseComment n p = .ok (commentNode ([p.parseInnerComment] ++
        cs.map (fun c => ⟨c.pos, c.lit⟩)), none, q1) := by
      unfold parseComment
      rw [g1]
      exact comment_node _ _
    rw [this]
    exact k1

end PState
end Cddlc
