import Verif.Lemmas.Tree
import Verif.Lemmas.LexRaw
import Verif.Spec.Tame

/-! On clean sources every parse function returns or panics; on tame ones it returns. -/

namespace Cddlc
open Spec

/-- The call does not loop for ever, does not panic if `s` holds, and its result satisfies `Q`. -/
def Out.tot {α : Type} (s : Prop) (o : Out α) (Q : α → Prop) : Prop :=
  o ≠ .hang ∧ (s → ∀ w, o ≠ .panic w) ∧ o.wp Q

namespace Out.tot
variable {α β : Type} {s : Prop}

theorem ok {a : α} {Q : α → Prop} (h : Q a) : (Out.ok a).tot s Q :=
  ⟨nofun, fun _ _ => nofun, Out.wp_ok.mpr h⟩

theorem panic {w} {Q : α → Prop} (h : ¬ s) : (Out.panic w : Out α).tot s Q :=
  ⟨nofun, fun hs => absurd hs h, Out.wp_panic.mpr trivial⟩

theorem bind {o : Out α} {f : α → Out β} {P : α → Prop} {Q : β → Prop} (h : o.tot s P)
    (hf : ∀ a, P a → (f a).tot s Q) : (o >>= f).tot s Q := by
  obtain ⟨h1, h2, h3⟩ := h
  cases o with
  | ok a => exact hf a (Out.wp_ok.mp h3)
  | panic w => exact ⟨nofun, fun hs => absurd rfl (h2 hs w), nofun⟩
  | hang => exact absurd rfl h1

theorem mono {o : Out α} {P Q : α → Prop} (h : o.tot s P) (hpq : ∀ a, P a → Q a) : o.tot s Q :=
  ⟨h.1, h.2.1, h.2.2.mono hpq⟩

theorem and {o : Out α} {P Q : α → Prop} (h : o.tot s P) (h' : o.wp Q) : o.tot s (fun a => P a ∧ Q a) :=
  ⟨h.1, h.2.1, h.2.2.and h'⟩

end Out.tot

theorem loopOut_tot {σ ρ : Type} {s : Prop} {step : σ → Out (σ ⊕ ρ)} {I : Nat → σ → Prop}
    {Q : ρ → Prop} (h : ∀ k x, I k x → (step x).tot s (fun r => match r with
      | .inl y => ∃ k', k' < k ∧ I k' y
      | .inr r => Q r)) :
    ∀ k n x, I k x → k < n → (loopOut step n x).tot s Q := by
  intro k
  induction k using Nat.strongRecOn with
  | _ k ih =>
    intro n x hI hn
    obtain ⟨n, rfl⟩ : ∃ m, n = m + 1 := ⟨n - 1, by omega⟩
    have := h k x hI
    rw [loopOut]
    cases hst : step x with
    | ok r =>
      rw [hst] at this
      have := Out.wp_ok.mp this.2.2
      cases r with
      | inl y =>
        obtain ⟨k', hk, hy⟩ := this
        exact ih k' hk n y hy (by omega)
      | inr r => exact .ok this
    | panic w =>
      rw [hst] at this
      exact ⟨nofun, fun hs => absurd rfl (this.2.1 hs w), nofun⟩
    | hang => rw [hst] at this; exact absurd rfl this.1

variable [Unicode]

/-! ### The measure -/

/-- One for a token that is not EOF. -/
def cnt (t : Tok) : Nat := if t = .EOF then 0 else 1

/-- At most `k` characters and tokens are left. -/
def Left (k : Nat) (p : PState) : Prop :=
  ∃ cs done r, Lexer.Clean cs p.lx done r ∧ (p.cur = .EOF → p.peek = .EOF) ∧
    (p.peek = .EOF → r.dropWhile ws = []) ∧ cnt p.cur + cnt p.peek + r.length ≤ k ∧
    (p.cur = .IDENT → p.lit ≠ []) ∧ (p.peek = .IDENT → p.peekLit ≠ [])

omit [Unicode] in
theorem Left.mono {k k' : Nat} {p : PState} (h : Left k p) (hk : k ≤ k') : Left k' p := by
  obtain ⟨cs, done, r, h1, h2, h3, h4, h5⟩ := h
  exact ⟨cs, done, r, h1, h2, h3, by omega, h5⟩

omit [Unicode] in
theorem Left.pos {k : Nat} {p : PState} (h : Left k p) (hc : p.cur ≠ .EOF) : ∃ j, k = j + 1 := by
  obtain ⟨cs, done, r, h1, h2, h3, h4, h5⟩ := h
  unfold cnt at h4
  rw [if_neg hc] at h4
  exact ⟨k - 1, by omega⟩

omit [Unicode] in
theorem dropWhile_len (r : List Char) : (r.dropWhile ws).length ≤ r.length := by
  induction r with
  | nil => simp
  | cons c r ih =>
    rw [List.dropWhile_cons]
    split
    · simp only [List.length_cons]; omega
    · exact Nat.le_refl _

omit [Unicode] in
theorem enc_ne_nil {c : Char} {w : List Char} : enc (c :: w) ≠ [] := by
  intro h
  have := congrArg List.length h
  have hb := encChar_length_pos c
  simp only [enc, List.flatMap_cons, List.length_append, List.length_nil] at this
  omega

omit [Unicode] in
theorem single_ne_ident {c : Char} : (single c).getD .ILLEGAL ≠ .IDENT := by
  unfold single
  split <;> simp

theorem number_tok (r : List Char) : (number r).tok ≠ .IDENT := by
  unfold number
  dsimp only
  split
  · simp
  · simp
  · simp
  · simp only []; split <;> simp

omit [Unicode] in
theorem string_tok {t : List Char} {x : Lexeme} (h : string t = some x) : x.tok ≠ .IDENT := by
  unfold string at h
  dsimp only at h
  split at h
  · cases h; simp
  · split at h
    · cases h
    · cases h; simp

theorem lexeme_ident {r : List Char} {x : Lexeme} (h : lexeme r = some x) (hi : x.tok = .IDENT) :
    x.lit ≠ [] := by
  cases r with
  | nil => cases h; cases hi
  | cons c t =>
    unfold lexeme at h
    change (if idStart c = true then _ else _) = _ at h
    by_cases hx : idStart c = true
    · rw [if_pos hx] at h
      cases h
      have : (c :: t).takeWhile idBody = c :: t.takeWhile idBody := by
        rw [List.takeWhile_cons, if_pos]; unfold idBody; simp [hx]
      simp only [this]
      exact enc_ne_nil
    rw [if_neg hx] at h
    by_cases hx : digit c = true
    · rw [if_pos hx] at h; cases h; exact absurd hi (number_tok _)
    rw [if_neg hx] at h
    by_cases hx : c = ';'
    · rw [if_pos hx] at h; cases h; cases hi
    rw [if_neg hx] at h
    by_cases hx : c = '"'
    · rw [if_pos hx] at h; exact absurd hi (string_tok h)
    rw [if_neg hx] at h
    by_cases hx : c = '=' ∧ t.head? = some '>'
    · rw [if_pos hx] at h; cases h; cases hi
    rw [if_neg hx] at h
    by_cases hx : c = '/' ∧ t.head? = some '='
    · rw [if_pos hx] at h; cases h; cases hi
    rw [if_neg hx] at h
    by_cases hx : c = '/' ∧ t.take 2 = ['/', '=']
    · rw [if_pos hx] at h; cases h; cases hi
    rw [if_neg hx] at h
    by_cases hx : c = '/' ∧ t.head? = some '/'
    · rw [if_pos hx] at h; cases h; cases hi
    rw [if_neg hx] at h
    by_cases hx : c = '.' ∧ t.take 2 = ['.', '.']
    · rw [if_pos hx] at h; cases h; cases hi
    rw [if_neg hx] at h
    by_cases hx : c = '.' ∧ t.head? = some '.'
    · rw [if_pos hx] at h; cases h; cases hi
    rw [if_neg hx] at h
    by_cases hx : c = '.' ∧ (∃ d ∈ t.head?, uniIsLetter (d.toNat : Int))
    · rw [if_pos hx] at h; cases h; exact enc_ne_nil
    rw [if_neg hx] at h
    cases h
    exact absurd hi single_ne_ident

/-- Reading a token. -/
theorem next_left {k : Nat} {p q : PState} (h : Left k p) (hn : p.next = .ok q) :
    Left k q ∧ (p.cur ≠ .EOF → ∃ j, k = j + 1 ∧ Left j q) := by
  have hpos := h.pos
  obtain ⟨cs, done, r, h1, h2, h3, h4, h5, h6⟩ := h
  obtain ⟨e1, e2, e3, _, _, _, e4⟩ := next_fields hn
  obtain ⟨x, hx, ht, hl, _, hc, _⟩ := Lexer.clean_scan_ok h1 e4
  have hd := dropWhile_len r
  have hlen : ((r.dropWhile ws).drop x.len).length ≤ (r.dropWhile ws).length := by
    rw [List.length_drop]; omega
  have hpk : q.peek = .EOF → ((r.dropWhile ws).drop x.len).dropWhile ws = [] := by
    intro hq
    cases hr : r.dropWhile ws with
    | nil => simp
    | cons c t =>
      rw [hr] at hx
      have hcn : ws c = false := by
        have := List.head?_dropWhile_not ws r
        rw [hr] at this
        simpa using this
      have := (lexeme_facts (by rintro rfl; exact absurd hcn (by decide)) hx).tok
      rw [ht] at this; exact absurd hq this
  have hstep : q.peek ≠ .EOF → ((r.dropWhile ws).drop x.len).length + 1 ≤ r.length := by
    intro hq
    cases hr : r.dropWhile ws with
    | nil =>
      rw [hr] at hx
      cases hx
      exact absurd ht.symm hq
    | cons c t =>
      rw [hr] at hx
      have hcn : ws c = false := by
        have := List.head?_dropWhile_not ws r
        rw [hr] at this
        simpa using this
      have hf := (lexeme_facts (by rintro rfl; exact absurd hcn (by decide)) hx)
      have := hf.pos
      rw [hr] at hd
      rw [List.length_drop]
      simp only [List.length_cons] at *
      omega
  have hcur : q.cur = .EOF → q.peek = .EOF := by
    rw [e1]
    intro hq
    have := h3 hq
    rw [this] at hx
    cases hx
    exact ht.symm
  have main : ∀ j, cnt q.cur + cnt q.peek + ((r.dropWhile ws).drop x.len).length ≤ j → Left j q := by
    intro j hj
    refine ⟨cs, _, _, hc, hcur, hpk, hj, ?_, ?_⟩
    · rw [e1, e2]; exact h6
    · intro hi; rw [← hl]; exact lexeme_ident hx (ht.trans hi)
  have hb : cnt q.cur + cnt q.peek + ((r.dropWhile ws).drop x.len).length ≤ cnt p.peek + r.length := by
    rw [e1]
    unfold cnt
    by_cases hq : q.peek = .EOF
    · rw [if_pos hq]; omega
    · rw [if_neg hq]; have := hstep hq; omega
  refine ⟨main k (by omega), fun hcp => ?_⟩
  unfold cnt at h4
  rw [if_neg hcp] at h4
  exact ⟨k - 1, by omega, main _ (by unfold cnt at hb ⊢; omega)⟩

/-! ### The parser -/

/-- Tokens an operand can end with. -/
def ender (t : Tok) : Bool := decide (t ≠ .EOF ∧ (t = .COMMA ∨ t ∉ openers))

/-- The parser is in the tokens of `l`, with at most `k` characters and tokens left. -/
def St (l : Lexer) (k : Nat) (p : PState) : Prop := On l p ∧ Left k p

omit [Unicode] in
theorem ender_eof {t : Tok} (h : ender t = true) : t ≠ .EOF := by
  unfold ender at h; exact (of_decide_eq_true h).1

theorem St.mono {l k k'} {p : PState} (h : St l k p) (hk : k ≤ k') : St l k' p := ⟨h.1, h.2.mono hk⟩

theorem St.task {l k} {p : PState} (h : St l k p) (t) : St l k (p.addTask t) :=
  ⟨h.1.reach (.task t (.refl _)), h.2⟩

namespace PState
variable {s : Prop} {l : Lexer} {k n : Nat} {p : PState} {rec : Rec} {left : Node}

theorem next_tot (hs : s → Tame l) (h : St l k p) : p.next.tot s (fun q => St l k q ∧
    q.cur = p.peek ∧ (p.cur ≠ .EOF → ∃ j, k = j + 1 ∧ St l j q)) := by
  refine ⟨?_, ?_, ?_⟩
  · obtain ⟨_, cs, done, r, h1, _⟩ := h
    have := Lexer.clean_not_hang h1
    unfold next
    cases hx : p.lx.scan with
    | ok r => nofun
    | panic w => nofun
    | hang => exact absurd hx this
  · intro hh w
    obtain ⟨⟨ts, h1⟩, _⟩ := h
    have := (hs hh).scan _ _ h1
    unfold next
    cases hx : p.lx.scan with
    | ok r => nofun
    | panic w' => exact absurd hx (this w')
    | hang => nofun
  · intro q hq
    have hl := next_left h.2 hq
    have ho := h.1.next hq
    refine ⟨⟨ho, hl.1⟩, next_cur hq, fun hc => ?_⟩
    obtain ⟨j, h1, h2⟩ := hl.2 hc
    exact ⟨j, h1, ho, h2⟩

/-- The tokens whose left operand matters. -/
def picky : List Tok := [.ZERO_OR_MORE, .ONE_OR_MORE, .REGEXP, .INCLUSIVE_BOUND, .EXCLUSIVE_BOUND]

/-- The last token is the number of a tag. -/
def AfterHash (l : Lexer) (q : PState) : Prop :=
  (q.cur = .INT ∨ q.cur = .FLOAT) ∧ ∃ ts h, Synced l (ts ++ [h]) q ∧ h.tok = .HASH

/-- An operand of one token is not followed by an operator that cares what it is. -/
def NoMore (l : Lexer) (q : PState) : Prop := (q.cur ∈ leaves → q.peek ∉ picky) ∨ AfterHash l q

/-- `Start` returns. -/
def HasStart (x : Node) : Prop := ∃ pos, x.start = .ok pos

/-- The node of an operand of one token. -/
structure Leafy (x : Node) (q : PState) : Prop where
  start : HasStart x
  stop : ∃ pos, x.stop = .ok pos
  tstr : q.cur = .TSTR ∨ q.cur = .TEXT → ∃ b, x = .tstr b
  range : Rangeable q.curTok → (∃ i, x = .ident i) ∨ (∃ a b c, x = .intLit a b c) ∨ ∃ a b c, x = .floatLit a b c

/-- What holds after a parse function. -/
def Post (l : Lexer) (k : Nat) (r : Node × Option Diag × PState) : Prop :=
  St l k r.2.2 ∧ (r.2.1 = none → ender r.2.2.cur = true ∧ NoMore l r.2.2 ∧ (Comparable l → HasStart r.1))

/-- What holds after a prefix function. -/
def NudPost (l : Lexer) (k : Nat) (r : Node × Option Diag × PState) : Prop :=
  St l k r.2.2 ∧ (r.2.1 = none → ender r.2.2.cur = true ∧
    (NoMore l r.2.2 ∨ r.2.2.cur ∈ leaves ∧ Leafy r.1 r.2.2) ∧ (Comparable l → HasStart r.1))

theorem Post.nud {r} (h : Post l k r) : NudPost l k r :=
  ⟨h.1, fun he => ⟨(h.2 he).1, Or.inl (h.2 he).2.1, (h.2 he).2.2⟩⟩

theorem noMore_other {q : PState} (h : q.cur ∉ leaves) : NoMore l q := Or.inl fun hc => absurd hc h

theorem noMore_task {q : PState} {t} (h : NoMore l q) : NoMore l (q.addTask t) := h

/-- A safe operand follows that is the last. -/
def Calm (p : PState) : Prop := p.cur ∈ sure ∧ p.peek ∉ continuers

theorem Post.mono {k k'} {r} (h : Post l k r) (hk : k ≤ k') : Post l k' r := ⟨h.1.mono hk, h.2⟩

/-- The recursive call is total on states with less than `n - 1` left. -/
def TC (s : Prop) (l : Lexer) (n : Nat) (rec : Rec) : Prop :=
  ∀ k prec p, k + 2 ≤ n → St l k p → prec = 0 ∨ prec = p.cur.precedence →
    (rec prec p).tot s (fun r => Post l k r ∧ (Calm p → r.2.1 = none))

/-- `next` and the recursive call, from a token other than EOF. -/
theorem nextEntry_tot (hs : s → Tame l) (hc : TC s l n rec) (h : St l k p) (hk : k + 1 ≤ n)
    (hcur : p.cur ≠ .EOF) : (nextEntry rec p).tot s (fun r => Post l k r ∧ ∃ j, k = j + 1 ∧ Post l j r) := by
  unfold nextEntry
  refine (next_tot hs h).bind ?_
  rintro q ⟨hq, _, hq'⟩
  obtain ⟨j, rfl, hj⟩ := hq' hcur
  refine (hc j _ q (by omega) hj (Or.inr rfl)).mono ?_
  intro r hr
  exact ⟨hr.1.mono (by omega), j, rfl, hr.1⟩

/-- The same, when only the result matters. -/
theorem nextEntry_tot' (hs : s → Tame l) (hc : TC s l n rec) (h : St l k p) (hk : k + 1 ≤ n)
    (hcur : p.cur ≠ .EOF) : (nextEntry rec p).tot s (Post l k) :=
  (nextEntry_tot hs hc h hk hcur).mono fun _ hr => hr.1

omit [Unicode] in
theorem commentGroup_start {cs} : HasStart (.commentGroup cs) := by
  cases cs with
  | nil => exact ⟨_, rfl⟩
  | cons c cs => exact ⟨_, rfl⟩

theorem parseComment_tot (hs : s → Tame l) (h : St l k p) (hk : k + 1 ≤ n) (hcur : p.cur = .COMMENT) :
    (parseComment n p).tot s (fun r => Post l k r ∧ r.2.2.cur = .COMMENT) := by
  unfold parseComment
  refine (loopOut_tot (I := fun j (x : List Comment × PState) => St l j x.2 ∧ x.2.cur = .COMMENT ∧ j ≤ k)
    (Q := fun x => St l k x.2 ∧ x.2.cur = .COMMENT) ?_ k n _ ⟨h, hcur, Nat.le_refl _⟩ (by omega)).bind ?_
  · rintro j ⟨cs, q⟩ ⟨hq, hqc, hj⟩
    unfold commentStep
    split
    · rename_i hp
      refine (next_tot hs hq).bind ?_
      rintro r ⟨_, hr, hr'⟩
      obtain ⟨i, rfl, hi⟩ := hr' (by dsimp only at hqc; rw [hqc]; simp)
      exact .ok ⟨i, by omega, hi, hr.trans hp, by omega⟩
    · exact .ok ⟨hq.mono hj, hqc⟩
  · rintro ⟨cs, q⟩ ⟨hq, hqc⟩
    dsimp only at hq hqc ⊢
    have : ender q.cur = true := by rw [hqc]; rfl
    split
    · exact .ok ⟨⟨hq, fun _ => ⟨this, noMore_other (by rw [hqc]; decide), fun _ => ⟨_, rfl⟩⟩⟩, hqc⟩
    · exact .ok ⟨⟨hq, fun _ => ⟨this, noMore_other (by rw [hqc]; decide), fun _ => commentGroup_start⟩⟩, hqc⟩

theorem parseColon_tot (hs : s → Tame l) (hc : TC s l n rec) (h : St l k p) (hk : k + 1 ≤ n)
    (hcur : p.cur ≠ .EOF) : (parseColon rec left p).tot s (Post l k) := by
  unfold parseColon
  dsimp only
  split
  · exact .ok ⟨h, nofun⟩
  · refine (nextEntry_tot hs hc h hk hcur).bind ?_
    rintro ⟨x, e, q⟩ ⟨hq, _⟩
    dsimp only
    split
    · exact .ok ⟨hq.1, nofun⟩
    · split
      · rename_i hp
        refine (next_tot hs hq.1).bind ?_
        rintro r ⟨hr, hr1, _⟩
        have hc : r.cur = .COMMENT := hr1.trans hp.1
        exact .ok ⟨hr, fun _ => ⟨by dsimp only; rw [hc]; rfl, noMore_other (by dsimp only; rw [hc]; decide), fun _ => ⟨_, rfl⟩⟩⟩
      · exact .ok ⟨hq.1, fun _ => ⟨(hq.2 rfl).1, (hq.2 rfl).2.1, fun _ => ⟨_, rfl⟩⟩⟩

/-- Functions that call `nextEntry` and then wrap the result. -/
macro "wrap_tac" hs:term "," hc:term "," h:term "," hk:term "," hcur:term "," hst:term : tactic => `(tactic| (
  refine (nextEntry_tot' $hs $hc $h $hk $hcur).bind ?_
  rintro ⟨x, e, q⟩ hq
  dsimp only
  split
  · exact Out.tot.ok ⟨hq.1, nofun⟩
  · exact Out.tot.ok ⟨hq.1, fun _ => ⟨(hq.2 rfl).1, (hq.2 rfl).2.1, $hst⟩⟩))

theorem parseTypeChoice_tot (hs : s → Tame l) (hc : TC s l n rec) (h : St l k p) (hk : k + 1 ≤ n)
    (hcur : p.cur ≠ .EOF) (hl : Comparable l → HasStart left) : (parseTypeChoice rec left p).tot s (Post l k) := by
  unfold parseTypeChoice
  wrap_tac hs, hc, h, hk, hcur, hl

theorem parseUnwrap_tot (hs : s → Tame l) (hc : TC s l n rec) (h : St l k p) (hk : k + 1 ≤ n)
    (hcur : p.cur ≠ .EOF) : (parseUnwrap rec p).tot s (Post l k) := by
  unfold parseUnwrap
  wrap_tac hs, hc, h, hk, hcur, fun _ => ⟨_, rfl⟩

theorem parseEnumeration_tot (hs : s → Tame l) (hc : TC s l n rec) (h : St l k p) (hk : k + 1 ≤ n)
    (hcur : p.cur ≠ .EOF) : (parseEnumeration rec p).tot s (Post l k) := by
  unfold parseEnumeration
  wrap_tac hs, hc, h, hk, hcur, fun _ => ⟨_, rfl⟩

theorem parseOptional_tot (hs : s → Tame l) (hc : TC s l n rec) (h : St l k p) (hk : k + 1 ≤ n)
    (hcur : p.cur ≠ .EOF) : (parseOptional rec p).tot s (Post l k) := by
  unfold parseOptional
  wrap_tac hs, hc, h, hk, hcur, fun _ => ⟨_, rfl⟩

theorem parseTagItem_tot (hs : s → Tame l) (hc : TC s l n rec) (h : St l k p) (hk : k + 1 ≤ n)
    (hcur : ender p.cur = true) (hnm : NoMore l p) {pos tok a b} : (parseTagItem rec pos tok a b p).tot s (Post l k) := by
  unfold parseTagItem
  split
  · rename_i hp
    refine (next_tot hs h).bind ?_
    rintro q ⟨hq, hq1, _⟩
    refine (nextEntry_tot' hs hc hq hk (by rw [hq1, hp]; simp)).bind ?_
    rintro ⟨x, e, r⟩ hr
    dsimp only
    split
    · exact .ok ⟨hr.1, nofun⟩
    · unfold expectPeek
      split
      · exact .ok ⟨hr.1, fun _ => ⟨(hr.2 rfl).1, (hr.2 rfl).2.1, fun _ => ⟨_, rfl⟩⟩⟩
      · rename_i hp
        refine (next_tot hs hr.1).bind ?_
        rintro t ⟨ht, ht1, _⟩
        have hc : t.cur = .RPAREN := ht1.trans (Decidable.not_not.mp hp)
        exact .ok ⟨ht, fun _ => ⟨by dsimp only; rw [hc]; rfl, noMore_other (by dsimp only; rw [hc]; decide), fun _ => ⟨_, rfl⟩⟩⟩
  · exact .ok ⟨h, fun _ => ⟨hcur, hnm, fun _ => ⟨_, rfl⟩⟩⟩

theorem parseTag_tot (hs : s → Tame l) (hc : TC s l n rec) (h : St l k p) (hk : k + 1 ≤ n)
    (hcur : p.cur = .HASH) : (parseTag rec p).tot s (Post l k) := by
  have hash : ∀ {q}, p.next = .ok q → q.cur = .INT ∨ q.cur = .FLOAT → NoMore l q := by
    intro q hn hq
    obtain ⟨⟨ts, hsy⟩, _⟩ := h
    exact Or.inr ⟨hq, ts, p.curTok, synced_next hsy hn, hcur⟩
  unfold parseTag
  split
  · rename_i hp
    refine ((next_tot hs h).and fun q hq => hq).bind ?_
    rintro q ⟨⟨hq, hq1, _⟩, hn⟩
    split
    · exact .ok ⟨hq, nofun⟩
    · exact parseTagItem_tot hs hc hq hk (by rw [hq1, hp]; rfl) (hash hn (by rw [hq1, hp]; exact Or.inl rfl))
  · rename_i hp
    refine ((next_tot hs h).and fun q hq => hq).bind ?_
    rintro q ⟨⟨hq, hq1, _⟩, hn⟩
    split
    · exact .ok ⟨hq, nofun⟩
    · exact parseTagItem_tot hs hc hq hk (by rw [hq1, hp]; rfl) (hash hn (by rw [hq1, hp]; exact Or.inr rfl))
  · exact parseTagItem_tot hs hc h hk (by rw [hcur]; rfl) (noMore_other (by rw [hcur]; decide))

theorem parseOccItem_tot (hc : TC s l n rec) (h : St l k p) (hk : k + 2 ≤ n) {pos tok b} {u : UintLit} :
    (parseOccItem rec pos tok (some u) b p).tot s (Post l k) := by
  unfold parseOccItem
  refine (hc k _ p hk h (Or.inr rfl)).bind ?_
  rintro ⟨x, e, q⟩ ⟨hq, _⟩
  dsimp only
  split
  · exact .ok ⟨hq.1, nofun⟩
  · exact .ok ⟨hq.1, fun _ => ⟨(hq.2 rfl).1, (hq.2 rfl).2.1, fun _ => ⟨_, rfl⟩⟩⟩

omit [Unicode] in
theorem parseUintType_tot : (parseUintType p).tot s (fun r => r.2.2 = p) := by
  unfold parseUintType parseUintLiteral
  split
  · split
    · exact .ok rfl
    · exact .ok rfl
  · exact .ok rfl

theorem parseOccUpper_tot (hs : s → Tame l) (hc : TC s l n rec) (h : St l k p) (hk : k + 1 ≤ n)
    (hcur : p.cur ≠ .EOF) {u} : (parseOccUpper rec u p).tot s (Post l k) := by
  unfold parseOccUpper
  split
  · refine (next_tot hs h).bind ?_
    rintro q ⟨_, _, hq⟩
    obtain ⟨j, rfl, hj⟩ := hq hcur
    refine parseUintType_tot.bind ?_
    rintro ⟨x, e, r⟩ hr
    dsimp only at hr ⊢
    subst hr
    split
    · exact .ok ⟨hj.mono (by omega), nofun⟩
    · exact (parseOccItem_tot hc hj (by omega)).mono fun _ h => h.mono (by omega)
  · refine (next_tot hs h).bind ?_
    rintro q ⟨_, _, hq⟩
    obtain ⟨j, rfl, hj⟩ := hq hcur
    exact (parseOccItem_tot hc hj (by omega)).mono fun _ h => h.mono (by omega)

omit [Unicode] in
theorem start_ne_hang (x : Node) : x.start ≠ .hang := by
  induction x using Node.start.induct with
  | _ => simp_all [Node.start]

omit [Unicode] in
theorem stop_ne_hang (x : Node) : x.stop ≠ .hang := by
  refine Node.stop.induct (motive_1 := fun x => x.stop ≠ .hang)
    (motive_2 := fun xs => Node.stopLast xs ≠ .hang) ?_ ?_ ?_ ?_ ?_ ?_ ?_ ?_ ?_ ?_ ?_ ?_ ?_ ?_ ?_ ?_ ?_
    ?_ ?_ ?_ ?_ ?_ ?_ ?_ ?_ ?_ ?_ ?_ ?_ ?_ ?_ ?_ ?_ ?_ ?_ ?_ ?_ ?_ ?_ ?_ ?_ ?_ ?_ ?_ ?_ x
  all_goals simp_all [Node.stop, Node.stopLast]

theorem parseOccurrence_tot (hs : s → Tame l) (hc : TC s l n rec) (h : St l k p) (hk : k + 1 ≤ n)
    (hcur : p.cur ≠ .EOF) (hl : s → HasStart left ∧ ∃ pos, left.stop = .ok pos) :
    (parseOccurrence rec left p).tot s (Post l k) := by
  unfold parseOccurrence
  split
  · exact parseOccUpper_tot hs hc h hk hcur
  · split
    · exact .ok ⟨h, nofun⟩
    · exact parseOccUpper_tot hs hc h hk hcur
  · refine Out.tot.bind (P := fun _ => True) ⟨start_ne_hang left, fun hh w => ?_, Out.wp_true⟩ ?_
    · obtain ⟨⟨_, h1⟩, _⟩ := hl hh
      rw [h1]; nofun
    intro a _
    refine Out.tot.bind (P := fun _ => True) ⟨stop_ne_hang left, fun hh w => ?_, Out.wp_true⟩ ?_
    · obtain ⟨_, _, h1⟩ := hl hh
      rw [h1]; nofun
    intro b _
    exact .ok ⟨h, nofun⟩

theorem parseSizeOperator_tot (hs : s → Tame l) (hc : TC s l n rec) (h : St l k p) (hk : k + 1 ≤ n)
    (hcur : p.cur ≠ .EOF) (hl : Comparable l → HasStart left) : (parseSizeOperator rec left p).tot s (Post l k) := by
  unfold parseSizeOperator
  split
  · wrap_tac hs, hc, h, hk, hcur, hl
  · wrap_tac hs, hc, h, hk, hcur, hl
  · wrap_tac hs, hc, h, hk, hcur, hl
  · exact .ok ⟨h, nofun⟩

theorem parseRegexp_tot (hs : s → Tame l) (hc : TC s l n rec) (h : St l k p) (hk : k + 1 ≤ n)
    (hcur : p.cur ≠ .EOF) (hl : s → ∃ b, left = .tstr b) : (parseRegexp rec left p).tot s (Post l k) := by
  unfold parseRegexp
  split
  · split
    · exact .ok ⟨h, nofun⟩
    · wrap_tac hs, hc, h, hk, hcur, fun _ => ⟨_, rfl⟩
  · rename_i h1
    exact .panic fun hsx => by
      obtain ⟨b, rfl⟩ := hl hsx
      exact h1 b rfl

theorem parseBits_tot (hs : s → Tame l) (hc : TC s l n rec) (h : St l k p) (hk : k + 1 ≤ n)
    (hcur : p.cur = .BITS) (hl : Comparable l → HasStart left) : (parseBits rec left p).tot s (Post l k) := by
  unfold parseBits nextEntry
  rw [show ∀ (f : _ → PRes), ((do let p ← p.next; rec p.cur.precedence p) >>= f) =
    (p.next >>= fun p => rec p.cur.precedence p >>= f) from fun f => by cases p.next <;> rfl]
  refine ((next_tot hs h).and fun q hq => hq).bind ?_
  rintro q ⟨⟨_, _, hq⟩, hnx⟩
  obtain ⟨j, rfl, hj⟩ := hq (by rw [hcur]; nofun)
  refine (hc j _ q (by omega) hj (Or.inr rfl)).bind ?_
  rintro ⟨x, e, q'⟩ ⟨hq', hcalm⟩
  dsimp only at hcalm ⊢
  split
  · have hn : ¬ s := by
      intro hsx
      obtain ⟨⟨ts, hsy⟩, _⟩ := h
      have h2 := synced_next hsy hnx
      unfold Synced at h2
      rw [List.append_assoc] at h2
      obtain ⟨h3, h4⟩ := (hs hsx).bits ts _ _ _ _ h2 hcur
      cases hcalm ⟨h3, h4⟩
    unfold wrapBadNode
    refine Out.tot.bind (P := fun _ => True) (Out.tot.bind (P := fun _ => True)
      ⟨start_ne_hang x, fun hh => absurd hh hn, Out.wp_true⟩ fun a _ => Out.tot.bind (P := fun _ => True)
      ⟨stop_ne_hang x, fun hh => absurd hh hn, Out.wp_true⟩ fun b _ => .ok trivial) ?_
    intro _ _
    exact .ok ⟨hq'.1.mono (by omega), nofun⟩
  · exact .ok ⟨hq'.1.mono (by omega), fun _ => ⟨(hq'.2 rfl).1, (hq'.2 rfl).2.1, hl⟩⟩

theorem parseList_tot (hs : s → Tame l) (hc : TC s l n rec) (h : St l k p) (hk : k + 1 ≤ n)
    (hcur : p.cur ≠ .EOF) {close keep} :
    (parseList rec n close keep p).tot s (fun r => St l k r.2.2 ∧ (r.2.1 = none → r.2.2.cur = close)) := by
  unfold parseList
  refine (next_tot hs h).bind ?_
  rintro q ⟨_, _, hq⟩
  obtain ⟨j, rfl, hj⟩ := hq hcur
  refine loopOut_tot (I := fun i (x : List Node × PState) => St l i x.2 ∧ i ≤ j) ?_ j n _
    ⟨hj, Nat.le_refl _⟩ (by omega)
  rintro i ⟨acc, q⟩ ⟨hq, hi⟩
  unfold listStep
  split
  · rename_i hx
    refine .ok ⟨hq.mono (by omega), fun _ => ?_⟩
    exact hx
  · refine (hc i _ q (by omega) hq (Or.inr rfl)).bind ?_
    rintro ⟨x, e, r⟩ ⟨hr, _⟩
    dsimp only
    split
    · exact .ok ⟨hr.1.mono (by omega), nofun⟩
    · refine (next_tot hs hr.1).bind ?_
      rintro t ⟨_, _, ht⟩
      obtain ⟨m, rfl, hm⟩ := ht (ender_eof (hr.2 rfl).1)
      exact .ok ⟨m, by omega, hm, by omega⟩

theorem parseComparatorOp_tot (hs : s → Tame l) (hc : TC s l n rec) (h : St l k p) (hk : k + 1 ≤ n)
    (hcur : p.cur ≠ .EOF) (hcmp : p.cur ∈ [Tok.LT, .LE, .GT, .GE, .EQ, .NE]) : (parseComparatorOp rec left p).tot s (Post l k) := by
  have no : Comparable l → False := fun hc => hc.cmp _ h.1.tk hcmp
  unfold parseComparatorOp
  split
  · wrap_tac hs, hc, h, hk, hcur, fun hc => (no hc).elim
  · wrap_tac hs, hc, h, hk, hcur, fun hc => (no hc).elim
  · wrap_tac hs, hc, h, hk, hcur, fun hc => (no hc).elim
  · exact .ok ⟨h, nofun⟩

theorem parseBound_tot (hs : s → Tame l) (hc : TC s l n rec) (h : St l k p) (hk : k + 1 ≤ n)
    (hcur : p.cur = .INCLUSIVE_BOUND ∨ p.cur = .EXCLUSIVE_BOUND)
    (hl : Comparable l → (∃ i, left = .ident i) ∨ (∃ a b c, left = .intLit a b c) ∨ ∃ a b c, left = .floatLit a b c) :
    (parseBound rec left p).tot s (Post l k) := by
  have heof : p.cur ≠ .EOF := by rcases hcur with h | h <;> rw [h] <;> nofun
  unfold parseBound
  split
  · unfold parseIntBound
    refine (nextEntry_tot' hs hc h hk heof).bind ?_
    rintro ⟨x, e, q⟩ hq
    dsimp only
    split
    · exact .ok ⟨hq.1, nofun⟩
    · split
      · exact .ok ⟨hq.1, fun _ => ⟨(hq.2 rfl).1, (hq.2 rfl).2.1, fun _ => ⟨_, rfl⟩⟩⟩
      · exact .ok ⟨hq.1, nofun⟩
      · exact .ok ⟨hq.1.task _, fun _ => ⟨(hq.2 rfl).1, (hq.2 rfl).2.1, fun _ => ⟨_, rfl⟩⟩⟩
      · exact .ok ⟨hq.1, fun _ => ⟨(hq.2 rfl).1, (hq.2 rfl).2.1, fun _ => ⟨_, rfl⟩⟩⟩
  · unfold parseFloatBound
    refine (nextEntry_tot' hs hc h hk heof).bind ?_
    rintro ⟨x, e, q⟩ hq
    dsimp only
    split
    · exact .ok ⟨hq.1, nofun⟩
    · split
      · exact .ok ⟨hq.1, fun _ => ⟨(hq.2 rfl).1, (hq.2 rfl).2.1, fun _ => ⟨_, rfl⟩⟩⟩
      · exact .ok ⟨hq.1, nofun⟩
      · exact .ok ⟨hq.1.task _, fun _ => ⟨(hq.2 rfl).1, (hq.2 rfl).2.1, fun _ => ⟨_, rfl⟩⟩⟩
      · exact .ok ⟨hq.1, fun _ => ⟨(hq.2 rfl).1, (hq.2 rfl).2.1, fun _ => ⟨_, rfl⟩⟩⟩
  · unfold parseIdentBound
    refine (nextEntry_tot' hs hc h hk heof).bind ?_
    rintro ⟨x, e, q⟩ hq
    dsimp only
    split
    · exact .ok ⟨hq.1, nofun⟩
    · exact .ok ⟨hq.1.task _, fun _ => ⟨(hq.2 rfl).1, (hq.2 rfl).2.1, fun _ => ⟨_, rfl⟩⟩⟩
  · rename_i h1 h2 h3
    have hnl : p.cur ∉ leaves := by rcases hcur with h | h <;> rw [h] <;> decide
    refine .ok ⟨h, fun _ => ⟨?_, noMore_other hnl, fun hc => ?_⟩⟩
    · rcases hcur with h | h <;> dsimp only <;> rw [h] <;> rfl
    · rcases hl hc with ⟨i, rfl⟩ | ⟨_, _, _, rfl⟩ | ⟨_, _, _, rfl⟩
      · exact absurd rfl (h3 _)
      · exact absurd rfl (h1 _ _ _)
      · exact absurd rfl (h2 _ _ _)

theorem leaf_tot {g : PState → PRes} (h : St l k p) (hcur : p.cur ∈ leaves)
    (hg : ∃ x e, g p = .ok (x, e, p) ∧ (e = none → Leafy x p) ∧ (p.cur ∈ sure → e = none)) :
    (g p).tot s (fun r => NudPost l k r ∧ (p.cur ∈ sure → r.2.1 = none ∧ r.2.2.peek = p.peek) ∧
      (r.2.1 = none → p.cur ∈ leaves ∨ NoMore l r.2.2)) := by
  obtain ⟨x, e, hg, hx, he⟩ := hg
  rw [hg]
  refine .ok ⟨⟨h, fun h1 => ⟨?_, Or.inr ⟨hcur, hx h1⟩, fun _ => (hx h1).start⟩⟩, fun h1 => ⟨he h1, rfl⟩, fun _ => Or.inl hcur⟩
  dsimp only
  revert hcur
  cases p.cur <;> decide

theorem nudOf_tot (hs : s → Tame l) (hc : TC s l n rec) (h : St l k p) (hk : k + 1 ≤ n) {t f}
    (ht : p.cur = t) (hf : nudOf rec n t = some f) :
    (f p).tot s (fun r => NudPost l k r ∧ (p.cur ∈ sure → r.2.1 = none ∧ r.2.2.peek = p.peek) ∧
      (r.2.1 = none → p.cur ∈ leaves ∨ NoMore l r.2.2)) := by
  have lst : ∀ {close keep} (mk : List Node → Node), ender close = true → close ∉ leaves → p.cur ≠ .EOF →
      (∀ es, HasStart (mk es)) →
      (parseList rec n close keep p >>= fun r => (Out.ok (mk r.1, r.2.1, r.2.2) : PRes)).tot s (Post l k) := by
    intro close keep mk hcl hlv hcur hmk
    refine (parseList_tot hs hc h hk hcur).bind ?_
    rintro ⟨x, e, q⟩ hq
    exact .ok ⟨hq.1, fun he => ⟨by rw [hq.2 he]; exact hcl, noMore_other (by rw [hq.2 he]; exact hlv), fun _ => hmk _⟩⟩
  have other : ∀ {o : PRes}, o.tot s (Post l k) → p.cur ∉ sure →
      o.tot s (fun r => NudPost l k r ∧ (p.cur ∈ sure → r.2.1 = none ∧ r.2.2.peek = p.peek) ∧
      (r.2.1 = none → p.cur ∈ leaves ∨ NoMore l r.2.2)) :=
    fun h1 h2 => h1.mono fun r hr => ⟨hr.nud, fun h3 => absurd h3 h2, fun h3 => Or.inr (hr.2 h3).2.1⟩
  unfold nudOf at hf
  split at hf <;> cases hf
  case h_1 =>
    unfold parseNamedIdentifier
    have hne : p.lit ≠ [] := by
      obtain ⟨_, _, _, _, _, _, _, _, h5, _⟩ := h
      exact h5 ht
    have hlf : ∀ q : PState, q.cur = .IDENT → Leafy (.ident ⟨p.pos, p.lit⟩) q := fun q hq =>
      ⟨⟨_, rfl⟩, ⟨_, rfl⟩, by simp [hq], fun _ => Or.inl ⟨_, rfl⟩⟩
    have hin : p.cur ∈ leaves := by rw [ht]; decide
    split
    · rename_i he; exact absurd he hne
    · split
      · exact .ok ⟨⟨h.task _, fun _ => ⟨by rw [show (p.addTask _).cur = p.cur from rfl, ht]; rfl,
          Or.inr ⟨hin, hlf _ ht⟩, fun _ => ⟨_, rfl⟩⟩⟩, fun _ => ⟨rfl, rfl⟩, fun _ => Or.inl hin⟩
      · exact .ok ⟨⟨h, fun _ => ⟨by dsimp only; rw [ht]; rfl, Or.inr ⟨hin, hlf _ ht⟩, fun _ => ⟨_, rfl⟩⟩⟩,
          fun _ => ⟨rfl, rfl⟩, fun _ => Or.inl hin⟩
  case h_19 => exact other (lst _ rfl (by decide) (by rw [ht]; simp) fun _ => ⟨_, rfl⟩) (by rw [ht]; decide)
  case h_20 => exact other (lst _ rfl (by decide) (by rw [ht]; simp) fun _ => ⟨_, rfl⟩) (by rw [ht]; decide)
  case h_21 => exact other (lst _ rfl (by decide) (by rw [ht]; simp) fun _ => ⟨_, rfl⟩) (by rw [ht]; decide)
  case h_22 => exact other ((parseComment_tot hs h hk ht).mono fun _ h => h.1) (by rw [ht]; decide)
  case h_23 => exact other (parseOptional_tot hs hc h hk (by rw [ht]; simp)) (by rw [ht]; decide)
  case h_24 => exact other (parseOccurrence_tot hs hc h hk (by rw [ht]; simp) fun _ => ⟨⟨_, rfl⟩, _, rfl⟩) (by rw [ht]; decide)
  case h_25 => exact other (parseOccurrence_tot hs hc h hk (by rw [ht]; simp) fun _ => ⟨⟨_, rfl⟩, _, rfl⟩) (by rw [ht]; decide)
  case h_26 => exact other (parseUnwrap_tot hs hc h hk (by rw [ht]; simp)) (by rw [ht]; decide)
  case h_27 => exact other (parseTag_tot hs hc h hk ht) (by rw [ht]; decide)
  case h_28 => exact other (parseEnumeration_tot hs hc h hk (by rw [ht]; simp)) (by rw [ht]; decide)
  all_goals
    refine leaf_tot h (by rw [ht]; decide) ?_
    have hr : Rangeable p.curTok ↔ p.cur = .IDENT ∨ p.cur = .INT ∧ p.lit ≠ b!"int" ∨ p.cur = .FLOAT ∧ p.lit ≠ b!"float" := Iff.rfl
    rw [ht] at hr
    have ht' := ht
    have mk : ∀ {x}, HasStart x → (∃ pos, x.stop = .ok pos) → (p.cur = .TSTR ∨ p.cur = .TEXT → ∃ b, x = .tstr b) →
        (Rangeable p.curTok → (∃ i, x = .ident i) ∨ (∃ a b c, x = .intLit a b c) ∨ ∃ a b c, x = .floatLit a b c) →
        Leafy x p := fun h1 h2 h3 h4 => ⟨h1, h2, h3, h4⟩
    simp only [ht] at mk
    first
      | exact ⟨_, _, rfl, fun _ => mk ⟨_, rfl⟩ ⟨_, rfl⟩ (fun _ => ⟨_, rfl⟩) (by simp [hr]), fun _ => rfl⟩
      | exact ⟨_, _, rfl, fun _ => mk ⟨_, rfl⟩ ⟨_, rfl⟩ (by simp) (by simp [hr]), fun _ => rfl⟩
      | (unfold parseBooleanLiteral; split
         · exact ⟨_, _, rfl, fun _ => mk ⟨_, rfl⟩ ⟨_, rfl⟩ (by simp) (by simp [hr]), fun _ => rfl⟩
         · split
           · exact ⟨_, _, rfl, fun _ => mk ⟨_, rfl⟩ ⟨_, rfl⟩ (by simp) (by simp [hr]), fun _ => rfl⟩
           · exact ⟨_, _, rfl, nofun, fun h => absurd (ht ▸ h) (by decide)⟩)
      | (unfold parseFloatType parseFloatLiteral; split
         · split
           · exact ⟨_, _, rfl, nofun, fun h => absurd (ht ▸ h) (by decide)⟩
           · exact ⟨_, _, rfl, fun _ => mk ⟨_, rfl⟩ ⟨_, rfl⟩ (by simp) (fun _ => Or.inr (Or.inr ⟨_, _, _, rfl⟩)),
               fun h => absurd (ht ▸ h) (by decide)⟩
         · rename_i hl
           refine ⟨_, _, rfl, fun _ => mk ⟨_, rfl⟩ ⟨_, rfl⟩ (by simp) ?_, fun h => absurd (ht ▸ h) (by decide)⟩
           rw [hr]
           rintro (h | ⟨h, _⟩ | ⟨h, h2⟩)
           · cases h
           · cases h
           · first
               | (cases h; done)
               | (exfalso; apply hl; rw [ht]; unfold Tok.isLiteral; exact decide_eq_true h2))
      | (unfold parseUintType parseUintLiteral; split
         · split
           · exact ⟨_, _, rfl, nofun, fun h => absurd (ht ▸ h) (by decide)⟩
           · exact ⟨_, _, rfl, fun _ => mk ⟨_, rfl⟩ ⟨_, rfl⟩ (by simp) (by simp [hr]), fun h => absurd (ht ▸ h) (by decide)⟩
         · exact ⟨_, _, rfl, fun _ => mk ⟨_, rfl⟩ ⟨_, rfl⟩ (by simp) (by simp [hr]), fun h => absurd (ht ▸ h) (by decide)⟩)
      | (unfold parseIntegerType parseIntegerLiteral; split
         · split
           · exact ⟨_, _, rfl, nofun, fun h => absurd (ht ▸ h) (by decide)⟩
           · exact ⟨_, _, rfl, fun _ => mk ⟨_, rfl⟩ ⟨_, rfl⟩ (by simp) (fun _ => Or.inr (Or.inl ⟨_, _, _, rfl⟩)),
               fun h => absurd (ht ▸ h) (by decide)⟩
         · rename_i hl
           refine ⟨_, _, rfl, fun _ => mk ⟨_, rfl⟩ ⟨_, rfl⟩ (by simp) ?_, fun h => absurd (ht ▸ h) (by decide)⟩
           rw [hr]
           rintro (h | ⟨h, h2⟩ | ⟨h, _⟩)
           · cases h
           · exfalso; apply hl; rw [ht]; unfold Tok.isLiteral; exact decide_eq_true h2
           · cases h)

/-- What is known about the left operand of an operator. -/
structure LeftOK (s : Prop) (l : Lexer) (left : Node) (t : Tok) : Prop where
  start : Comparable l → HasStart left
  occ : t = .ZERO_OR_MORE ∨ t = .ONE_OR_MORE → s → HasStart left ∧ ∃ pos, left.stop = .ok pos
  regexp : t = .REGEXP → s → ∃ b, left = .tstr b
  range : t = .INCLUSIVE_BOUND ∨ t = .EXCLUSIVE_BOUND → Comparable l →
    (∃ i, left = .ident i) ∨ (∃ a b c, left = .intLit a b c) ∨ ∃ a b c, left = .floatLit a b c

theorem ledOf_tot (hs : s → Tame l) (hc : TC s l n rec) (h : St l k p) (hk : k + 1 ≤ n) {t f}
    (ht : p.cur = t) (hf : ledOf rec t = some f) (hl : LeftOK s l left t) : (f left p).tot s (Post l k) := by
  have hcur : p.cur ≠ .EOF := by
    rintro he; rw [ht] at he; subst he; cases hf
  unfold ledOf at hf
  split at hf <;> cases hf
  all_goals first
    | exact parseColon_tot hs hc h hk hcur
    | exact parseTypeChoice_tot hs hc h hk hcur hl.start
    | exact parseComparatorOp_tot hs hc h hk hcur (by rw [ht]; decide)
    | exact parseSizeOperator_tot hs hc h hk hcur hl.start
    | exact parseRegexp_tot hs hc h hk hcur (hl.regexp rfl)
    | exact parseBits_tot hs hc h hk ht hl.start
    | exact parseBound_tot hs hc h hk (Or.inl ht) (hl.range (Or.inl rfl))
    | exact parseBound_tot hs hc h hk (Or.inr ht) (hl.range (Or.inr rfl))
    | exact parseOccurrence_tot hs hc h hk hcur (hl.occ (Or.inl rfl))
    | exact parseOccurrence_tot hs hc h hk hcur (hl.occ (Or.inr rfl))
    | exact .ok ⟨h, fun _ => ⟨by dsimp only; rw [ht]; rfl, noMore_other (by dsimp only; rw [ht]; decide), hl.start⟩⟩

theorem ledOf_infix {rec : Rec} {t : Tok} {f} (h : ledOf rec t = some f) : t ∈ continuers := by
  unfold ledOf at h
  split at h <;> first | (cases h; done) | decide

theorem ledOf_picky {rec : Rec} {t : Tok} (h : t ∈ picky) : (ledOf rec t).isSome = true ∧ 0 < t.precedence := by
  simp only [picky, List.mem_cons, List.not_mem_nil, or_false] at h
  rcases h with rfl | rfl | rfl | rfl | rfl <;> exact ⟨rfl, by decide⟩

omit [Unicode] in
theorem leaf_prec {t : Tok} (h : t ∈ leaves ∨ t = .COMMENT) : t.precedence = 0 := by
  revert h
  cases t <;> decide

/-- The left operand of the operator that follows. -/
theorem leftOK (hs : s → Tame l) {q : PState} {x : Node} (hq : On l q) (he : ender q.cur = true) (hcm : q.cur ≠ .COMMA)
    (hx : NoMore l q ∨ q.cur ∈ leaves ∧ Leafy x q) (hst : Comparable l → HasStart x) : LeftOK s l x q.peek := by
  obtain ⟨ts, hsy⟩ := hq
  have hno : q.cur ∉ openers := by
    unfold ender at he
    rcases (of_decide_eq_true he).2 with h | h
    · exact absurd h hcm
    · exact h
  refine ⟨hst, fun hp hsx => ?_, fun hp hsx => ?_, fun hp hcx => ?_⟩
  · rcases hx with (hx | ⟨_, us, h, hsy', hh⟩) | ⟨_, hx⟩
    · rcases (hs hsx).occ ts _ _ _ hsy hp with ho | ⟨ho, _⟩
      · exact absurd ho hno
      · refine absurd ?_ (hx ho)
        rcases hp with h | h <;> rw [h] <;> decide
    · rcases (hs hsx).occ _ _ _ _ hsy' hp with ho | ⟨_, ho⟩
      · exact absurd ho hno
      · exact absurd hh (ho h (by simp))
    · exact ⟨hx.start, hx.stop⟩
  · have ho := (hs hsx).regexp ts _ _ _ hsy hp
    have hlv : q.cur ∈ leaves := by
      rcases ho with h | h <;> (change q.cur = _ at h; rw [h]; decide)
    rcases hx with (hx | ⟨hx, _⟩) | ⟨_, hx⟩
    · exact absurd (by rw [hp]; decide) (hx hlv)
    · rcases ho with h | h <;> change q.cur = _ at h <;> rw [h] at hx <;> rcases hx with hx | hx <;> cases hx
    · exact hx.tstr ho
  · rcases hx with (hx | ⟨_, us, h, hsy', hh⟩) | ⟨_, hx⟩
    · obtain ⟨ho, _⟩ := hcx.range ts _ _ _ hsy hp
      refine absurd ?_ (hx ?_)
      · rcases hp with h | h <;> rw [h] <;> decide
      · rcases ho with h | ⟨h, _⟩ | ⟨h, _⟩ <;> (change q.cur = _ at h; rw [h]; decide)
    · exact absurd hh ((hcx.range _ _ _ _ hsy' hp).2 h (by simp))
    · exact hx.range (hcx.range ts _ _ _ hsy hp).1

theorem skipComment_tot (hs : s → Tame l) (h : St l k p) (hk : k + 1 ≤ n) :
    (skipComment n p).tot s (fun q => St l k q) := by
  unfold skipComment
  split
  · rename_i hcm
    refine (parseComment_tot hs h hk hcm).bind ?_
    rintro ⟨x, e, q⟩ ⟨hq, _⟩
    exact (next_tot hs hq.1).mono fun _ h => h.1
  · exact .ok h

theorem parseEntryBody_tot (hs : s → Tame l) (hc : TC s l n rec) : TC s l (n + 1) (parseEntryBody rec n) := by
  intro k prec p hk h hprec
  have hk : k + 1 ≤ n := by omega
  unfold parseEntryBody
  have hskip : (skipComment n p).tot s (fun q => St l k q ∧ (p.cur ≠ .COMMENT → q = p)) := by
    refine (skipComment_tot hs h hk).and ?_
    intro q hq hcm
    unfold skipComment at hq
    rw [if_neg hcm] at hq
    cases hq; rfl
  refine hskip.bind ?_
  rintro q ⟨hq, hqp⟩
  have hcalm : Calm p → q = p ∧ q.cur ∈ sure := by
    rintro ⟨h1, h2⟩
    have : p.cur ≠ .COMMENT := by intro he; rw [he] at h1; revert h1; decide
    have := hqp this
    exact ⟨this, this ▸ h1⟩
  dsimp only
  split
  · rename_i hf
    refine .ok ⟨⟨hq, nofun⟩, fun hcm => ?_⟩
    obtain ⟨_, h2⟩ := hcalm hcm
    exfalso
    unfold selectNud at hf
    split at hf
    · cases hf
    · revert hf h2
      generalize q.cur = t
      intro h2 hf
      unfold sure at h2
      simp only [List.mem_cons, List.not_mem_nil, or_false] at h2
      rcases h2 with rfl | rfl | rfl | rfl | rfl | rfl | rfl | rfl | rfl | rfl <;> cases hf
  · rename_i f hf
    have hnud : (f q).tot s (fun r => NudPost l k r ∧ (q.cur ∈ sure → r.2.1 = none ∧ r.2.2.peek = q.peek) ∧
        (r.2.1 = none → q.cur ∈ leaves ∨ NoMore l r.2.2)) := by
      unfold selectNud at hf
      split at hf
      · rename_i hx
        cases hf
        exact leaf_tot hq (by rw [hx.1]; decide) ⟨_, _, rfl, fun _ => ⟨⟨_, rfl⟩, ⟨_, rfl⟩,
          by simp [hx.1], fun _ => Or.inl ⟨_, rfl⟩⟩, fun _ => rfl⟩
      · exact nudOf_tot hs hc hq hk rfl hf
    have hp0 : q.cur ∈ leaves → prec = 0 := by
      intro hlv
      rcases hprec with h | h
      · exact h
      · by_cases hcm : p.cur = .COMMENT
        · rw [h]; exact leaf_prec (Or.inr hcm)
        · rw [h, ← hqp hcm]; exact leaf_prec (Or.inl hlv)
    refine hnud.bind ?_
    rintro ⟨x, e, q'⟩ ⟨hq', hsure, hlf⟩
    dsimp only at hq' hsure hlf ⊢
    split
    · exact .ok ⟨⟨hq'.1, nofun⟩, fun hcm => by cases (hsure (hcalm hcm).2).1⟩
    · obtain ⟨hq1, hq2⟩ := hq'
      obtain ⟨hq2, hq3, hq4⟩ := hq2 rfl
      refine loopOut_tot (I := fun j (x : Node × PState) => St l j x.2 ∧ ender x.2.cur = true ∧ j ≤ k ∧
          (NoMore l x.2 ∨ prec = 0 ∧ x.2.cur ∈ leaves ∧ Leafy x.1 x.2) ∧ (Comparable l → HasStart x.1) ∧
          (Calm p → x.2.peek ∉ continuers))
        (Q := fun r => Post l k r ∧ (Calm p → r.2.1 = none)) ?_ k n _
        ⟨hq1, hq2, Nat.le_refl _, ?_, hq4, fun hcm => ?_⟩ (by omega)
      · rintro j ⟨x, q⟩ ⟨hq, he, hj, hx, hst, hpk⟩
        unfold ledStep
        dsimp only at hq he hx hst hpk ⊢
        split
        · rename_i hcond
          split
          · rename_i hno
            refine .ok ⟨⟨hq.mono hj, fun _ => ⟨he, ?_, hst⟩⟩, fun _ => rfl⟩
            refine Or.inl fun _ hpick => ?_
            have := (ledOf_picky (rec := rec) hpick).1
            rw [hno] at this; cases this
          · rename_i g hg
            have hleft := leftOK hs hq.1 he hcond.1 (hx.imp id fun h => h.2) hst
            refine (next_tot hs hq).bind ?_
            rintro r ⟨_, hr1, hr⟩
            obtain ⟨i, rfl, hi⟩ := hr (ender_eof he)
            refine (ledOf_tot hs hc hi (by omega) hr1 hg hleft).bind ?_
            rintro ⟨y, e, t⟩ ht
            have hnc : ¬ Calm p := fun hcm => hpk hcm (ledOf_infix hg)
            dsimp only
            split
            · exact .ok ⟨⟨ht.1.mono (by omega), nofun⟩, fun hcm => absurd hcm hnc⟩
            · exact .ok ⟨i, by omega, ht.1, (ht.2 rfl).1, by omega, Or.inl (ht.2 rfl).2.1, (ht.2 rfl).2.2,
                fun hcm => absurd hcm hnc⟩
        · rename_i hcond
          refine .ok ⟨⟨hq.mono hj, fun _ => ⟨he, ?_, hst⟩⟩, fun _ => rfl⟩
          rcases hx with hx | ⟨rfl, h2, _⟩
          · exact hx
          · refine Or.inl fun _ hpick => hcond ⟨?_, (ledOf_picky (rec := rec) hpick).2⟩
            intro hcm
            rw [hcm] at h2; revert h2; decide
      · dsimp only
        rcases hq3 with h1 | ⟨h1, h2⟩
        · exact Or.inl h1
        · rcases hlf rfl with h3 | h3
          · exact Or.inr ⟨hp0 h3, h1, h2⟩
          · exact Or.inl h3
      · dsimp only
        obtain ⟨h1, h2⟩ := hcalm hcm
        rw [(hsure h2).2, h1]
        exact hcm.2

/-- Parsing an entry is total, given enough fuel for what is left to read. -/
theorem parseEntry_tot (hs : s → Tame l) (n : Nat) : TC s l n (parseEntry n) := by
  induction n with
  | zero => intro k prec p hk; omega
  | succ n ih => exact parseEntryBody_tot hs ih

end PState
end Cddlc
