import Verif.Lemmas.Credit
import Verif.Lemmas.FileFacts
import Verif.Spec.Diag
import Mathlib.Data.List.Forall2

/-! Where in the sequence of tokens diagnostics and tasks come from. -/

namespace Cddlc
open Spec
variable [Unicode]

/-- `t` is token number `i`. -/
def Idx (l : Lexer) (i : Nat) (t : Token) : Prop := ∃ ts l', ts.length = i ∧ Scans l (ts ++ [t]) l'

/-- The parser stands on token number `k`. -/
def At (l : Lexer) (k : Nat) (p : PState) : Prop := ∃ ts, ts.length = k ∧ Synced l ts p

theorem Idx.unique {l : Lexer} {i t u} (h : Idx l i t) (h' : Idx l i u) : t = u := by
  obtain ⟨ts, _, h1, h2⟩ := h
  obtain ⟨us, _, h3, h4⟩ := h'
  obtain ⟨vs, hv⟩ := scans_det h2 h4 (by simp [h1, h3])
  rw [List.append_assoc] at hv
  have := List.append_inj hv (by omega)
  exact (by simpa using this.2 : t = u ∧ _).1

theorem At.next {l : Lexer} {k} {p q : PState} (h : At l k p) (hn : p.next = .ok q) : At l (k + 1) q := by
  obtain ⟨ts, h1, h2⟩ := h
  exact ⟨_, by simp [h1], synced_next h2 hn⟩

theorem At.idx {l : Lexer} {k} {p : PState} (h : At l k p) : Idx l k p.curTok := by
  obtain ⟨ts, h1, h2⟩ := h
  unfold Synced at h2
  rw [show ts ++ [p.curTok, p.peekTok] = (ts ++ [p.curTok]) ++ [p.peekTok] by simp] at h2
  obtain ⟨m, h3, -⟩ := scans_split h2
  exact ⟨ts, m, h1, h3⟩

theorem At.task {l : Lexer} {k} {p : PState} {t} (h : At l k p) : At l k (p.addTask t) := h

/-- Token number `i` is the first behind a range operator, comments not counted. -/
def Behind (l : Lexer) (i : Nat) : Prop := ∃ m t, m < i ∧ Idx l m t ∧
  (t.tok = .INCLUSIVE_BOUND ∨ t.tok = .EXCLUSIVE_BOUND) ∧ ∀ j u, m < j → j < i → Idx l j u → u.tok = .COMMENT

/-- The kind of a task, and the number of the token it is about. -/
def KeyOf (l : Lexer) : Task → Nat × Nat → Prop
  | .exists name pos, k => k.1 = 0 ∧ Idx l k.2 ⟨.IDENT, pos, name⟩
  | .identBound _ left _, k => k.1 = 1 ∧ Idx l k.2 ⟨.IDENT, left.pos, left.name⟩
  | .intBound name s _, k => k.1 = 2 ∧ Idx l k.2 ⟨.IDENT, s, name⟩ ∧ Behind l k.2
  | .floatBound name s _, k => k.1 = 2 ∧ Idx l k.2 ⟨.IDENT, s, name⟩ ∧ Behind l k.2

/-- No two tasks are of one kind and about one token; and but for the comparison of two names, which is about the
first of them, tasks are in the order of the tokens. -/
def Listed (ks : List (Nat × Nat)) : Prop := ks.Nodup ∧ ks.Pairwise (fun j k => j.1 ≠ 1 → k.1 ≠ 1 → j.2 ≤ k.2)

omit [Unicode] in
theorem listed_nil : Listed [] := ⟨by simp, by simp⟩

/-- From `p0` on tasks were added for tokens with numbers from `a` to before `b`. -/
def Keyed (l : Lexer) (a b : Nat) (p0 p : PState) (ks : List (Nat × Nat)) : Prop :=
  ∃ ts, p.tasks = p0.tasks ++ ts ∧ List.Forall₂ (KeyOf l) ts ks ∧ Listed ks ∧ ∀ k ∈ ks, a ≤ k.2 ∧ k.2 < b

theorem Keyed.refl {l : Lexer} {a b} {p : PState} : Keyed l a b p p [] :=
  ⟨[], by simp, .nil, listed_nil, by simp⟩

theorem Keyed.next {l : Lexer} {a b} {p0 p q : PState} {ks} (h : Keyed l a b p0 p ks) (hn : p.next = .ok q) :
    Keyed l a b p0 q ks := by
  obtain ⟨ts, h1, h2⟩ := h
  exact ⟨ts, by rw [(next_fields hn).2.2.2.2.1, h1], h2⟩

theorem Keyed.mono {l : Lexer} {a b a' b'} {p0 p : PState} {ks} (h : Keyed l a b p0 p ks) (ha : a' ≤ a)
    (hb : b ≤ b') : Keyed l a' b' p0 p ks := by
  obtain ⟨ts, h1, h2, h3, h4⟩ := h
  exact ⟨ts, h1, h2, h3, fun k hk => ⟨by have := (h4 k hk).1; omega, by have := (h4 k hk).2; omega⟩⟩

theorem Keyed.trans {l : Lexer} {a b d} {p q r : PState} {ks us} (h : Keyed l a b p q ks)
    (h' : Keyed l b d q r us) (hb : a ≤ b) (hd : b ≤ d) : Keyed l a d p r (ks ++ us) := by
  obtain ⟨ts, h1, h2, h3, h4⟩ := h
  obtain ⟨vs, g1, g2, g3, g4⟩ := h'
  refine ⟨ts ++ vs, by rw [g1, h1, List.append_assoc], ?_, ?_, ?_⟩
  · exact List.rel_append h2 g2
  · refine ⟨List.nodup_append.mpr ⟨h3.1, g3.1, ?_⟩, List.pairwise_append.mpr ⟨h3.2, g3.2, ?_⟩⟩
    · rintro x hx y hy rfl
      have := (h4 _ hx).2; have := (g4 _ hy).1; omega
    · intro x hx y hy _ _
      have := (h4 _ hx).2; have := (g4 _ hy).1; omega
  · intro k hk
    rcases List.mem_append.mp hk with hk | hk
    · have := h4 k hk; omega
    · have := g4 k hk; omega

theorem Keyed.task {l : Lexer} {a b} {p q : PState} {ks t k} (h : Keyed l a b p q ks) (ht : KeyOf l t k)
    (hk : k ∉ ks) (ho : k.1 ≠ 1 → ∀ j ∈ ks, j.1 ≠ 1 → j.2 ≤ k.2) (ha : a ≤ k.2) (hb : k.2 < b) :
    Keyed l a b p (q.addTask t) (ks ++ [k]) := by
  obtain ⟨ts, h1, h2, h3, h4⟩ := h
  refine ⟨ts ++ [t], by simp [PState.addTask, h1], ?_, ?_, ?_⟩
  · exact List.rel_append h2 (.cons ht .nil)
  · refine ⟨List.nodup_append.mpr ⟨h3.1, by simp, ?_⟩, List.pairwise_append.mpr ⟨h3.2, by simp, ?_⟩⟩
    · rintro x hx y hy rfl
      rw [List.mem_singleton] at hy
      exact hk (hy ▸ hx)
    · intro x hx y hy h5 h6
      rw [List.mem_singleton] at hy
      subst hy
      exact ho h6 x hx h5
  · intro j hj
    rcases List.mem_append.mp hj with hj | hj
    · exact h4 j hj
    · rw [List.mem_singleton] at hj; subst hj; exact ⟨ha, hb⟩

/-- The position is that of a token with a number from `a` to before `b`. -/
def PosIn (l : Lexer) (a b : Nat) (pos : Pos) (ok : Tok → Prop) : Prop :=
  ∃ i t, a ≤ i ∧ i < b ∧ Idx l i t ∧ t.pos = pos ∧ ok t.tok

theorem PosIn.mono {l : Lexer} {a b a' b'} {pos} {ok ok' : Tok → Prop} (h : PosIn l a b pos ok) (ha : a' ≤ a)
    (hb : b ≤ b') (ho : ∀ t, ok t → ok' t) : PosIn l a' b' pos ok' := by
  obtain ⟨i, t, h1, h2, h3, h4, h5⟩ := h
  exact ⟨i, t, by omega, by omega, h3, h4, ho _ h5⟩

theorem At.posIn {l : Lexer} {k a b} {p : PState} {ok : Tok → Prop} (h : At l k p) (ha : a ≤ k) (hb : k < b)
    (ho : ok p.cur) : PosIn l a b p.pos ok := ⟨k, p.curTok, ha, hb, h.idx, rfl, ho⟩

/-- What the token at the start of a node is not. -/
def startOk (x : Node) (t : Tok) : Prop := x.kind = .floatLit ∨ x.kind = .intLit → t ≠ .IDENT

/-- What is known of a node: where it starts; and if it is an identifier, that it stands there, with comments
before it, and that there are no tasks but that it exists, none about a later token. -/
def NodeIn (l : Lexer) (a b : Nat) (x : Node) (ks : List (Nat × Nat)) : Prop :=
  (∀ pos, x.start = .ok pos → PosIn l a b pos (startOk x)) ∧
  ∀ i, x = .ident i → (∀ k ∈ ks, k.1 = 0) ∧ ∃ j, a ≤ j ∧ j < b ∧ Idx l j ⟨.IDENT, i.pos, i.name⟩ ∧
    (∀ k ∈ ks, k.2 ≤ j) ∧ ∀ m u, a ≤ m → m < j → Idx l m u → u.tok = .COMMENT

/-- What is known of a diagnostic. -/
def DiagIn (l : Lexer) (a b : Nat) (d : Diag) : Prop :=
  onlyDeferred d.msg = false ∧ PosIn l a b d.start fun t =>
    d.msg = .floatInIntRange ∨ d.msg = .intInFloatRange → t ≠ .IDENT

namespace PState

/-- What is known of a result. -/
def Told (l : Lexer) (a : Nat) (p0 : PState) (r : Node × Option Diag × PState) : Prop :=
  ∃ k ks, a ≤ k ∧ At l k r.2.2 ∧ Keyed l a (k + 1) p0 r.2.2 ks ∧
    match r.2.1 with
    | none => NodeIn l a (k + 1) r.1 ks
    | some d => DiagIn l a (k + 1) d

/-- What a recursive call is assumed to do. -/
def ToldRec (l : Lexer) (rec : Rec) : Prop := ∀ prec a p, At l a p → (rec prec p).wp (Told l a p)

variable {l : Lexer} {rec : Rec} {p0 p q : PState} {n : Nat} {left : Node} {a k : Nat} {ks : List (Nat × Nat)}

/-- A node that starts at the current token and is no identifier. -/
theorem told_here {x : Node} (ha : a ≤ k) (hp : At l k p) (hk : Keyed l a (k + 1) p0 p ks)
    (hx : ∀ pos, x.start = .ok pos → PosIn l a (k + 1) pos (startOk x)) (hi : ∀ i, x ≠ .ident i) :
    Told l a p0 (x, none, p) := ⟨k, ks, ha, hp, hk, hx, fun i h => absurd h (hi i)⟩

theorem told_err {x : Node} {d : Diag} (ha : a ≤ k) (hp : At l k p) (hk : Keyed l a (k + 1) p0 p ks)
    (hd : DiagIn l a (k + 1) d) : Told l a p0 (x, some d, p) := ⟨k, ks, ha, hp, hk, hd⟩

/-- An operand, and what is done with it. -/
theorem pass_told (hc : ToldRec l rec) (hp : At l k p) (ha : a ≤ k) (hk : Keyed l a (k + 1) p0 p ks)
    {F : Node × Option Diag × PState → PRes} {Q : Node × Option Diag × PState → Prop}
    (hs : ∀ x d q m us, k < m → At l m q → Keyed l a (m + 1) p0 q us → DiagIn l (k + 1) (m + 1) d →
      (F (x, some d, q)).wp Q)
    (hn : ∀ x q m us, k < m → At l m q → Keyed l (k + 1) (m + 1) p q us → NodeIn l (k + 1) (m + 1) x us →
      (F (x, none, q)).wp Q) :
    (nextEntry rec p >>= F).wp Q := by
  refine Out.wp_bind.mpr ?_
  intro r hr
  unfold nextEntry at hr
  cases hq : p.next with
  | ok q =>
    rw [hq] at hr
    obtain ⟨x, e, r⟩ := r
    obtain ⟨m, us, h1, h2, h3, h4⟩ := hc _ _ _ (hp.next hq) _ hr
    have h3' : Keyed l (k + 1) (m + 1) p r us := by
      obtain ⟨ts, g1, g2⟩ := h3
      exact ⟨ts, by rw [g1, (next_fields hq).2.2.2.2.1], g2⟩
    cases e with
    | some d => exact hs x d r m _ h1 h2 (hk.trans h3' (by omega) (by omega)) h4
    | none => exact hn x r m us h1 h2 h3' h4
  | panic w => rw [hq] at hr; cases hr
  | hang => rw [hq] at hr; cases hr

/-- Most operators: a diagnostic of the operand is passed on, and nothing is read behind it. -/
theorem simple_told (hc : ToldRec l rec) (hp : At l k p) (ha : a ≤ k) (hk : Keyed l a (k + 1) p0 p ks)
    {F : Node × Option Diag × PState → PRes}
    (hF : ∀ x e q, (F (x, e, q)).wp fun r => r.2.2 = q ∧ r.2.1 = e ∧ (e = none → (∀ i, r.1 ≠ .ident i) ∧
      ∀ pos, r.1.start = .ok pos → PosIn l a (k + 1) pos (startOk r.1))) :
    (nextEntry rec p >>= F).wp (Told l a p0) := by
  refine pass_told hc hp ha hk ?_ ?_
  · intro x d q m us hm hq hu hd
    refine (hF x (some d) q).mono ?_
    rintro ⟨y, e, q'⟩ ⟨rfl, rfl, -⟩
    exact told_err (by omega) hq hu ⟨hd.1, hd.2.mono (by omega) (by omega) fun _ h => h⟩
  · intro x q m us hm hq hu hx
    refine (hF x none q).mono ?_
    rintro ⟨y, e, q'⟩ ⟨rfl, rfl, h3⟩
    refine told_here (by omega) hq (hk.trans hu (by omega) (by omega)) ?_ (h3 rfl).1
    intro pos hpos
    exact ((h3 rfl).2 pos hpos).mono (by omega) (by omega) fun _ h => h

/-- The diagnostic of an operator is at the operator. -/
theorem err_here {x : Node} {d : Diag} (hp : At l k p) (ha : a ≤ k) (hk : Keyed l a (k + 1) p0 p ks)
    (hm : onlyDeferred d.msg = false) (hf : d.msg ≠ .floatInIntRange ∧ d.msg ≠ .intInFloatRange)
    (hd : d.start = p.pos) : Told l a p0 (x, some d, p) :=
  told_err ha hp hk ⟨hm, hd ▸ hp.posIn ha (by omega) (by rintro (h | h) <;> simp_all)⟩

theorem posIn_free {pos} {b : Nat} {x : Node} {ok : Tok → Prop} (h : PosIn l a b pos ok)
    (hx : x.kind ≠ .floatLit ∧ x.kind ≠ .intLit) : PosIn l a b pos (startOk x) :=
  h.mono (Nat.le_refl _) (Nat.le_refl _) fun t _ hk => by rcases hk with hk | hk <;> simp_all

theorem parseColon_told (hc : ToldRec l rec) (hp : At l k p) (ha : a ≤ k) (hk : Keyed l a k p0 p ks)
    (hl : NodeIn l a k left ks) : (parseColon rec left p).wp (Told l a p0) := by
  have hk' := hk.mono (Nat.le_refl a) (Nat.le_succ k)
  unfold parseColon
  dsimp only
  split
  · simp only [Out.wp_ok]
    exact err_here hp ha hk' rfl ⟨by simp [errUnsupported], by simp [errUnsupported]⟩ rfl
  · rename_i name hname
    have hpos : ∀ b, k + 1 ≤ b → PosIn l a b name.pos fun _ => True := by
      intro b hb
      split at hname
      · cases hname
        obtain ⟨j, h1, h2, h3, -⟩ := (hl.2 _ rfl).2
        exact ⟨j, _, h1, by omega, h3, rfl, trivial⟩
      · cases hname
        exact hp.posIn ha (by omega) trivial
      · cases hname
    refine pass_told hc hp ha hk' ?_ ?_
    · intro x d q m us hm hq hu hd
      simp only [Out.wp_ok]
      exact told_err (by omega) hq hu ⟨hd.1, hd.2.mono (by omega) (by omega) fun _ h => h⟩
    · intro x q m us hm hq hu hx
      have hu' := hk'.trans hu (by omega) (by omega)
      dsimp only
      split
      · refine Out.wp_bind.mpr ?_
        intro r hr
        simp only [Out.wp_ok]
        refine told_here (k := m + 1) (by omega) (hq.next hr) ((hu'.next hr).mono (by omega) (by omega)) ?_ (by simp)
        intro pos hs
        cases hs
        exact posIn_free (hpos _ (by omega)) (by simp [Node.kind])
      · simp only [Out.wp_ok]
        refine told_here (by omega) hq hu' ?_ (by simp)
        intro pos hs
        cases hs
        exact posIn_free (hpos _ (by omega)) (by simp [Node.kind])

/-- A node that starts where the one before the operator does. -/
theorem posIn_left {pos} {b : Nat} {x : Node} (hl : NodeIn l a k left ks) (hb : k ≤ b)
    (hx : x.kind ≠ .floatLit ∧ x.kind ≠ .intLit) (hs : left.start = .ok pos) : PosIn l a b pos (startOk x) :=
  posIn_free ((hl.1 pos hs).mono (Nat.le_refl _) hb fun _ h => h) hx

theorem parseTypeChoice_told (hc : ToldRec l rec) (hp : At l k p) (ha : a ≤ k) (hk : Keyed l a k p0 p ks)
    (hl : NodeIn l a k left ks) : (parseTypeChoice rec left p).wp (Told l a p0) := by
  refine simple_told hc hp ha (hk.mono (Nat.le_refl a) (Nat.le_succ k)) fun x e q => ?_
  cases e with
  | some d => simp
  | none =>
    simp only [Out.wp_ok]
    exact ⟨trivial, trivial, fun _ => ⟨by simp, fun pos hs => posIn_left hl (by omega) (by simp [Node.kind]) hs⟩⟩

/-- A prefix operator. -/
theorem prefix_told (hc : ToldRec l rec) (hp : At l k p) (ha : a ≤ k) (hk : Keyed l a k p0 p ks)
    {F : Node × Option Diag × PState → PRes}
    (hF : ∀ x e q, (F (x, e, q)).wp fun r => r.2.2 = q ∧ r.2.1 = e ∧ (e = none → (∀ i, r.1 ≠ .ident i) ∧
      r.1.start = .ok p.pos ∧ r.1.kind ≠ .floatLit ∧ r.1.kind ≠ .intLit)) :
    (nextEntry rec p >>= F).wp (Told l a p0) := by
  refine simple_told hc hp ha (hk.mono (Nat.le_refl a) (Nat.le_succ k)) fun x e q => (hF x e q).mono ?_
  rintro ⟨y, e, r⟩ ⟨h1, h2, h3⟩
  refine ⟨h1, h2, fun he => ⟨(h3 he).1, fun pos hs => ?_⟩⟩
  rw [(h3 he).2.1] at hs
  cases hs
  exact posIn_free (hp.posIn (ok := fun _ => True) ha (by omega) trivial) (h3 he).2.2

theorem parseTagItem_told (hc : ToldRec l rec) (hp : At l k p) (ha : a ≤ k) (hk : Keyed l a (k + 1) p0 p ks)
    {pos tok major number} (hpos : PosIn l a (k + 1) pos fun _ => True) :
    (parseTagItem rec pos tok major number p).wp (Told l a p0) := by
  have hst : ∀ b x pos', k + 1 ≤ b → (Node.tag pos tok major number x).start = .ok pos' →
      PosIn l a b pos' (startOk (Node.tag pos tok major number x)) := by
    intro b x pos' hb hs
    cases hs
    exact posIn_free (hpos.mono (Nat.le_refl _) hb fun _ h => h) (by simp [Node.kind])
  unfold parseTagItem
  split
  · refine Out.wp_bind.mpr ?_
    intro q hq
    refine pass_told hc (hp.next hq) (by omega) ((hk.next hq).mono (Nat.le_refl _) (by omega)) ?_ ?_
    · intro x d q m us hm hq hu hd
      simp only [Out.wp_ok]
      exact told_err (by omega) hq hu ⟨hd.1, hd.2.mono (by omega) (by omega) fun _ h => h⟩
    · intro x q' m us hm hq' hu hx
      have hu' := ((hk.next hq).mono (Nat.le_refl _) (Nat.le_succ _)).trans hu (by omega) (by omega)
      dsimp only
      refine Out.wp_bind.mpr ?_
      unfold expectPeek
      split
      · simp only [Out.wp_ok]
        exact told_here (by omega) hq' hu' (fun pos hs => hst _ _ _ (by omega) hs) (by simp)
      · intro r hr
        simp only [Out.wp_ok]
        exact told_here (k := m + 1) (by omega) (hq'.next hr) ((hu'.next hr).mono (by omega) (by omega))
          (fun pos hs => hst _ _ _ (by omega) hs) (by simp)
  · simp only [Out.wp_ok]
    exact told_here ha hp hk (fun pos hs => hst _ _ _ (by omega) hs) (by simp)

theorem parseTag_told (hc : ToldRec l rec) (hp : At l k p) (ha : a ≤ k) (hk : Keyed l a k p0 p ks) :
    (parseTag rec p).wp (Told l a p0) := by
  unfold parseTag
  split
  · refine Out.wp_bind.mpr ?_
    intro q hq
    have hk' := (hk.next hq).mono (Nat.le_refl a) (by omega : k ≤ k + 1 + 1)
    split
    · simp only [Out.wp_ok]
      exact err_here (hp.next hq) (by omega) hk' rfl (by simp) rfl
    · exact parseTagItem_told hc (hp.next hq) (by omega) hk' (hp.posIn ha (by omega) trivial)
  · refine Out.wp_bind.mpr ?_
    intro q hq
    have hk' := (hk.next hq).mono (Nat.le_refl a) (by omega : k ≤ k + 1 + 1)
    split
    · rename_i e he
      simp only [Out.wp_ok]
      have : onlyDeferred e.msg = false ∧ (e.msg ≠ .floatInIntRange ∧ e.msg ≠ .intInFloatRange) ∧
          e.start = q.pos := by
        unfold parseFloatTag at he
        split at he
        · split at he
          · cases he; simp [onlyDeferred]
          · split at he
            · cases he; simp [onlyDeferred]
            · cases he
        · cases he; simp [onlyDeferred]
      exact err_here (hp.next hq) (by omega) hk' this.1 this.2.1 this.2.2
    · exact parseTagItem_told hc (hp.next hq) (by omega) hk' (hp.posIn ha (by omega) trivial)
  · exact parseTagItem_told hc hp ha (hk.mono (Nat.le_refl a) (Nat.le_succ k)) (hp.posIn ha (by omega) trivial)

theorem parseOccItem_told (hc : ToldRec l rec) (hp : At l k p) (ha : a ≤ k) (hk : Keyed l a k p0 p ks)
    {pos tok} {u : UintLit} {b} (hpos : PosIn l a k u.pos fun _ => True) :
    (parseOccItem rec pos tok (some u) b p).wp (Told l a p0) := by
  unfold parseOccItem
  refine Out.wp_bind.mpr ((hc _ _ _ hp).mono ?_)
  rintro ⟨x, e, q⟩ ⟨m, us, h1, h2, h3, h4⟩
  have h3' := hk.trans h3 ha (by omega)
  cases e with
  | some d =>
    simp only [Out.wp_ok]
    exact told_err (by omega) h2 h3' ⟨h4.1, h4.2.mono ha (by omega) fun _ h => h⟩
  | none =>
    simp only [Out.wp_ok]
    refine told_here (by omega) h2 h3' ?_ (by simp)
    intro pos hs
    cases hs
    exact posIn_free (hpos.mono (Nat.le_refl _) (by omega) fun _ h => h) (by simp [Node.kind])

omit [Unicode] in
theorem parseUintType_at {r : Node × Option Diag × PState} (h : parseUintType p = .ok r) : ∀ d, r.2.1 = some d →
    onlyDeferred d.msg = false ∧ (d.msg ≠ .floatInIntRange ∧ d.msg ≠ .intInFloatRange) ∧ d.start = p.pos := by
  intro d hd
  unfold parseUintType parseUintLiteral at h
  split at h
  · split at h <;> cases h <;> cases hd; simp [onlyDeferred, errExpected]
  · cases h; cases hd

theorem parseOccUpper_told (hc : ToldRec l rec) (hp : At l k p) (ha : a ≤ k) (hk : Keyed l a k p0 p ks) {u : UintLit}
    (hpos : PosIn l a (k + 1) u.pos fun _ => True) : (parseOccUpper rec u p).wp (Told l a p0) := by
  unfold parseOccUpper
  split
  · refine Out.wp_bind.mpr ?_
    intro q hq
    refine Out.wp_bind.mpr ?_
    rintro ⟨x, e, q'⟩ hq'
    have hst := parseUintType_state _ hq'
    dsimp only at hst
    subst hst
    dsimp only
    split
    · rename_i d
      obtain ⟨h1, h2, h3⟩ := parseUintType_at hq' d rfl
      simp only [Out.wp_ok]
      exact err_here (hp.next hq) (by omega) ((hk.next hq).mono (Nat.le_refl _) (by omega)) h1 h2 h3
    · exact parseOccItem_told hc (hp.next hq) (by omega) ((hk.next hq).mono (Nat.le_refl _) (by omega)) hpos
  · refine Out.wp_bind.mpr ?_
    intro q hq
    exact parseOccItem_told hc (hp.next hq) (by omega) ((hk.next hq).mono (Nat.le_refl _) (by omega)) hpos

theorem parseOccurrence_told (hc : ToldRec l rec) (hp : At l k p) (ha : a ≤ k) (hk : Keyed l a k p0 p ks)
    (hl : ∀ pos, left.start = .ok pos → PosIn l a (k + 1) pos fun _ => True) :
    (parseOccurrence rec left p).wp (Told l a p0) := by
  have hk' := hk.mono (Nat.le_refl a) (Nat.le_succ k)
  unfold parseOccurrence
  split
  · exact parseOccUpper_told hc hp ha hk (hl _ rfl)
  · split
    · simp only [Out.wp_ok]
      exact told_err ha hp hk' ⟨rfl, (hl _ rfl).mono (Nat.le_refl _) (Nat.le_refl _)
        fun _ _ h => by rcases h with h | h <;> cases h⟩
    · exact parseOccUpper_told hc hp ha hk (hl _ rfl)
  · refine Out.wp_bind.mpr ?_
    intro s hs
    refine Out.wp_bind.mpr (Out.wp_true.mono ?_)
    intro e _
    simp only [Out.wp_ok]
    exact told_err ha hp hk' ⟨rfl, (hl _ hs).mono (Nat.le_refl _) (Nat.le_refl _)
        fun _ _ h => by rcases h with h | h <;> cases h⟩

theorem parseSizeOperator_told (hc : ToldRec l rec) (hp : At l k p) (ha : a ≤ k) (hk : Keyed l a k p0 p ks)
    (hl : NodeIn l a k left ks) : (parseSizeOperator rec left p).wp (Told l a p0) := by
  have hk' := hk.mono (Nat.le_refl a) (Nat.le_succ k)
  unfold parseSizeOperator
  split
  all_goals first
    | (refine simple_told hc hp ha hk' fun x e q => ?_
       cases e with
       | some d => simp
       | none =>
         simp only [Out.wp_ok]
         exact ⟨trivial, trivial, fun _ => ⟨by simp, fun pos hs => posIn_left hl (by omega) (by simp [Node.kind]) hs⟩⟩)
    | (simp only [Out.wp_ok]
       exact err_here hp ha hk' rfl ⟨by simp [errUnsupported], by simp [errUnsupported]⟩ rfl)

theorem parseRegexp_told (hc : ToldRec l rec) (hp : At l k p) (ha : a ≤ k) (hk : Keyed l a k p0 p ks)
    (hl : NodeIn l a k left ks) : (parseRegexp rec left p).wp (Told l a p0) := by
  have hk' := hk.mono (Nat.le_refl a) (Nat.le_succ k)
  unfold parseRegexp
  split
  · split
    · simp only [Out.wp_ok]
      exact err_here hp ha hk' rfl ⟨by simp [errExpected], by simp [errExpected]⟩ rfl
    · refine simple_told hc hp ha hk' fun x e q => ?_
      cases e with
      | some d => simp
      | none =>
        simp only [Out.wp_ok]
        exact ⟨trivial, trivial, fun _ => ⟨by simp, fun pos hs => posIn_left hl (by omega) (by simp [Node.kind]) hs⟩⟩
  · simp

theorem parseBits_told (hc : ToldRec l rec) (hp : At l k p) (ha : a ≤ k) (hk : Keyed l a k p0 p ks)
    (hl : NodeIn l a k left ks) : (parseBits rec left p).wp (Told l a p0) := by
  unfold parseBits
  refine simple_told hc hp ha (hk.mono (Nat.le_refl a) (Nat.le_succ k)) fun x e q => ?_
  cases e with
  | none =>
    simp only [Out.wp_ok]
    exact ⟨trivial, trivial, fun _ => ⟨by simp, fun pos hs => posIn_left hl (by omega) (by simp [Node.kind]) hs⟩⟩
  | some d =>
    refine Out.wp_bind.mpr (Out.wp_true.mono ?_)
    intro b _
    simp

theorem parseComparatorOp_told (hc : ToldRec l rec) (hp : At l k p) (ha : a ≤ k) (hk : Keyed l a k p0 p ks) :
    (parseComparatorOp rec left p).wp (Told l a p0) := by
  have hk' := hk.mono (Nat.le_refl a) (Nat.le_succ k)
  unfold parseComparatorOp
  split
  all_goals first
    | (refine simple_told hc hp ha hk' fun x e q => ?_
       cases e with
       | some d => simp
       | none =>
         simp only [Out.wp_ok]
         exact ⟨trivial, trivial, fun _ => ⟨by simp, fun pos hs => by cases hs⟩⟩)
    | (simp only [Out.wp_ok]
       exact err_here hp ha hk' rfl ⟨by simp [errUnsupported], by simp [errUnsupported]⟩ rfl)

theorem posIn_mono_left {pos b b' a'} {ok : Tok → Prop} (h : PosIn l a b pos ok) (ha : a' ≤ a) (hb : b ≤ b') :
    PosIn l a' b' pos ok := h.mono ha hb fun _ h => h

theorem parseBound_told (hc : ToldRec l rec) (hp : At l k p) (ha : a ≤ k) (hk : Keyed l a k p0 p ks)
    (hl : NodeIn l a k left ks) (hcur : p.cur = .INCLUSIVE_BOUND ∨ p.cur = .EXCLUSIVE_BOUND) :
    (parseBound rec left p).wp (Told l a p0) := by
  have hk' := hk.mono (Nat.le_refl a) (Nat.le_succ k)
  have hstart : ∀ {m q us tok pos lo hi}, k < m → At l m q → Keyed l a (m + 1) p0 q us → lo.start = left.start →
      Told l a p0 (.range pos tok lo hi, none, q) := by
    intro m q us tok pos lo hi hm hq hu hlo
    refine told_here (by omega) hq hu (fun pos hs => ?_) (by simp)
    exact posIn_left hl (by omega) (by simp [Node.kind]) (hlo ▸ hs)
  -- the upper end is a name
  have upper : ∀ {m q us tok pos t} {i : Ident}, k < m → At l m q → Keyed l (k + 1) (m + 1) p q us →
      NodeIn l (k + 1) (m + 1) (.ident i) us →
      (∀ κ : Nat × Nat, κ.1 = 2 → Idx l κ.2 ⟨.IDENT, i.pos, i.name⟩ → Behind l κ.2 → KeyOf l t κ) →
      Told l a p0 (.range pos tok left (.ident i), none, q.addTask t) := by
    intro m q us tok pos t i hm hq hu hx ht
    obtain ⟨h0, j, h1, h2, h3, hj, h4⟩ := hx.2 i rfl
    have hb : Behind l j := ⟨k, _, by omega, hp.idx, hcur, fun j' u h5 h6 h7 => h4 j' u (by omega) h6 h7⟩
    refine hstart (us := ks ++ us ++ [(2, j)]) hm hq.task ?_ rfl
    refine (hk'.trans hu (by omega) (by omega)).task (ht (2, j) rfl h3 hb) ?_ ?_ (by omega) (by omega)
    · intro hmem
      rcases List.mem_append.mp hmem with hmem | hmem
      · obtain ⟨-, -, -, -, g⟩ := hk
        have := (g _ hmem).2
        omega
      · cases h0 _ hmem
    · intro _ κ hmem _
      rcases List.mem_append.mp hmem with hmem | hmem
      · obtain ⟨-, -, -, -, g⟩ := hk
        have := (g _ hmem).2
        dsimp only
        omega
      · exact hj _ hmem
  unfold parseBound
  split
  · unfold parseIntBound
    refine pass_told hc hp ha hk' ?_ ?_
    · intro x d q m us hm hq hu hd
      simp only [Out.wp_ok]
      exact told_err (by omega) hq hu ⟨hd.1, posIn_mono_left hd.2 (by omega) (by omega)⟩
    · intro x q m us hm hq hu hx
      have hu' := hk'.trans hu (by omega) (by omega)
      dsimp only
      split <;> simp only [Out.wp_ok]
      · exact hstart hm hq hu' rfl
      · refine told_err (by omega) hq hu' ⟨rfl, ?_⟩
        exact (hx.1 _ rfl).mono (by omega) (by omega) fun t ht _ => ht (.inl rfl)
      · exact upper hm hq hu hx fun κ h1 h2 h3 => ⟨h1, h2, h3⟩
      · exact hstart hm hq hu' rfl
  · unfold parseFloatBound
    refine pass_told hc hp ha hk' ?_ ?_
    · intro x d q m us hm hq hu hd
      simp only [Out.wp_ok]
      exact told_err (by omega) hq hu ⟨hd.1, posIn_mono_left hd.2 (by omega) (by omega)⟩
    · intro x q m us hm hq hu hx
      have hu' := hk'.trans hu (by omega) (by omega)
      dsimp only
      split <;> simp only [Out.wp_ok]
      · exact hstart hm hq hu' rfl
      · refine told_err (by omega) hq hu' ⟨rfl, ?_⟩
        exact (hx.1 _ rfl).mono (by omega) (by omega) fun t ht _ => ht (.inr rfl)
      · exact upper hm hq hu hx fun κ h1 h2 h3 => ⟨h1, h2, h3⟩
      · exact hstart hm hq hu' rfl
  · rename_i i
    unfold parseIdentBound
    refine pass_told hc hp ha hk' ?_ ?_
    · intro x d q m us hm hq hu hd
      simp only [Out.wp_ok]
      exact told_err (by omega) hq hu ⟨hd.1, posIn_mono_left hd.2 (by omega) (by omega)⟩
    · intro x q m us hm hq hu hx
      simp only [Out.wp_ok]
      obtain ⟨h0, j, h1, h2, h3, -, h4⟩ := hl.2 i rfl
      refine hstart (us := ks ++ us ++ [(1, j)]) hm hq.task ?_ rfl
      refine (hk'.trans hu (by omega) (by omega)).task ⟨rfl, h3⟩ ?_ (fun h => absurd rfl h) (by omega) (by omega)
      intro hmem
      rcases List.mem_append.mp hmem with hmem | hmem
      · cases h0 _ hmem
      · obtain ⟨-, -, -, -, g⟩ := hu
        have := (g _ hmem).1
        omega
  · simp only [Out.wp_ok]
    exact told_here ha hp hk' (fun pos hs => by cases hs) (by simp)

theorem parseList_told (hc : ToldRec l rec) (hp : At l k p) (ha : a ≤ k) (hk : Keyed l a k p0 p ks) {close keep} :
    (parseList rec n close keep p).wp fun r => ∃ m us, a ≤ m ∧ k ≤ m ∧ At l m r.2.2 ∧ Keyed l a (m + 1) p0 r.2.2 us ∧
      ∀ d, r.2.1 = some d → DiagIn l a (m + 1) d := by
  unfold parseList
  refine Out.wp_bind.mpr ?_
  intro q hq
  refine loopOut_wp (I := fun s => ∃ m us, k ≤ m ∧ At l m s.2 ∧ Keyed l a m p0 s.2 us) ?_ n _
    ⟨k + 1, ks, by omega, hp.next hq, (hk.next hq).mono (Nat.le_refl _) (by omega)⟩
  rintro ⟨es, s⟩ ⟨m, us, h1, h2, h3⟩
  unfold listStep
  split
  · simp only [Out.wp_ok]
    exact ⟨m, us, by omega, h1, h2, h3.mono (Nat.le_refl _) (by omega), fun d h => by cases h⟩
  · refine Out.wp_bind.mpr ((hc _ _ _ h2).mono ?_)
    rintro ⟨x, e, q⟩ ⟨m', us', g1, g2, g3, g4⟩
    have g3' := h3.trans g3 (by omega) (by omega)
    cases e with
    | some d =>
      simp only [Out.wp_ok]
      refine ⟨m', _, by omega, by omega, g2, g3', fun d' h => ?_⟩
      cases h
      exact ⟨g4.1, posIn_mono_left g4.2 (by omega) (by omega)⟩
    | none =>
      refine Out.wp_bind.mpr ?_
      intro r hr
      simp only [Out.wp_ok]
      exact ⟨m' + 1, _, by omega, g2.next hr, g3'.next hr⟩

theorem list_told {F : List Node → Node} {close keep} (hc : ToldRec l rec) (hp : At l k p) (ha : a ≤ k)
    (hk : Keyed l a k p0 p ks)
    (hF : ∀ es, (F es).start = .ok p.pos ∧ (F es).kind ≠ .floatLit ∧ (F es).kind ≠ .intLit ∧ ∀ i, F es ≠ .ident i) :
    ((parseList rec n close keep p) >>= fun r => (.ok (F r.1, r.2.1, r.2.2) : PRes)).wp (Told l a p0) := by
  refine Out.wp_bind.mpr ((parseList_told hc hp ha hk).mono ?_)
  rintro ⟨es, e, q⟩ ⟨m, us, h1, h2, h3, h4, h5⟩
  simp only [Out.wp_ok]
  cases e with
  | some d => exact told_err h1 h3 h4 (h5 d rfl)
  | none =>
    obtain ⟨g1, g2, g3, g4⟩ := hF es
    refine told_here h1 h3 h4 (fun pos hs => ?_) g4
    rw [g1] at hs
    cases hs
    exact posIn_free (hp.posIn (ok := fun _ => True) ha (by omega) trivial) ⟨g2, g3⟩

/-- The tokens from number `a` to before `k` are comments. -/
def Remarks (l : Lexer) (a k : Nat) : Prop := ∀ m u, a ≤ m → m < k → Idx l m u → u.tok = .COMMENT

theorem parseComment_told (hp : At l a p) (hcur : p.cur = .COMMENT) :
    (parseComment n p).wp fun r => ∃ k, a ≤ k ∧ At l k r.2.2 ∧ Remarks l a (k + 1) ∧ r.2.2.tasks = p.tasks ∧
      r.2.1 = none ∧ r.1.start = .ok p.pos ∧ r.1.kind ≠ .floatLit ∧ r.1.kind ≠ .intLit ∧ ∀ i, r.1 ≠ .ident i := by
  have one : ∀ {k} {q : PState}, At l k q → q.cur = .COMMENT → Remarks l a k → Remarks l a (k + 1) := by
    intro k q hq hc hr m u h1 h2 h3
    by_cases hm : m < k
    · exact hr m u h1 hm h3
    · cases (by omega : m = k)
      rw [h3.unique hq.idx]
      exact hc
  unfold parseComment
  refine Out.wp_bind.mpr ((loopOut_wp
    (I := fun s => ∃ k, a ≤ k ∧ At l k s.2 ∧ Remarks l a (k + 1) ∧ s.2.tasks = p.tasks ∧ ∃ c cs, s.1 = c :: cs ∧ c.pos = p.pos)
    (Q := fun s => ∃ k, a ≤ k ∧ At l k s.2 ∧ Remarks l a (k + 1) ∧ s.2.tasks = p.tasks ∧ ∃ c cs, s.1 = c :: cs ∧ c.pos = p.pos)
    ?_ n _ ⟨a, Nat.le_refl _, hp, one hp hcur fun m u h1 h2 => by omega, rfl, _, [], rfl, rfl⟩).mono ?_)
  · rintro s ⟨k, h1, h2, h3, h4, c, cs, h5, h6⟩
    unfold commentStep
    split
    · rename_i hpk
      refine Out.wp_bind.mpr ?_
      intro q hq
      simp only [Out.wp_ok]
      have hqc : q.cur = .COMMENT := by rw [(next_fields hq).1, hpk]
      exact ⟨k + 1, by omega, h2.next hq, one (h2.next hq) hqc h3, by rw [(next_fields hq).2.2.2.2.1, h4], c, _,
        by rw [h5]; rfl, h6⟩
    · simp only [Out.wp_ok]
      exact ⟨k, h1, h2, h3, h4, c, cs, h5, h6⟩
  · rintro ⟨cs, q⟩ ⟨k, h1, h2, h3, h4, c, cs', h5, h6⟩
    dsimp only at h5
    subst h5
    cases cs' with
    | nil => simp only [Out.wp_ok]; exact ⟨k, h1, h2, h3, h4, trivial, by rw [← h6]; rfl, by simp [Node.kind]⟩
    | cons => simp only [Out.wp_ok]; exact ⟨k, h1, h2, h3, h4, trivial, by rw [← h6]; rfl, by simp [Node.kind]⟩

theorem nudOf_told (hc : ToldRec l rec) (hp : At l k p) (ha : a ≤ k) (ht : p.tasks = p0.tasks) (hr : Remarks l a k) {f}
    (hf : nudOf rec n p.cur = some f) : (f p).wp (Told l a p0) := by
  have hk : Keyed l a k p0 p [] := ⟨[], by simp [ht], .nil, listed_nil, by simp⟩
  have hk' := hk.mono (Nat.le_refl a) (Nat.le_succ k)
  have here : ∀ {x : Node}, x.start = .ok p.pos → (∀ i, x ≠ .ident i) → (startOk x p.cur) →
      Told l a p0 (x, none, p) := by
    intro x h1 h2 h3
    refine told_here ha hp hk' (fun pos hs => ?_) h2
    rw [h1] at hs
    cases hs
    exact hp.posIn ha (by omega) h3
  have err : ∀ {x : Node} {d : Diag}, d.start = p.pos → onlyDeferred d.msg = false →
      d.msg ≠ .floatInIntRange ∧ d.msg ≠ .intInFloatRange → Told l a p0 (x, some d, p) :=
    fun h1 h2 h3 => err_here hp ha hk' h2 h3 h1
  have pfx : ∀ {F : Node × Option Diag × PState → PRes} {G : Node → Node},
      (∀ x q, F (x, none, q) = .ok (G x, none, q)) → (∀ x d q, ∃ y, F (x, some d, q) = .ok (y, some d, q)) →
      (∀ x, (G x).start = .ok p.pos ∧ (G x).kind ≠ .floatLit ∧ (G x).kind ≠ .intLit ∧ ∀ i, G x ≠ .ident i) →
      (nextEntry rec p >>= F).wp (Told l a p0) := by
    intro F G h1 h2 h3
    refine prefix_told hc hp ha hk fun x e q => ?_
    cases e with
    | none =>
      rw [h1]
      simp only [Out.wp_ok]
      obtain ⟨g1, g2, g3, g4⟩ := h3 x
      exact ⟨trivial, trivial, fun _ => ⟨g4, g1, g2, g3⟩⟩
    | some d =>
      obtain ⟨y, hy⟩ := h2 x d q
      rw [hy]
      simp
  generalize hcur : p.cur = tok at hf
  unfold nudOf at hf
  split at hf <;> cases hf
  · unfold parseNamedIdentifier
    have hid : Idx l k ⟨.IDENT, p.pos, p.lit⟩ := by
      have := hp.idx
      unfold PState.curTok at this
      rwa [hcur] at this
    have hn : ∀ {b ks}, k < b → (∀ κ ∈ ks, κ.1 = 0 ∧ κ.2 ≤ k) → NodeIn l a b (.ident ⟨p.pos, p.lit⟩) ks := by
      intro b ks hb h0
      refine ⟨fun pos hs => ?_, fun i hi => ?_⟩
      · cases hs
        exact hp.posIn ha hb (by simp [startOk, Node.kind])
      · cases hi
        exact ⟨fun κ h => (h0 κ h).1, k, ha, hb, hid, fun κ h => (h0 κ h).2, hr⟩
    split
    · simp
    · split
      · simp only [Out.wp_ok]
        exact ⟨k, [(0, k)], ha, hp.task, hk'.task ⟨rfl, hid⟩ (by simp) (by simp) ha (by omega), hn (by omega) (by simp)⟩
      · simp only [Out.wp_ok]
        exact ⟨k, [], ha, hp, hk', hn (by omega) (by simp)⟩
  · simp only [parseBooleanType, Out.wp_ok]; exact here rfl (by simp) (by simp [startOk, Node.kind])
  · unfold parseBooleanLiteral
    split
    · simp only [Out.wp_ok]; exact here rfl (by simp) (by simp [startOk, Node.kind])
    · split
      · simp only [Out.wp_ok]; exact here rfl (by simp) (by simp [startOk, Node.kind])
      · simp only [Out.wp_ok]; exact err rfl rfl (by simp)
  · unfold parseBooleanLiteral
    split
    · simp only [Out.wp_ok]; exact here rfl (by simp) (by simp [startOk, Node.kind])
    · split
      · simp only [Out.wp_ok]; exact here rfl (by simp) (by simp [startOk, Node.kind])
      · simp only [Out.wp_ok]; exact err rfl rfl (by simp)
  · simp only [parseTstrType, Out.wp_ok]; exact here rfl (by simp) (by simp [startOk, Node.kind])
  · simp only [parseTstrType, Out.wp_ok]; exact here rfl (by simp) (by simp [startOk, Node.kind])
  · simp only [parseTextLiteral, Out.wp_ok]; exact here rfl (by simp) (by simp [startOk, Node.kind])
  iterate 4
    · unfold parseFloatType parseFloatLiteral
      split
      · split
        · simp only [Out.wp_ok]; exact err rfl rfl (by simp [errExpected])
        · simp only [Out.wp_ok]; exact here rfl (by simp) (by simp [startOk, hcur])
      · simp only [Out.wp_ok]; exact here rfl (by simp) (by simp [startOk, Node.kind])
  · unfold parseUintType parseUintLiteral
    split
    · split
      · simp only [Out.wp_ok]; exact err rfl rfl (by simp [errExpected])
      · simp only [Out.wp_ok]; exact here rfl (by simp) (by simp [startOk, Node.kind])
    · simp only [Out.wp_ok]; exact here rfl (by simp) (by simp [startOk, Node.kind])
  · unfold parseIntegerType parseIntegerLiteral
    split
    · split
      · simp only [Out.wp_ok]; exact err rfl rfl (by simp [errExpected])
      · simp only [Out.wp_ok]; exact here rfl (by simp) (by simp [startOk, hcur])
    · simp only [Out.wp_ok]; exact here rfl (by simp) (by simp [startOk, Node.kind])
  · simp only [parseNegativeIntegerType, Out.wp_ok]; exact here rfl (by simp) (by simp [startOk, Node.kind])
  · simp only [parseBstrType, Out.wp_ok]; exact here rfl (by simp) (by simp [startOk, Node.kind])
  · simp only [parseBytesType, Out.wp_ok]; exact here rfl (by simp) (by simp [startOk, Node.kind])
  · simp only [parseNullType, Out.wp_ok]; exact here rfl (by simp) (by simp [startOk, Node.kind])
  · simp only [parseNullType, Out.wp_ok]; exact here rfl (by simp) (by simp [startOk, Node.kind])
  · exact list_told (F := .map p.pos) hc hp ha hk (by simp [Node.kind, Node.start])
  · exact list_told (F := .group p.pos) hc hp ha hk (by simp [Node.kind, Node.start])
  · exact list_told (F := .array p.pos) hc hp ha hk (by simp [Node.kind, Node.start])
  · refine (parseComment_told hp hcur).mono ?_
    rintro ⟨x, e, q⟩ ⟨m, h1, h2, -, h4, h5, h6, h7, h8, h9⟩
    cases h5
    refine told_here (ks := []) (by omega) h2 ⟨[], by simpa [ht] using h4, .nil, listed_nil, by simp⟩ (fun pos hs => ?_) h9
    dsimp only at h6
    rw [h6] at hs
    cases hs
    exact posIn_free (hp.posIn (ok := fun _ => True) ha (by omega) trivial) ⟨h7, h8⟩
  · exact pfx (G := .optional p.pos p.cur) (fun _ _ => rfl) (fun _ _ _ => ⟨_, rfl⟩) (by simp [Node.kind, Node.start])
  · refine parseOccurrence_told hc hp ha hk fun pos hs => ?_
    cases hs
    exact hp.posIn ha (by omega) trivial
  · refine parseOccurrence_told hc hp ha hk fun pos hs => ?_
    cases hs
    exact hp.posIn ha (by omega) trivial
  · exact pfx (G := .unwrap p.pos p.cur) (fun _ _ => rfl) (fun _ _ _ => ⟨_, rfl⟩) (by simp [Node.kind, Node.start])
  · exact parseTag_told hc hp ha hk
  · exact pfx (G := .enumeration p.pos p.cur) (fun _ _ => rfl) (fun _ _ _ => ⟨_, rfl⟩) (by simp [Node.kind, Node.start])

theorem ledOf_told (hc : ToldRec l rec) (hp : At l k p) (ha : a ≤ k) (hk : Keyed l a k p0 p ks)
    (hl : NodeIn l a k left ks) {f} (hf : ledOf rec p.cur = some f) : (f left p).wp (Told l a p0) := by
  generalize hcur : p.cur = tok at hf
  unfold ledOf at hf
  split at hf <;> cases hf
  all_goals first
    | exact parseColon_told hc hp ha hk hl
    | exact parseTypeChoice_told hc hp ha hk hl
    | exact parseComparatorOp_told hc hp ha hk
    | exact parseSizeOperator_told hc hp ha hk hl
    | exact parseRegexp_told hc hp ha hk hl
    | exact parseBits_told hc hp ha hk hl
    | exact parseBound_told hc hp ha hk hl (.inl hcur)
    | exact parseBound_told hc hp ha hk hl (.inr hcur)
    | exact parseOccurrence_told hc hp ha hk fun pos hs =>
        (hl.1 pos hs).mono (Nat.le_refl _) (by omega) fun _ _ => trivial
    | (simp only [parseComma, Out.wp_ok]
       refine ⟨k, ks, ha, hp, hk.mono (Nat.le_refl a) (Nat.le_succ k), fun pos hs => ?_, fun i hi => ?_⟩
       · exact posIn_mono_left (hl.1 pos hs) (Nat.le_refl _) (by omega)
       · obtain ⟨h0, j, h1, h2, h3⟩ := hl.2 i hi
         exact ⟨h0, j, h1, by omega, h3⟩)

theorem skipComment_told (hp : At l a p) : (skipComment n p).wp fun q => ∃ k, a ≤ k ∧ At l k q ∧ Remarks l a k ∧
    q.tasks = p.tasks := by
  unfold skipComment
  split
  · rename_i hcur
    refine Out.wp_bind.mpr ((parseComment_told hp hcur).mono ?_)
    rintro ⟨x, e, q⟩ ⟨k, h1, h2, h3, h4, -⟩ r hr
    exact ⟨k + 1, by omega, h2.next hr, h3, by rw [(next_fields hr).2.2.2.2.1]; exact h4⟩
  · simp only [Out.wp_ok]
    exact ⟨a, Nat.le_refl _, hp, fun m u h1 h2 => by omega, trivial⟩

theorem parseEntryBody_told (hc : ToldRec l rec) : ToldRec l (parseEntryBody rec n) := by
  intro prec a p hp
  unfold parseEntryBody
  refine Out.wp_bind.mpr ((skipComment_told hp).mono ?_)
  rintro q ⟨k, h1, h2, h3, h4⟩
  have hk : Keyed l a (k + 1) p q [] := ⟨[], by simp [h4], .nil, listed_nil, by simp⟩
  dsimp only
  split
  · simp only [Out.wp_ok]
    exact err_here h2 h1 hk rfl (by simp [errPrefix]) rfl
  · rename_i f hf
    have hnud : (f q).wp (Told l a p) := by
      unfold selectNud at hf
      split at hf
      · rename_i hi
        cases hf
        simp only [parseIdentifier, Out.wp_ok]
        have hid : Idx l k ⟨.IDENT, q.pos, q.lit⟩ := by
          have := h2.idx
          unfold PState.curTok at this
          rwa [hi.1] at this
        refine ⟨k, [], h1, h2, hk, fun pos hs => ?_, fun i hi => ?_⟩
        · cases hs
          exact h2.posIn h1 (by omega) (by simp [startOk, Node.kind])
        · cases hi
          exact ⟨by simp, k, h1, by omega, hid, by simp, h3⟩
      · exact nudOf_told hc h2 h1 h4 h3 hf
    refine Out.wp_bind.mpr (hnud.mono ?_)
    rintro ⟨x, e, q'⟩ hq'
    cases e with
    | some d => simp only [Out.wp_ok]; exact hq'
    | none =>
      refine loopOut_wp (I := fun s => Told l a p (s.1, none, s.2)) ?_ n _ hq'
      rintro ⟨x, s⟩ hs
      unfold ledStep
      split
      · split
        · simp only [Out.wp_ok]; exact hs
        · rename_i g hg
          refine Out.wp_bind.mpr ?_
          intro r hr
          obtain ⟨m, us, g1, g2, g3, g4⟩ := hs
          rw [← (next_fields hr).1] at hg
          refine Out.wp_bind.mpr ((ledOf_told hc (g2.next hr) (by omega) (g3.next hr) g4 hg).mono ?_)
          rintro ⟨x, e, q⟩ hq
          cases e with
          | some d => simp only [Out.wp_ok]; exact hq
          | none => simp only [Out.wp_ok]; exact hq
      · simp only [Out.wp_ok]; exact hs

theorem parseEntry_told (n : Nat) : ToldRec l (parseEntry n) := by
  induction n with
  | zero => intro prec a p _; exact Out.wp_hang.mpr trivial
  | succ n ih => exact parseEntryBody_told ih

/-- Diagnostics of the rules up to token number `k`, each at a token of its own rule; between two of them the
later rule begins, and not at the end of the file. -/
def Errs (l : Lexer) (k : Nat) (ds : List Diag) : Prop :=
  ∃ es, List.Forall₂ (fun d i => DiagIn l i (i + 1) d) ds es ∧
    es.Pairwise (fun i j => ∃ m t, i < m ∧ m ≤ j ∧ Idx l m t ∧ t.tok ≠ .EOF) ∧ ∀ i ∈ es, i < k

theorem diagIn_point {b : Nat} {d} (h : DiagIn l a b d) : ∃ i, a ≤ i ∧ i < b ∧ DiagIn l i (i + 1) d := by
  obtain ⟨h1, i, t, h2, h3, h4⟩ := h
  exact ⟨i, h2, h3, h1, i, t, by omega, by omega, h4⟩

theorem Errs.mono {b : Nat} {ds} (h : Errs l a ds) (hb : a ≤ b) : Errs l b ds := by
  obtain ⟨es, h1, h2, h3⟩ := h
  exact ⟨es, h1, h2, fun i hi => by have := h3 i hi; omega⟩

theorem Errs.add {b : Nat} {ds d t} (h : Errs l a ds) (hd : DiagIn l a b d) (ht : Idx l a t)
    (hE : t.tok ≠ .EOF) : Errs l b (ds ++ [d]) := by
  obtain ⟨i, h4, h5, h6⟩ := diagIn_point hd
  obtain ⟨es, h1, h2, h3⟩ := h
  refine ⟨es ++ [i], List.rel_append h1 (.cons h6 .nil), ?_, ?_⟩
  · refine List.pairwise_append.mpr ⟨h2, by simp, ?_⟩
    intro x hx y hy
    rw [List.mem_singleton] at hy
    subst hy
    exact ⟨a, t, h3 x hx, h4, ht, hE⟩
  · intro j hj
    rcases List.mem_append.mp hj with hj | hj
    · have := h3 j hj; omega
    · rw [List.mem_singleton] at hj; omega

theorem reach_errors (h : Reach p q) : q.errors = p.errors := by
  induction h with
  | refl => rfl
  | next _ hn ih => rw [(next_fields hn).2.2.2.2.2.1, ih]
  | task _ _ ih => exact ih

/-- What is known of a rule. -/
def RuleTold (l : Lexer) (a : Nat) (p : PState) (r : Node × Option Diag × PState) : Prop :=
  ∃ k ks, a ≤ k ∧ At l k r.2.2 ∧ Keyed l a (k + 1) p r.2.2 ks ∧
    match r.2.1 with
    | none => r.2.2.errors = p.errors ∨ ∃ d, r.2.2.errors = p.errors ++ [d] ∧ DiagIn l a (k + 1) d
    | some d => r.2.2.errors = p.errors ∧ DiagIn l a (k + 1) d

theorem ruleTrailing_told {b : Nat} (hp : At l k p) (hk : Keyed l a b p0 p ks) (hb : b ≤ k + 1) :
    (ruleTrailing p).wp fun r => ∃ m, k ≤ m ∧ At l m r.2 ∧ Keyed l a (m + 1) p0 r.2 ks ∧ r.2.errors = p.errors := by
  unfold ruleTrailing
  split
  · refine Out.wp_bind.mpr ?_
    intro q hq
    refine Out.wp_bind.mpr ?_
    intro r hr
    simp only [Out.wp_ok]
    exact ⟨k + 1 + 1, by omega, (hp.next hq).next hr, ((hk.next hq).next hr).mono (Nat.le_refl _) (by omega),
      by rw [(next_fields hr).2.2.2.2.2.1, (next_fields hq).2.2.2.2.2.1]⟩
  · simp only [Out.wp_ok]
    exact ⟨k, by omega, hp, hk.mono (Nat.le_refl _) hb, trivial⟩

theorem parseRule_told (hp : At l a p) : (parseRule n p).wp (RuleTold l a p) := by
  have here : ∀ {x : Node} {d : Diag}, d.start = p.pos → onlyDeferred d.msg = false →
      d.msg ≠ .floatInIntRange ∧ d.msg ≠ .intInFloatRange → ∀ b, a < b → DiagIn l a b d := by
    intro x d h1 h2 h3 b hb
    exact ⟨h2, h1 ▸ hp.posIn (Nat.le_refl _) hb (by rintro (h | h) <;> simp_all)⟩
  -- the entry of a rule
  have entry : ∀ {p1 p2 q : PState} {x e prec}, p.next = .ok p1 → p1.next = .ok p2 →
      parseEntry n prec p2 = .ok (x, e, q) → ∃ k ks, a ≤ k ∧ At l k q ∧ Keyed l a (k + 1) p q ks ∧
        q.errors = p.errors ∧ ∀ d, e = some d → DiagIn l a (k + 1) d := by
    intro p1 p2 q x e prec h1 h2 h3
    obtain ⟨m, us, g1, g2, ⟨ts, g3, g3'⟩, g4⟩ := parseEntry_told n prec _ _ ((hp.next h1).next h2) _ h3
    have ht : p2.tasks = p.tasks := by rw [(next_fields h2).2.2.2.2.1, (next_fields h1).2.2.2.2.1]
    refine ⟨m, us, by omega, g2, Keyed.mono (a := a + 1 + 1) ⟨ts, by rw [g3, ht], g3'⟩ (by omega) (by omega), ?_, ?_⟩
    · rw [reach_errors (parseEntry_reach n prec p2 _ h3), (next_fields h2).2.2.2.2.2.1, (next_fields h1).2.2.2.2.2.1]
    · rintro d rfl
      exact ⟨g4.1, posIn_mono_left g4.2 (by omega) (by omega)⟩
  unfold parseRule
  split
  · rename_i hcur
    intro r hr
    obtain ⟨k, h1, h2, -, h4, h5, -⟩ := parseComment_told hp hcur r hr
    refine ⟨k, [], h1, h2, ⟨[], by simp [h4], .nil, listed_nil, by simp⟩, ?_⟩
    rw [h5]
    exact .inl (reach_errors (parseComment_reach (.refl p) r hr))
  · refine Out.wp_bind.mpr ?_
    intro p1 h1
    dsimp only
    split
    · refine Out.wp_bind.mpr ?_
      rintro ⟨x, e, q⟩ hr
      unfold nextEntry at hr
      cases h2 : p1.next with
      | ok p2 =>
        rw [h2] at hr
        obtain ⟨k, ks, g1, g2, g3, g4, g5⟩ := entry h1 h2 hr
        cases e with
        | some d => simp only [Out.wp_ok]; exact ⟨k, ks, g1, g2, g3, g4, g5 d rfl⟩
        | none =>
          refine Out.wp_bind.mpr ((ruleTrailing_told g2 g3 (Nat.le_refl _)).mono ?_)
          rintro ⟨tc, p4⟩ ⟨m, i1, i2, ⟨ts, i3, i3'⟩, i4⟩
          dsimp only at i2 i3 i4
          refine Out.wp_bind.mpr ?_
          unfold declare
          split
          · simp only [Out.wp_ok]
            exact ⟨m, ks, by omega, i2, ⟨ts, i3, i3'⟩, .inl (by simpa [g4] using i4)⟩
          · refine Out.wp_bind.mpr (Out.wp_true.mono ?_)
            intro s _
            simp only [Out.wp_ok]
            refine ⟨m, ks, by omega, i2, ⟨ts, i3, i3'⟩, .inr ⟨_, by simp only [addError, i4, g4]; rfl, ?_⟩⟩
            exact here (x := .nil) rfl rfl (by simp) _ (by omega)
      | panic w => rw [h2] at hr; cases hr
      | hang => rw [h2] at hr; cases hr
    all_goals first
      | (refine Out.wp_bind.mpr ?_
         intro p2 h2
         refine Out.wp_bind.mpr ?_
         rintro ⟨x, e, q⟩ hr
         obtain ⟨k, ks, g1, g2, g3, g4, g5⟩ := entry h1 h2 hr
         cases e with
         | some d => simp only [Out.wp_ok]; exact ⟨k, ks, g1, g2, g3, g4, g5 d rfl⟩
         | none =>
           refine Out.wp_bind.mpr ((ruleTrailing_told g2 g3 (Nat.le_refl _)).mono ?_)
           rintro ⟨tc, p4⟩ ⟨m, i1, i2, i3, i4⟩
           simp only [Out.wp_ok]
           exact ⟨m, ks, by omega, i2, i3, .inl (by simpa [g4] using i4)⟩)
      | (simp only [Out.wp_ok]
         refine ⟨a + 1, [], by omega, hp.next h1, Keyed.next .refl h1, (next_fields h1).2.2.2.2.2.1, ?_⟩
         exact here (x := .nil) rfl rfl (by simp) _ (by omega))
  · simp only [Out.wp_ok]
    exact ⟨a, [], by omega, hp, .refl, rfl, here (x := .nil) rfl rfl (by simp [errExpected]) _ (by omega)⟩

/-- What is known between two rules. -/
def FileTold (l : Lexer) (p0 p : PState) : Prop :=
  ∃ k ks, At l k p ∧ Keyed l 0 k p0 p ks ∧ Errs l k p.errors

theorem fileStep_told {s : List Node × PState} (hw : FileTold l p0 s.2) :
    (fileStep n s).wp fun r => match r with
      | .inl t => FileTold l p0 t.2
      | .inr t => FileTold l p0 t.2 := by
  obtain ⟨a, us, h1, h2, h3⟩ := hw
  unfold fileStep
  split
  · simp only [Out.wp_ok]
    exact ⟨a, us, h1, h2, h3⟩
  · rename_i hE
    refine Out.wp_bind.mpr ((parseRule_told h1).mono ?_)
    rintro ⟨x, e, q⟩ ⟨k, ks, g1, g2, g3, g4⟩
    have g3' := h2.trans g3 (by omega) (by omega)
    refine Out.wp_bind.mpr ?_
    cases e with
    | none =>
      intro r hr
      simp only [Out.wp_ok]
      refine ⟨k + 1, _, g2.next hr, g3'.next hr, ?_⟩
      rw [(next_fields hr).2.2.2.2.2.1]
      rcases g4 with g4 | ⟨d, g4, g5⟩
      · dsimp only at g4 ⊢
        rw [g4]; exact h3.mono (by omega)
      · dsimp only at g4 ⊢
        rw [g4]; exact h3.add g5 h1.idx hE
    | some d =>
      intro r hr
      simp only [Out.wp_ok]
      refine ⟨k + 1, us ++ ks, At.next (p := q.addError d) g2 hr, Keyed.next (p := q.addError d) g3' hr, ?_⟩
      rw [(next_fields hr).2.2.2.2.2.1]
      obtain ⟨g4, g5⟩ := g4
      dsimp only [addError] at g4 ⊢
      rw [g4]; exact h3.add g5 h1.idx hE

end PState
end Cddlc
