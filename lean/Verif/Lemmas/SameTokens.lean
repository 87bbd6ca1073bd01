import Verif.Lemmas.Prefix
import Verif.Lemmas.PrefixLex
import Mathlib.Data.List.Induction

/-! Sources with the same tokens are parsed to the same tree; strings that the end of a line cuts off. -/

namespace Cddlc
open Spec Lexer PState

section
variable [Unicode]

/-- The second lexer returns all the tokens that the first returns. -/
def Follows (l m : Lexer) : Prop := ∀ ts l', Scans l ts l' → ∃ m', Scans m ts m'

def followTwins : Twins := .ofLexers (fun _ _ => False) Follows (fun h => h.elim) (by
    intro l m t x s l' h hs
    obtain ⟨m', hm⟩ := h [⟨t, x, s⟩] l' (.cons hs (.nil _))
    cases hm with
    | cons h1 h2 =>
      cases h2
      refine .inr ⟨_, h1, fun ts l'' hts => ?_⟩
      obtain ⟨m'', hm⟩ := h _ l'' (.cons hs hts)
      cases hm with
      | cons h3 h4 =>
        rw [h1] at h3
        cases h3
        exact ⟨_, h4⟩)

theorem sim_follows {S : Lexer → Lexer → Prop} (hS : ∀ {l m t x s l'}, S l m → l.scan = .ok (t, x, s, l') →
    ∃ m', m.scan = .ok (t, x, s, m') ∧ S l' m') {l m : Lexer} (h : S l m) : Follows l m := by
  intro ts l' hs
  induction hs generalizing m with
  | nil => exact ⟨m, .nil _⟩
  | cons h1 _ ih =>
    obtain ⟨m', h2, h3⟩ := hS h h1
    obtain ⟨m'', h4⟩ := ih h3
    exact ⟨m'', .cons h2 h4⟩

theorem file_same {n : Nat} (k : Nat) {acc rules : List Node} {p q : PState} {m : Side} (ht : followTwins.near p m)
    (h : loopOut (fileStep n) k (acc, p) = .ok (rules, q)) :
    ∃ m', followTwins.near q m' ∧ loopOut (fileStep n) k (acc, p⟪m⟫) = .ok (rules, q⟪m'⟫) := by
  induction k generalizing acc p m with
  | zero => cases h
  | succ k ih =>
    rw [loopOut, fileStep_eq] at h ⊢
    by_cases heof : p.cur = .EOF
    · rw [if_pos heof] at h
      cases h
      rw [if_pos heof]
      exact ⟨m, ht, rfl⟩
    · rw [if_neg heof] at h
      rw [if_neg heof]
      cases hr : parseRule n p with
      | panic w => rw [hr] at h; cases h
      | hang => rw [hr] at h; cases h
      | ok x =>
        obtain ⟨e, err, q1⟩ := x
        rw [hr] at h
        cases hnx : (q1.record err).next with
        | panic w => simp only [hnx, Out.bind_def, Out.bind] at h; cases h
        | hang => simp only [hnx, Out.bind_def, Out.bind] at h; cases h
        | ok p1 =>
          simp only [hnx, Out.bind_def, Out.bind] at h
          have hrf := record_fields q1 err
          rcases R_rule (T := followTwins) ht _ hr with hg | ⟨m1, ht1, hr1⟩
          · exact hg.elim
          · have hset : HasLx.set (e, err, q1) m1 = (e, err, q1⟪m1⟫) := rfl
            have hrec : q1⟪m1⟫.record err = (q1.record err)⟪m1.record err⟫ := by
              cases err <;> rfl
            have ht2 : followTwins.near (q1.record err) (m1.record err) := by
              obtain ⟨h1, h2⟩ := ht1
              rw [h2]
              cases err <;> exact ⟨h1, rfl⟩
            rw [hr1, hset]
            simp only [Out.bind_def, Out.bind, hrec]
            rcases rel_next ht2 _ hnx with hg | ⟨m2, ht3, hn2⟩
            · exact hg.elim
            · rw [hn2]
              exact ih ht3 h

/-- A source with all the tokens of another is parsed to the same, if the check for errors after the first two
tokens has the same outcome. -/
theorem source_same {n : Nat} {src src' : Bytes} {env : Env} {res : FileResult} (hf : Follows (Lexer.new src) (Lexer.new src'))
    (he : ∀ a b l l', Scans (Lexer.new src) [a, b] l → Scans (Lexer.new src') [a, b] l' → (l.errors = [] ↔ l'.errors = []))
    (h : parseSource n src env = .ok res) : ∃ res', parseSource n src' env = .ok res' ∧ res'.cddl = res.cddl ∧
      res'.errs = res.errs ∧ res'.final.env = res.final.env := by
  have hnew : Rel followTwins (PState.new (Lexer.new src) env) (PState.new (Lexer.new src') env) := by
    unfold PState.new
    exact Rel.bind (rel_next (m := ⟨Lexer.new src', .ILLEGAL, {}, [], [], env, []⟩) ⟨hf, rfl⟩) (fun q hq => past_next hq) fun q m hq => rel_next hq
  unfold parseSource at h ⊢
  cases hp : PState.new (Lexer.new src) env with
  | panic w => rw [hp] at h; cases h
  | hang => rw [hp] at h; cases h
  | ok p =>
    rw [hp] at h
    rcases hnew _ hp with hg | ⟨m, ht, hp'⟩
    · exact hg.elim
    rw [hp']
    have hs : Scans (Lexer.new src) [p.curTok, p.peekTok] p.lx := by simpa [Synced] using (new_synced p hp).1
    have hs' : Scans (Lexer.new src') [p.curTok, p.peekTok] m.lx := by
      have := (new_synced _ hp').1
      rw [ht.2] at this
      exact this
    have hee := he _ _ _ _ hs hs'
    dsimp only [Out.bind_def, Out.bind] at h ⊢
    show ∃ res', PState.parseFile n p⟪m⟫ = .ok res' ∧ _
    unfold parseFile at h ⊢
    by_cases hc : p.lx.errors = []
    · rw [if_neg (fun h => h hc)] at h
      rw [if_neg (fun h => h (hee.mp hc))]
      cases hl : loopOut (fileStep n) n ([], p) with
      | panic w => rw [hl] at h; cases h
      | hang => rw [hl] at h; cases h
      | ok x =>
        obtain ⟨rules, q⟩ := x
        rw [hl] at h
        cases h
        obtain ⟨m', hn, hm⟩ := file_same n (p := p) ht hl
        rw [hm]
        refine ⟨_, rfl, rfl, ?_, ?_⟩ <;> (rw [hn.2]; rfl)
    · rw [if_pos hc] at h
      rw [if_pos fun h => hc (hee.mpr h)]
      cases h
      refine ⟨_, rfl, rfl, rfl, ?_⟩
      exact congrArg Side.env ht.2

end

/-! ### Positions -/

theorem posAfter_one {d d' : List Char} (h : posAfter d = posAfter d') (c : Char) :
    posAfter (d ++ [c]) = posAfter (d' ++ [c]) := by
  have h1 : blen d = blen d' := Int.ofNat.inj (congrArg Pos.offset h)
  have h2 : (d.count '\n' : Int) + 1 = (d'.count '\n' : Int) + 1 := congrArg Pos.line h
  have h3 : (blen (trail d) : Int) + 1 = (blen (trail d') : Int) + 1 := congrArg Pos.column h
  unfold posAfter
  rw [trail_snoc, trail_snoc]
  simp only [blen_append, List.count_append, h1, Pos.mk.injEq, true_and]
  refine ⟨by push_cast; omega, ?_⟩
  split
  · exact ⟨rfl, trivial⟩
  · simp only [blen_append, and_true]; push_cast; omega

theorem posAfter_more {d d' : List Char} (h : posAfter d = posAfter d') (u : List Char) :
    posAfter (d ++ u) = posAfter (d' ++ u) := by
  induction u generalizing d d' with
  | nil => simpa using h
  | cons c u ih => simpa using ih (posAfter_one h c)

theorem posAfter_within {d u v : List Char} (hu : '\n' ∉ u) (hv : '\n' ∉ v) (h : blen u = blen v) :
    posAfter (d ++ u) = posAfter (d ++ v) := by
  have tr : ∀ {w : List Char}, '\n' ∉ w → trail (d ++ w) = trail d ++ w := by
    intro w
    induction w using List.reverseRecOn with
    | nil => simp
    | append_singleton w c ih =>
      intro hw
      simp only [List.mem_append, List.mem_singleton, not_or] at hw
      rw [← List.append_assoc, trail_snoc, if_neg (Ne.symm hw.2), ih hw.1, List.append_assoc]
  unfold posAfter
  rw [tr hu, tr hv]
  simp only [blen_append, h, List.count_append, List.count_eq_zero.mpr hu, List.count_eq_zero.mpr hv]

/-! ### Two texts that differ in a string -/

section
variable [Unicode]

/-- Two lexers with the same text ahead, at the same position. -/
def Level (l m : Lexer) : Prop :=
  ∃ cs cs' done done' r, Lexer.Clean cs l done r ∧ Lexer.Clean cs' m done' r ∧ posAfter done = posAfter done'

theorem level_step {l m l' : Lexer} {t x s} (h : Level l m) (hs : l.scan = .ok (t, x, s, l')) :
    ∃ m', m.scan = .ok (t, x, s, m') ∧ Level l' m' := by
  obtain ⟨cs, cs', done, done', r, h1, h2, hp⟩ := h
  obtain ⟨y, hy, rfl, rfl, rfl, hc, _⟩ := clean_scan_ok h1 hs
  have := clean_scan h2
  rw [hy] at this
  obtain ⟨m', hm, hc', _⟩ := this
  exact ⟨m', by rw [hm, posAfter_more hp], _, _, _, _, _, hc, hc', posAfter_more (posAfter_more hp _) _⟩

omit [Unicode] in
theorem string_quote (t b b' : List Char) : string (t ++ '"' :: b) = string (t ++ '"' :: b') := by
  unfold string
  have ht := takeWhile_stop (p := fun c => decide (c ≠ '"') && decide (c ≠ '\n')) (x := '"') (by decide) t
  dsimp only at ht ⊢
  rw [ht, ht]
  have hl : (t.takeWhile fun c => decide (c ≠ '"') && decide (c ≠ '\n')).length ≤ t.length := (List.takeWhile_prefix _).length_le
  rw [List.drop_append_of_le_length hl, List.drop_append_of_le_length hl]
  have hh : ∀ u : List Char, (u ++ '"' :: b).head? = (u ++ '"' :: b').head? := by intro u; cases u <;> rfl
  rw [hh]

/-- A lexeme that ends before a quote does not depend on what is behind the quote. -/
theorem lexeme_quote {c : Char} {t b b' : List Char} {x : Lexeme} (h : lexeme (c :: t ++ '"' :: b) = some x)
    (hx : x.len ≤ (c :: t).length) : lexeme (c :: t ++ '"' :: b') = some x := by
  by_cases hc : c = ';'
  · by_cases hn : '\n' ∈ t
    · obtain ⟨t1, t2, rfl⟩ := List.append_of_mem hn
      have := lexeme_stop (c := c) t1 (t2 ++ '"' :: b) (t2 ++ '"' :: b')
      simp only [List.cons_append, List.append_assoc] at this h ⊢
      rw [← this, h]
    · subst hc
      exfalso
      have hl : lexeme (';' :: t ++ '"' :: b) = some ⟨.COMMENT, enc ((t ++ '"' :: b).takeWhile (· ≠ '\n')),
          ((t ++ '"' :: b).takeWhile (· ≠ '\n')).length + 1, false⟩ := by
        unfold lexeme
        simp only [List.cons_append]
        rw [if_neg, if_neg (by decide)]
        · rfl
        · decide
      rw [hl] at h
      cases h
      have : (t ++ '"' :: b).takeWhile (· ≠ '\n') = t ++ '"' :: b.takeWhile (· ≠ '\n') := by
        rw [List.takeWhile_append_of_pos]
        · simp
        · intro a ha
          simp only [decide_eq_true_eq]
          rintro rfl
          exact hn ha
      dsimp only at hx
      rw [this] at hx
      simp only [List.length_append, List.length_cons] at hx
      omega
  · rw [← h]
    unfold lexeme
    simp only [List.cons_append, hc, if_false]
    have h1 : ∀ x, (t ++ '"' :: b').head? = some x ↔ (t ++ '"' :: b).head? = some x := fun x =>
      head_stop (p := fun o => o = some x) t b' b
    have h2 : ∀ x y, x ≠ '"' → y ≠ '"' → ((t ++ '"' :: b').take 2 = [x, y] ↔ (t ++ '"' :: b).take 2 = [x, y]) := by
      intro x y hne _
      clear hx
      rcases t with _ | ⟨u, _ | ⟨v, t⟩⟩
      · simp [Ne.symm hne]
      · simp
      · simp
    have h3 : (∃ d ∈ (t ++ '"' :: b').head?, uniIsLetter (d.toNat : Int) = true) ↔
        (∃ d ∈ (t ++ '"' :: b).head?, uniIsLetter (d.toNat : Int) = true) :=
      head_stop (p := fun o => ∃ d ∈ o, uniIsLetter (d.toNat : Int) = true) t b' b
    have w1 : ∀ b, (c :: (t ++ '"' :: b)).takeWhile idBody = (c :: t).takeWhile idBody := fun b =>
      takeWhile_stop (p := idBody) (by decide) (c :: t) b
    have w3 : ∀ b, (t ++ '"' :: b).takeWhile alpha = t.takeWhile alpha := fun b => takeWhile_stop (by decide) t b
    have n1 : number (c :: (t ++ '"' :: b')) = number (c :: (t ++ '"' :: b)) := number_stop (.inr rfl) t b' b
    simp only [h1, h2 '/' '=' (by decide) (by decide), h2 '.' '.' (by decide) (by decide), h3, w1, w3, n1,
      string_quote t b' b]

/-- Two texts behind a quote that make strings which differ in nothing but whether they are closed. -/
structure Pair (a b : List Char) where
  x : Lexeme
  y : Lexeme
  ha : string a = some x
  hb : string b = some y
  tok : x.tok = y.tok
  lit : x.lit = y.lit
  len : x.len = y.len
  pos : 0 < x.len
  bytes : blen (('"' :: a).take x.len) = blen (('"' :: b).take x.len)
  rest : ('"' :: a).drop x.len = ('"' :: b).drop x.len

def Pair.symm {a b : List Char} (h : Pair a b) : Pair b a where
  x := h.y
  y := h.x
  ha := h.hb
  hb := h.ha
  tok := h.tok.symm
  lit := h.lit.symm
  len := h.len.symm
  pos := h.len ▸ h.pos
  bytes := h.len ▸ h.bytes.symm
  rest := h.len ▸ h.rest.symm

/-- The lexers before the strings, which are the tokens after `ts`. -/
def BeforeStr (a b : List Char) (ts : List Token) (l m : Lexer) : Prop :=
  ∃ cs cs' done t y l', Lexer.Clean cs l done (t ++ '"' :: a) ∧ Lexer.Clean cs' m done (t ++ '"' :: b) ∧
    Scans l (ts ++ [y]) l' ∧ y.pos.offset = (blen (done ++ t) : Int)

omit [Unicode] in
theorem blen_pos {c : Char} {u : List Char} : 0 < blen (c :: u) := by
  have : blen (c :: u) = blen [c] + blen u := blen_append [c] u
  have h1 := blen_single_pos c
  omega

theorem lexeme_str (a : List Char) : lexeme ('"' :: a) = string a := by
  unfold lexeme
  dsimp only
  rw [if_neg (by decide), if_neg (by decide), if_neg (by decide), if_pos rfl]

/-- A token before the strings. -/
theorem before_cons {a b : List Char} {z : Token} {ts : List Token} {l m l1 : Lexer} {tok pos lit}
    (h : BeforeStr a b (z :: ts) l m) (hs : l.scan = .ok (tok, pos, lit, l1)) (hp : Pair a b) :
    ∃ m1, m.scan = .ok (tok, pos, lit, m1) ∧ BeforeStr a b ts l1 m1 ∧ (l.errors = m.errors → l1.errors = m1.errors) := by
  obtain ⟨cs, cs', done, t, y, l', h1, h2, h3, hy⟩ := h
  obtain ⟨x, hx, rfl, rfl, rfl, hc, he⟩ := clean_scan_ok h1 hs
  cases h3 with
  | cons g1 g2 =>
    rw [hs] at g1
    cases g1
    have hge := offsets_ge g2 hc y (by simp)
    rw [hy] at hge
    cases hd : t.dropWhile ws with
    | nil =>
      exfalso
      have ht : t.takeWhile ws = t := by
        have := List.takeWhile_append_dropWhile (p := ws) (l := t)
        rw [hd, List.append_nil] at this
        exact this
      have h4 : (t ++ '"' :: a).takeWhile ws = t := by
        rw [takeWhile_stop (by decide), ht]
      have h5 : (t ++ '"' :: a).dropWhile ws = '"' :: a := by
        have := List.takeWhile_append_dropWhile (p := ws) (l := t ++ '"' :: a)
        rw [h4] at this
        exact List.append_cancel_left this
      rw [h5, lexeme_str, hp.ha] at hx
      cases hx
      rw [h4, h5] at hge
      obtain ⟨k, hk⟩ : ∃ k, hp.x.len = k + 1 := ⟨hp.x.len - 1, by have := hp.pos; omega⟩
      rw [hk, List.take_succ_cons, blen_append (done ++ t)] at hge
      have := blen_pos (c := '"') (u := a.take k)
      omega
    | cons c u =>
      have hw : ∀ b, (t ++ '"' :: b).takeWhile ws = t.takeWhile ws := fun b => takeWhile_stop (by decide) t b
      have hdd : ∀ b, (t ++ '"' :: b).dropWhile ws = c :: u ++ '"' :: b := by
        intro b
        rw [List.dropWhile_append, hd]
        rfl
      have htt : t = t.takeWhile ws ++ (c :: u) := by rw [← hd, List.takeWhile_append_dropWhile]
      have hlen : x.len ≤ (c :: u).length := by
        refine Decidable.byContradiction fun hgt => ?_
        rw [hw, hdd] at hge
        obtain ⟨k, hk⟩ : ∃ k, x.len - (c :: u).length = k + 1 := ⟨x.len - (c :: u).length - 1, by omega⟩
        rw [List.take_append, List.take_of_length_le (by omega), hk, List.take_succ_cons] at hge
        have hb := congrArg blen htt
        simp only [blen_append] at hge hb
        have := blen_pos (c := '"') (u := a.take k)
        omega
      rw [hdd] at hx
      have hx' : lexeme ((t ++ '"' :: b).dropWhile ws) = some x := by
        rw [hdd]; exact lexeme_quote hx hlen
      have hsc := clean_scan h2
      rw [hx'] at hsc
      obtain ⟨m1, hs', hc', he'⟩ := hsc
      rw [hw, hdd, List.take_append_of_le_length hlen] at hc hc' he he'
      rw [List.drop_append_of_le_length hlen] at hc hc'
      refine ⟨m1, by rw [hs', hw, hw], ⟨_, _, _, _, y, l', hc, hc', g2, ?_⟩, fun h => ?_⟩
      · rw [hy, List.append_assoc, List.append_assoc, List.take_append_drop, ← htt]
      · rw [he, he', h]

/-- The strings. -/
theorem before_nil {a b : List Char} {l m l1 : Lexer} {tok pos lit}
    (h : BeforeStr a b [] l m) (hs : l.scan = .ok (tok, pos, lit, l1)) (hp : Pair a b) :
    ∃ m1, m.scan = .ok (tok, pos, lit, m1) ∧ Level l1 m1 := by
  obtain ⟨cs, cs', done, t, y, l', h1, h2, h3, hy⟩ := h
  obtain ⟨x, hx, rfl, rfl, rfl, hc, he⟩ := clean_scan_ok h1 hs
  cases h3 with
  | cons g1 g2 =>
    rw [hs] at g1
    cases g1
    dsimp only at hy
    have hy' : blen (done ++ (t ++ '"' :: a).takeWhile ws) = blen (done ++ t) := Int.ofNat.inj hy
    have hw : ∀ b, (t ++ '"' :: b).takeWhile ws = t.takeWhile ws := fun b => takeWhile_stop (by decide) t b
    have htt := List.takeWhile_append_dropWhile (p := ws) (l := t)
    have ht : t.takeWhile ws = t := by
      cases hd : t.dropWhile ws with
      | nil => rw [hd, List.append_nil] at htt; exact htt
      | cons c u =>
        rw [hw] at hy'
        have hb := congrArg blen htt
        rw [hd] at hb
        simp only [blen_append] at hy' hb
        have := blen_pos (c := c) (u := u)
        omega
    have hd : ∀ b, (t ++ '"' :: b).dropWhile ws = '"' :: b := by
      intro b
      have := List.takeWhile_append_dropWhile (p := ws) (l := t ++ '"' :: b)
      rw [hw, ht] at this
      exact List.append_cancel_left this
    have n1 := lexeme_no_nl hx
    have hx' : lexeme ((t ++ '"' :: b).dropWhile ws) = some hp.y := by rw [hd, lexeme_str, hp.hb]
    have n2 := lexeme_no_nl hx'
    have hsc := clean_scan h2
    rw [hx'] at hsc
    obtain ⟨m1, hs', hc', he'⟩ := hsc
    rw [hd, lexeme_str, hp.ha] at hx
    cases hx
    rw [hd] at n1 n2
    rw [hw, ht, hd] at hc hc'
    rw [← hp.len] at hc' n2
    rw [← hp.rest] at hc'
    refine ⟨m1, by rw [hs', hw, hw, hp.tok, hp.lit], _, _, _, _, _, hc, hc', ?_⟩
    exact posAfter_within n1 n2 hp.bytes

theorem before_follows {a b : List Char} {ts : List Token} {l m : Lexer} (h : BeforeStr a b ts l m) (hp : Pair a b) :
    Follows l m := by
  refine sim_follows (S := fun l m => (∃ ts, BeforeStr a b ts l m) ∨ Level l m) ?_ (.inl ⟨ts, h⟩)
  rintro l m t x s l' (⟨ts, h⟩ | h) hs
  · cases ts with
    | nil =>
      obtain ⟨m1, h1, h2⟩ := before_nil h hs hp
      exact ⟨m1, h1, .inr h2⟩
    | cons z ts =>
      obtain ⟨m1, h1, h2, _⟩ := before_cons h hs hp
      exact ⟨m1, h1, .inl ⟨ts, h2⟩⟩
  · obtain ⟨m1, h1, h2⟩ := level_step h hs
    exact ⟨m1, h1, .inr h2⟩

theorem before_errors {a b : List Char} {ts : List Token} {l m l2 m2 : Lexer} {u v : Token} (h : BeforeStr a b ts l m)
    (hp : Pair a b) (h2 : 2 ≤ ts.length) (he : l.errors = m.errors) (hl : Scans l [u, v] l2) (hm : Scans m [u, v] m2) :
    l2.errors = m2.errors := by
  obtain ⟨z, w, ts, rfl⟩ : ∃ z w ts', ts = z :: w :: ts' := by
    rcases ts with _ | ⟨z, _ | ⟨w, ts⟩⟩
    · simp at h2
    · simp at h2
    · exact ⟨_, _, _, rfl⟩
  cases hl with
  | cons h1 hl =>
    obtain ⟨m1, g1, g2, g3⟩ := before_cons h h1 hp
    cases hm with
    | cons k1 hm =>
      rw [g1] at k1
      cases k1
      cases hl with
      | cons h1' hl =>
        obtain ⟨m1', g1', g2', g3'⟩ := before_cons g2 h1' hp
        cases hm with
        | cons k1 hm =>
          rw [g1'] at k1
          cases k1
          cases hl
          cases hm
          exact g3' (g3 he)

omit [Unicode] in
theorem no_errors_new (src : Bytes) : (Lexer.new src).errors = [] := by
  unfold Lexer.new Lexer.next
  split
  · rfl
  · dsimp only
    split <;> rfl

/-- Two sources that differ in a string only, which is not one of the first two tokens. -/
theorem pair_source {n : Nat} {pre a b : List Char} {ts : List Token} {t : Token} {l : Lexer} {env : Env} {res : FileResult}
    (ha : '\uFFFD' ∉ pre ++ '"' :: a) (hb : '\uFFFD' ∉ pre ++ '"' :: b) (hp : Pair a b)
    (hs : Scans (Lexer.new (enc (pre ++ '"' :: a))) (ts ++ [t]) l) (ht : t.pos.offset = (enc pre).length)
    (h2 : 2 ≤ ts.length) (h : parseSource n (enc (pre ++ '"' :: a)) env = .ok res) :
    ∃ res', parseSource n (enc (pre ++ '"' :: b)) env = .ok res' ∧ res'.cddl = res.cddl ∧
      res'.errs = res.errs ∧ res'.final.env = res.final.env := by
  have hbef : BeforeStr a b ts (Lexer.new (enc (pre ++ '"' :: a))) (Lexer.new (enc (pre ++ '"' :: b))) :=
    ⟨_, _, [], pre, t, l, Lexer.clean_new ha, Lexer.clean_new hb, hs, by simpa [blen] using ht⟩
  refine source_same (before_follows hbef hp) ?_ h
  intro u v l l' h3 h4
  rw [before_errors hbef hp h2 (by rw [no_errors_new, no_errors_new]) h3 h4]

/-- The other way around, the tokens being given for the first. -/
theorem pair_source_back {n : Nat} {pre a b : List Char} {ts : List Token} {t : Token} {l : Lexer} {env : Env} {res : FileResult}
    (ha : '\uFFFD' ∉ pre ++ '"' :: a) (hb : '\uFFFD' ∉ pre ++ '"' :: b) (hp : Pair a b)
    (hs : Scans (Lexer.new (enc (pre ++ '"' :: a))) (ts ++ [t]) l) (ht : t.pos.offset = (enc pre).length)
    (h2 : 2 ≤ ts.length) (h : parseSource n (enc (pre ++ '"' :: b)) env = .ok res) :
    ∃ res', parseSource n (enc (pre ++ '"' :: a)) env = .ok res' ∧ res'.cddl = res.cddl ∧
      res'.errs = res.errs ∧ res'.final.env = res.final.env := by
  have hbef : BeforeStr a b ts (Lexer.new (enc (pre ++ '"' :: a))) (Lexer.new (enc (pre ++ '"' :: b))) :=
    ⟨_, _, [], pre, t, l, Lexer.clean_new ha, Lexer.clean_new hb, hs, by simpa [blen] using ht⟩
  obtain ⟨m, hm⟩ := before_follows hbef hp _ _ hs
  exact pair_source hb ha hp.symm hm ht h2 h

end

/-- A string that is cut off, and the string that a quote in place of its last character closes. -/
def cutPair {body rest : List Char} {c : Char} (hq : '"' ∉ body) (hn : '\n' ∉ body) (hc : c.toNat < 128) (hcq : c ≠ '"')
    (hcn : c ≠ '\n') (hr : rest = [] ∨ rest.head? = some '\n') : Pair (body ++ c :: rest) (body ++ '"' :: rest) where
  x := ⟨.TEXT_LITERAL, enc body, body.length + 2, true⟩
  y := ⟨.TEXT_LITERAL, enc body, body.length + 2, false⟩
  tok := rfl
  lit := rfl
  len := rfl
  pos := by simp
  ha := by
    have hb : ∀ d ∈ body ++ [c], (decide (d ≠ '"') && decide (d ≠ '\n')) = true := by
      intro d hd
      rcases List.mem_append.mp hd with hd | hd
      · simp only [Bool.and_eq_true, decide_eq_true_eq]
        exact ⟨fun h => hq (h ▸ hd), fun h => hn (h ▸ hd)⟩
      · rw [List.mem_singleton.mp hd]
        simp [hcq, hcn]
    have hw : (body ++ c :: rest).takeWhile (fun c => decide (c ≠ '"') && decide (c ≠ '\n')) = body ++ [c] := by
      rw [show body ++ c :: rest = (body ++ [c]) ++ rest by simp, List.takeWhile_append_of_pos hb]
      rcases hr with rfl | hr
      · simp
      · cases rest with
        | nil => simp
        | cons d rest => cases hr; simp
    unfold string
    dsimp only
    rw [hw, if_neg, if_neg (by simp)]
    · have : enc (body ++ [c]) = enc body ++ [UInt8.ofNat c.toNat] := by
        simp [enc, enc_ascii hc]
      rw [this]
      simp
    · rw [show body ++ c :: rest = (body ++ [c]) ++ rest by simp, List.drop_left]
      rcases hr with rfl | hr
      · simp
      · rw [hr]; decide
  hb := by
    have hb : ∀ d ∈ body, (decide (d ≠ '"') && decide (d ≠ '\n')) = true := by
      intro d hd
      simp only [Bool.and_eq_true, decide_eq_true_eq]
      exact ⟨fun h => hq (h ▸ hd), fun h => hn (h ▸ hd)⟩
    have hw : (body ++ '"' :: rest).takeWhile (fun c => decide (c ≠ '"') && decide (c ≠ '\n')) = body := by
      rw [List.takeWhile_append_of_pos hb]
      simp
    unfold string
    dsimp only
    rw [hw, if_pos (by simp)]
  bytes := by
    have ht : ∀ d : Char, ('"' :: (body ++ d :: rest)).take (body.length + 2) = '"' :: body ++ [d] := by
      intro d
      simp [List.take_append, List.take_of_length_le, show body.length + 1 - body.length = 1 by omega]
    rw [ht, ht, blen_append, blen_append, blen_ascii hc, blen_ascii (by decide)]
  rest := by
    have hd : ∀ d : Char, ('"' :: (body ++ d :: rest)).drop (body.length + 2) = rest := by
      intro d
      simp [List.drop_append, List.drop_of_length_le, show body.length + 1 - body.length = 1 by omega]
    rw [hd, hd]

end Cddlc
