import Verif.Lemmas.Places

/-! There are no more nodes than tokens read to make them. -/

namespace Cddlc
open Spec

theorem subsList_append (xs ys : List Node) : subsList (xs ++ ys) = subsList xs ++ subsList ys := by
  induction xs with
  | nil => simp [subsList]
  | cons x xs ih => simp [subsList, ih]

theorem subsList_single (x : Node) : subsList [x] = subs x := by simp [subsList]

theorem subsList_filter (f : Node → Bool) (xs : List Node) :
    (subsList (xs.filter f)).length ≤ (subsList xs).length := by
  induction xs with
  | nil => simp
  | cons x xs ih =>
    rw [List.filter_cons]
    split <;> simp only [subsList, List.length_append] <;> omega

theorem subs_leaf [Unicode] {p : PState} {x} (h : Leaf p x) : (subs x).length = 1 := by
  cases h <;> simp [subs]

theorem subs_pos {x : Node} (h : x ≠ .nil) : 1 ≤ (subs x).length := by
  cases x <;> simp [subs] at h ⊢

variable [Unicode] {l0 : Lexer} {p q q1 q2 r : PState}

/-- Between `p` and `q`, both included, at least `k` tokens were read. -/
def Weighs (l0 : Lexer) (p : PState) (k : Nat) (q : PState) : Prop := ∃ ws, k ≤ ws.length ∧ Spelt l0 p ws q

theorem Weighs.none (p : PState) : Weighs l0 p 0 p := ⟨[], by simp, .none p⟩

theorem Weighs.here (hc : p.cur ≠ .EOF) : Weighs l0 p 1 p := ⟨[p.pos], by simp, .here hc⟩

theorem Weighs.le {k m} (h : Weighs l0 p k q) (hm : m ≤ k) : Weighs l0 p m q := by
  obtain ⟨ws, h1, h2⟩ := h
  exact ⟨ws, by omega, h2⟩

theorem Weighs.and {k m} (h : Weighs l0 p k q) (hn : q.next = .ok q1) (h' : Weighs l0 q1 m r) :
    Weighs l0 p (k + m) r := by
  obtain ⟨ws, h1, h2⟩ := h
  obtain ⟨us, g1, g2⟩ := h'
  exact ⟨ws ++ us, by simp; omega, h2.and hn g2⟩

theorem Weighs.from {m} (hc : p.cur ≠ .EOF) (hn : p.next = .ok q) (h : Weighs l0 q m r) :
    Weighs l0 p (1 + m) r := (Weighs.here hc).and hn h

theorem Weighs.task {k} (h : Weighs l0 p k q) (t : Task) : Weighs l0 p k (q.addTask t) := by
  obtain ⟨ws, h1, h2⟩ := h
  exact ⟨ws, h1, h2.task t⟩

theorem Weighs.trail {k t} (h : Weighs l0 p k q) (ht : Trail q t r) : Weighs l0 p k r := by
  obtain ⟨ws, h1, h2⟩ := h
  exact ⟨_, by simp; omega, spelt_trail h2 ht⟩

theorem Weighs.occ {k m} (hc : p.cur ≠ .EOF) (ho : OccHead p m q) (h : Weighs l0 q k r) :
    Weighs l0 p (1 + k) r := by
  obtain ⟨ws, h1, h2⟩ := h
  exact ⟨_, by simp; omega, spelt_occ hc ho h2⟩

theorem Weighs.tag {a b} (hc : p.cur ≠ .EOF) (ht : TagHead p a b q) : Weighs l0 p 1 q :=
  ⟨_, by simp, spelt_tag hc ht⟩

theorem Weighs.infix {k m} (h : Weighs l0 p k q) (hp : q.peek ≠ .EOF) (hn : q.next = .ok q1)
    (hn' : q1.next = .ok q2) (h' : Weighs l0 q2 m r) : Weighs l0 p (k + (1 + m)) r :=
  h.and hn (.from (by rw [next_cur hn]; exact hp) hn' h')

theorem weighs_der {b xs} (h : Der b p xs q) : Weighs l0 p (subsList xs).length q := by
  have two : ∀ {t a b : Tok}, t = a ∨ t = b → a ≠ .EOF → b ≠ .EOF → t ≠ .EOF := by
    rintro t a b (h | h) ha hb <;> rw [h] <;> assumption
  induction h with
  | nil => exact .none _
  | cons _ hn _ ih1 ih2 =>
    rw [subsList_single] at ih1
    exact (ih1.and hn ih2).le (by simp [subsList])
  | skip hc hcs hn _ ih =>
    exact (Weighs.and ⟨_, Nat.zero_le _, spelt_comments hcs hc⟩ hn ih).le (by omega)
  | leaf hl =>
    rw [subsList_single, subs_leaf hl]
    exact ⟨_, by cases hl <;> simp [places], spelt_leaf hl⟩
  | ref hc => exact ((Weighs.here (by rw [hc]; decide)).task _).le (by simp [subsList, subs])
  | socket hc => exact (Weighs.here (by rw [hc]; decide)).le (by simp [subsList, subs])
  | @field p q q1 r r' v t hc hpk hn hn' hd ht ih =>
    refine (Weighs.from (p := p) (by rw [hc]; decide) hn
      (Weighs.from (by rw [next_cur hn, hpk]; decide) hn' (ih.trail ht))).le ?_
    simp only [subsList, subs, List.length_append, List.length_cons, List.length_nil]; omega
  | @group p q r es hc hn _ _ ih =>
    refine (Weighs.from (by rw [hc]; decide) hn ih).le ?_
    have := subsList_filter (fun e => e.kind.isGroupEntry) es
    simp only [subsList, subs, List.length_append, List.length_cons, List.length_nil]; omega
  | @array p q r es hc hn _ _ ih =>
    refine (Weighs.from (by rw [hc]; decide) hn ih).le ?_
    have := subsList_filter (fun e => e.kind.isGroupEntry) es
    simp only [subsList, subs, List.length_append, List.length_cons, List.length_nil]; omega
  | @map p q r es hc hn _ _ ih =>
    refine (Weighs.from (by rw [hc]; decide) hn ih).le ?_
    have := subsList_filter (fun e => !e.isNil) es
    simp only [subsList, subs, List.length_append, List.length_cons, List.length_nil]; omega
  | optional hc hn _ ih =>
    refine (Weighs.from (by rw [hc]; decide) hn ih).le ?_
    simp only [subsList, subs, List.length_append, List.length_cons, List.length_nil]; omega
  | unwrap hc hn _ ih =>
    refine (Weighs.from (by rw [hc]; decide) hn ih).le ?_
    simp only [subsList, subs, List.length_append, List.length_cons, List.length_nil]; omega
  | enumeration hc hn _ ih =>
    refine (Weighs.from (by rw [hc]; decide) hn ih).le ?_
    simp only [subsList, subs, List.length_append, List.length_cons, List.length_nil]; omega
  | occ0 hc ho _ ih =>
    refine (Weighs.occ (by rw [hc]; decide) ho ih).le ?_
    simp only [subsList, subs, List.length_append, List.length_cons, List.length_nil]; omega
  | occ1 hc ho _ ih =>
    refine (Weighs.occ (by rw [hc]; decide) ho ih).le ?_
    simp only [subsList, subs, List.length_append, List.length_cons, List.length_nil]; omega
  | tag hc ht _ => exact (Weighs.tag (by rw [hc]; decide) ht).le (by simp [subsList, subs])
  | @tagItem p q q1 q2 r r' a b x hc ht hpk hn hn' hd hcl ih =>
    have h1 := ((Weighs.tag (l0 := l0) (by rw [hc]; decide) ht).and hn (.none q1)).and hn' ih
    have h2 : 1 + 0 + (subsList [x]).length ≥ (subsList [Node.tag p.pos p.cur a b x]).length := by
      simp only [subsList, subs, List.length_append, List.length_cons, List.length_nil]; omega
    rcases hcl with ⟨_, rfl⟩ | ⟨_, hcl⟩
    · exact h1.le h2
    · exact (h1.and hcl (.none r')).le h2
  | colon _ hpk hn _ hn' _ ht ih1 ih2 =>
    refine (ih1.infix (two hpk (by decide) (by decide)) hn hn' (ih2.trail ht)).le ?_
    simp only [subsList, subs, List.length_append, List.length_cons, List.length_nil]; omega
  | comma _ _ hn ih => exact ih.and hn (.none _)
  | choice _ hpk hn hn' _ ih1 ih2 =>
    refine (ih1.infix (two hpk (by decide) (by decide)) hn hn' ih2).le ?_
    simp only [subsList, subs, List.length_append, List.length_cons, List.length_nil]; omega
  | size _ hpk hn _ hn' _ ih1 ih2 =>
    refine (ih1.infix (by rw [hpk]; decide) hn hn' ih2).le ?_
    simp only [subsList, subs, List.length_append, List.length_cons, List.length_nil]; omega
  | regexp _ hpk hn _ hn' _ ih1 ih2 =>
    refine (ih1.infix (by rw [hpk]; decide) hn hn' ih2).le ?_
    simp only [subsList, subs, List.length_append, List.length_cons, List.length_nil]; omega
  | bits _ hpk hn hn' _ ih1 ih2 =>
    refine (ih1.infix (by rw [hpk]; decide) hn hn' ih2).le ?_
    simp only [subsList, subs, List.length_append, List.length_cons, List.length_nil]; omega
  | @compare p q q1 q2 r left right _ hpk hn hk hn' _ ih1 ih2 =>
    refine (ih1.infix (by intro h; rw [h] at hpk; simp at hpk) hn hn' ih2).le ?_
    have : 1 ≤ (subs left).length := subs_pos (by rintro rfl; simp [Node.kind] at hk)
    simp only [subsList, subs, List.length_append, List.length_cons, List.length_nil]; omega
  | occ _ hpk hn _ ho _ ih1 ih2 =>
    refine (ih1.and hn (Weighs.occ
      (by rw [next_cur hn]; exact two hpk (by decide) (by decide)) ho ih2)).le ?_
    simp only [subsList, subs, List.length_append, List.length_cons, List.length_nil]; omega
  | rangeEmpty _ hpk hn _ _ _ ih =>
    refine (ih.and hn (.here (by rw [next_cur hn]; exact two hpk (by decide) (by decide)))).le ?_
    simp only [subsList, subs, List.length_append, List.length_cons, List.length_nil]; omega
  | rangeIdent _ hpk hn hn' _ ih1 ih2 =>
    refine ((ih1.infix (two hpk (by decide) (by decide)) hn hn' ih2).task _).le ?_
    simp only [subsList, subs, List.length_append, List.length_cons, List.length_nil]; omega
  | rangeInt _ hpk hn hn' _ ih1 ih2 =>
    refine (ih1.infix (two hpk (by decide) (by decide)) hn hn' ih2).le ?_
    simp only [subsList, subs, List.length_append, List.length_cons, List.length_nil]; omega
  | rangeIntIdent _ hpk hn hn' _ ih1 ih2 =>
    refine ((ih1.infix (two hpk (by decide) (by decide)) hn hn' ih2).task _).le ?_
    simp only [subsList, subs, List.length_append, List.length_cons, List.length_nil]; omega
  | rangeIntOther _ hpk hn hn' _ _ _ _ ih1 ih2 =>
    refine (ih1.infix (two hpk (by decide) (by decide)) hn hn' ih2).le ?_
    simp only [subsList, subs, List.length_append, List.length_cons, List.length_nil]; omega
  | rangeFloat _ hpk hn hn' _ ih1 ih2 =>
    refine (ih1.infix (two hpk (by decide) (by decide)) hn hn' ih2).le ?_
    simp only [subsList, subs, List.length_append, List.length_cons, List.length_nil]; omega
  | rangeFloatIdent _ hpk hn hn' _ ih1 ih2 =>
    refine ((ih1.infix (two hpk (by decide) (by decide)) hn hn' ih2).task _).le ?_
    simp only [subsList, subs, List.length_append, List.length_cons, List.length_nil]; omega
  | rangeFloatOther _ hpk hn hn' _ _ _ _ ih1 ih2 =>
    refine (ih1.infix (two hpk (by decide) (by decide)) hn hn' ih2).le ?_
    simp only [subsList, subs, List.length_append, List.length_cons, List.length_nil]; omega

/-- The number of nodes of a rule or a comment, with one more for the sign of assignment of a rule. -/
def ruleSize : Node → Nat
  | .rule _ _ v _ => 2 + (subs v).length
  | x => (subs x).length

theorem weighs_rule {p1 p2 p3 p4 : PState} {x tc} (hc : p.cur = .IDENT) (h1 : p.next = .ok p1) (hc1 : p1.cur ≠ .EOF)
    (h2 : p1.next = .ok p2) (hd : Der false p2 [x] p3) (ht : RuleTrail p3 tc p4) :
    Weighs l0 p (2 + (subs x).length) p4 := by
  have hx := weighs_der (l0 := l0) hd
  rw [subsList_single] at hx
  have h : Weighs l0 p (2 + (subs x).length) p3 :=
    (Weighs.from (by rw [hc]; decide) h1 (.from hc1 h2 hx)).le (by omega)
  cases ht with
  | none => exact h
  | some hp _ hn hn' => exact (h.and hn (.none _)).and hn' (.none _)

theorem Weighs.congr {k} (h : Weighs l0 p k q) (h1 : r.lx = q.lx) (h2 : r.curTok = q.curTok)
    (h3 : r.peekTok = q.peekTok) : Weighs l0 p k r := by
  obtain ⟨ws, g1, g2⟩ := h
  exact ⟨ws, g1, g2.congr h1 h2 h3⟩

theorem weighs_step {e err} (h : RuleStep p e err q) : Weighs l0 p (ruleSize e) q := by
  have asg : ∀ {t : Tok}, t = .TYPE_CHOICE_ASSIGN ∨ t = .GROUP_CHOICE_ASSIGN → t ≠ .EOF := by
    rintro t (h | h) <;> rw [h] <;> decide
  cases h with
  | comment hc hcs =>
    refine ⟨_, ?_, spelt_comments (l0 := l0) hcs hc⟩
    unfold PState.commentNode
    split <;> simp [ruleSize, subs]
  | bound hc h1 ha h2 hd ht _ => exact (weighs_rule hc h1 (by rw [ha]; decide) h2 hd ht).congr rfl rfl rfl
  | dup hc h1 ha h2 hd ht _ _ => exact (weighs_rule hc h1 (by rw [ha]; decide) h2 hd ht).congr rfl rfl rfl
  | choice hc h1 ha h2 hd ht => exact weighs_rule hc h1 (asg ha) h2 hd ht
  | @failed p1 p2 q n prec y d hc h1 ha h2 _ hx =>
    have hr := PState.parseEntry_reach n prec p2 _ hx
    refine (Weighs.from (by rw [hc]; decide) h1 (Weighs.from ?_ h2 ⟨[], Nat.le_refl _, spelt_reach hr⟩)).le ?_
    · rcases ha with ha | ha
      · rw [ha]; decide
      · exact asg ha
    · simp [ruleSize, subs]
  | noAssign _ h1 => exact ⟨[], by simp [ruleSize, subs], spelt_reach (.next (.refl _) h1)⟩
  | noIdent => exact .none _

theorem weighs_run {rules} (h : FileRun p rules q) : Weighs l0 p (rules.map ruleSize).sum q := by
  induction h with
  | stop => exact .none _
  | @step p q r s e err rules _ hst hn _ ih =>
    have hf := PState.record_fields q err
    refine (((weighs_step hst).congr hf.2.1 hf.2.2.1 hf.2.2.2.1).and hn ih).le ?_
    split <;> simp

end Cddlc
