import Verif.Lemmas.Listable
import Verif.Lemmas.File
import Verif.Spec.Tree

/-! Every node of a derived tree is made of tokens read, and every identifier in it left a task. -/

namespace Cddlc
open Spec
variable [Unicode]

theorem scans_split {l l' : Lexer} {ts us} (h : Scans l (ts ++ us) l') :
    ∃ m, Scans l ts m ∧ Scans m us l' := by
  induction ts generalizing l with
  | nil => exact ⟨l, .nil _, h⟩
  | cons t ts ih =>
    cases h with
    | cons h1 h2 =>
      obtain ⟨m, h3, h4⟩ := ih h2
      exact ⟨m, .cons h1 h3, h4⟩

theorem synced_tk {l0 ts} {p : PState} (h : Synced l0 ts p) : Tk l0 p.curTok ∧ Tk l0 p.peekTok := by
  constructor
  · have h' : Scans l0 ((ts ++ [p.curTok]) ++ [p.peekTok]) p.lx := by
      rw [List.append_assoc]; exact h
    obtain ⟨m, h1, _⟩ := scans_split h'
    exact ⟨ts, m, h1⟩
  · exact ⟨ts ++ [p.curTok], p.lx, by rw [List.append_assoc]; exact h⟩

/-- The parser is somewhere in the tokens of `l0`. -/
def On (l0 : Lexer) (p : PState) : Prop := ∃ ts, Synced l0 ts p

theorem On.next {l0} {p q : PState} (h : On l0 p) (hn : p.next = .ok q) : On l0 q := by
  obtain ⟨ts, h⟩ := h
  exact ⟨_, synced_next h hn⟩

theorem On.reach {l0} {p q : PState} (h : On l0 p) (hr : Reach p q) : On l0 q := by
  obtain ⟨ts, h⟩ := h
  obtain ⟨ext, h⟩ := synced_reach h hr
  exact ⟨_, h⟩

theorem On.tk {l0} {p : PState} (h : On l0 p) : Tk l0 ⟨p.cur, p.pos, p.lit⟩ := by
  obtain ⟨ts, h⟩ := h
  exact (synced_tk h).1

theorem On.tkAt {l0} {p : PState} (h : On l0 p) : TkAt l0 p.cur p.pos := ⟨_, h.tk⟩

/-- The identifier left a task, or is a socket or plug. -/
def HasTask (tasks : List Task) (y : Node) : Prop :=
  ∀ i, y = .ident i → (∃ s, i.name = 36 :: s) ∨ Task.exists i.name i.pos ∈ tasks

/-- What holds of every node of a derived tree. -/
def Good (l0 : Lexer) (tasks : List Task) (x : Node) : Prop :=
  x.isNil = false ∧ ∀ y ∈ subs x, FromTokens l0 y ∧ HasTask tasks y

theorem Good.mono {l0 tasks tasks' x} (h : Good l0 tasks x) (ht : tasks <+: tasks') :
    Good l0 tasks' x := by
  refine ⟨h.1, fun y hy => ⟨(h.2 y hy).1, fun i hi => ?_⟩⟩
  rcases (h.2 y hy).2 i hi with h | h
  · exact Or.inl h
  · exact Or.inr (ht.subset h)

theorem Good.reach {l0 x} {p q : PState} (h : Good l0 p.tasks x) (hr : Reach p q) :
    Good l0 q.tasks x := h.mono hr.frame.2.2

theorem Good.self {l0 tasks x} (h : Good l0 tasks x) : FromTokens l0 x := by
  have hx : x ∈ subs x := by
    have := h.1
    cases x <;> first | (simp [subs]; done) | cases this
  exact (h.2 x hx).1

/-- A node without children. -/
theorem good_leaf {l0 tasks x} (hs : subs x = [x]) (hf : FromTokens l0 x) (ht : HasTask tasks x) :
    Good l0 tasks x := by
  refine ⟨?_, fun y hy => ?_⟩
  · cases x <;> first | rfl | cases hs
  · rw [hs, List.mem_singleton] at hy; subst hy; exact ⟨hf, ht⟩

/-- A node whose children are good. -/
theorem good_node {l0 tasks x} {ys : List Node} (hs : subs x = x :: ys) (hf : FromTokens l0 x)
    (ht : HasTask tasks x) (hy : ∀ y ∈ ys, FromTokens l0 y ∧ HasTask tasks y) :
    Good l0 tasks x := by
  refine ⟨?_, fun y hy' => ?_⟩
  · cases x <;> first | rfl | cases hs
  · rw [hs, List.mem_cons] at hy'
    rcases hy' with rfl | h
    · exact ⟨hf, ht⟩
    · exact hy y h

omit [Unicode] in
theorem noTask {tasks x} (h : x.kind ≠ .ident) : HasTask tasks x := by
  intro i hi; rw [hi] at h; exact absurd rfl h

theorem good_of_leaf {l0} {p : PState} {x} (hp : On l0 p) (h : Leaf p x) : Good l0 p.tasks x := by
  have hk := hp.tk
  have ha := hp.tkAt
  cases h with
  | boolType hc => exact good_leaf rfl ⟨hc, ha⟩ (noTask nofun)
  | true hc hl => exact good_leaf rfl ⟨p.cur, hc, by rw [hl] at hk; exact hk, rfl⟩ (noTask nofun)
  | false hc hl => exact good_leaf rfl ⟨p.cur, hc, by rw [hl] at hk; exact hk, rfl⟩ (noTask nofun)
  | tstr hc => exact good_leaf rfl ⟨hc, ha⟩ (noTask nofun)
  | text hc => exact good_leaf rfl ⟨hc, hk⟩ (noTask nofun)
  | floatLit hc _ hv => exact good_leaf rfl ⟨p.lit, hk, hv, by simpa using hc, rfl⟩ (noTask nofun)
  | floatType hc hn =>
    have : p.lit = p.cur.text := by
      rcases hc with hc | hc | hc | hc <;> rw [hc] at hn ⊢ <;> simpa [Tok.isLiteral] using hn
    exact good_leaf rfl ⟨by simpa using hc, this ▸ hk⟩ (noTask nofun)
  | uintLit hc _ hv => exact good_leaf rfl ⟨p.lit, by rw [hc] at hk; exact hk, hv⟩ (noTask nofun)
  | uintType hc hn =>
    have : p.lit = b!"uint" := by
      rw [hc] at hn; exact Classical.not_not.mp (of_decide_eq_false hn)
    exact good_leaf rfl ⟨hc, this ▸ hk, rfl⟩ (noTask nofun)
  | intLit hc _ hv => exact good_leaf rfl ⟨hc, p.lit, hk, hv⟩ (noTask nofun)
  | intType hc hn =>
    have : p.lit = b!"int" := by
      rw [hc] at hn; exact Classical.not_not.mp (of_decide_eq_false hn)
    exact good_leaf rfl ⟨hc, this ▸ hk⟩ (noTask nofun)
  | nint hc => exact good_leaf rfl ⟨hc, ha⟩ (noTask nofun)
  | bstr hc => exact good_leaf rfl ⟨hc, ha⟩ (noTask nofun)
  | bytes hc => exact good_leaf rfl ⟨hc, ha⟩ (noTask nofun)
  | null hc => exact good_leaf rfl ⟨hc, ha⟩ (noTask nofun)

theorem occHead_good {l0} {p q : PState} {m} (hp : On l0 p) (h : OccHead p m q) :
    ∀ u ∈ m, ∃ lit, Tk l0 ⟨.INT, u.pos, lit⟩ ∧ parseUint lit = .ok u.value := by
  cases h with
  | none => intro u hu; cases hu
  | some h1 h2 h3 h4 =>
    intro u hu
    cases hu
    have hk := (hp.next h3).tk
    rw [next_cur h3, h1] at hk
    exact ⟨_, hk, h4⟩

/-- What was read before stays good. -/
theorem tagHead_good {l0} {p q : PState} {a b} (hp : On l0 p) (h : TagHead p a b q) :
    TagNumbers l0 a b := by
  cases h with
  | none => exact Or.inl ⟨rfl, rfl⟩
  | major hpk hn hv =>
    have := (hp.next hn).tk
    rw [next_cur hn, hpk] at this
    exact Or.inr (Or.inl ⟨rfl, _, _, _, rfl, rfl, this, hv⟩)
  | @both q a b hpk hn hv =>
    have := (hp.next hn).tk
    rw [next_cur hn, hpk] at this
    unfold PState.parseFloatTag at hv
    split at hv
    · rename_i s0 s1 hsp
      split at hv
      · cases hv
      · rename_i h1
        split at hv
        · cases hv
        · rename_i h2
          cases hv
          exact Or.inr (Or.inr ⟨_, _, _, _, _, rfl, rfl, this, rfl, hsp, h1, h2⟩)
    · cases hv

theorem trail_tk {l0} {p q : PState} {t} (hp : On l0 p) (h : Trail p t q) :
    ∀ c ∈ t, Tk l0 ⟨.COMMENT, c.pos, c.text⟩ := by
  cases h with
  | none => simp
  | some hpk _ hn =>
    have hk := (hp.next hn).tk
    rw [next_cur hn, hpk] at hk
    simpa using hk

theorem good_two {l0 tasks a b} (ha : Good l0 tasks a) (hb : Good l0 tasks b) :
    ∀ y ∈ subs a ++ subs b, FromTokens l0 y ∧ HasTask tasks y := by
  intro y hy
  rcases List.mem_append.mp hy with h | h
  · exact ha.2 y h
  · exact hb.2 y h

theorem good_list {l0 tasks} {xs : List Node} {keep : Node → Bool} (h : ∀ x ∈ xs, Good l0 tasks x) :
    ∀ y ∈ subsList (xs.filter keep), FromTokens l0 y ∧ HasTask tasks y := by
  intro y hy
  obtain ⟨x, hx, hy⟩ := mem_subsList.mp hy
  exact (h x (List.mem_filter.mp hx).1).2 y hy

omit [Unicode] in
theorem addTask_prefix (p : PState) (t : Task) : p.tasks <+: (p.addTask t).tasks := List.prefix_append _ _

theorem der_good {l0 b} {p q : PState} {xs} (h : Der b p xs q) (hp : On l0 p) :
    ∀ x ∈ xs, Good l0 q.tasks x := by
  induction h with
  | nil => simp
  | cons hd hn hd' ih1 ih2 =>
    have h1 := hp.reach (der_reach hd)
    intro x hx
    rcases List.mem_cons.mp hx with rfl | hx
    · exact (ih1 hp _ (by simp)).reach (.step hn (der_reach hd'))
    · exact ih2 (h1.next hn) x hx
  | skip _ hc hn hd ih => exact ih ((hp.reach (comments_reach hc)).next hn)
  | leaf hl => simp only [List.mem_singleton, forall_eq]; exact good_of_leaf hp hl
  | @ref p c s hc hl _ =>
    simp only [List.mem_singleton, forall_eq]
    have hk := hp.tk
    rw [hc] at hk
    refine good_leaf rfl hk ?_
    intro i hi; cases hi
    exact Or.inr (by simp [PState.addTask])
  | @socket p s hc hl =>
    simp only [List.mem_singleton, forall_eq]
    have hk := hp.tk
    rw [hc] at hk
    refine good_leaf rfl hk ?_
    intro i hi; cases hi
    exact Or.inl ⟨s, hl⟩
  | @field p q q1 r r' v t hc hpk hn hn' hd ht ih =>
    simp only [List.mem_singleton, forall_eq] at ih ⊢
    have hq := hp.next hn
    have hv := (ih (hq.next hn')).reach (trail_reach ht)
    have hk := hp.tk
    have ha := hq.tkAt
    rw [hc] at hk
    rw [next_cur hn, hpk] at ha
    exact good_node rfl ⟨Or.inl ha, hv.1, Or.inl hk,
      trail_tk ((hq.next hn').reach (der_reach hd)) ht⟩ (noTask nofun) hv.2
  | @group p q r es hc hn hd _ ih =>
    simp only [List.mem_singleton, forall_eq]
    have ha := hp.tkAt
    rw [hc] at ha
    refine good_node rfl ⟨ha, fun e he => (listable_kind _).trans (List.mem_filter.mp he).2⟩ (noTask nofun) (good_list (ih (hp.next hn)))
  | @array p q r es hc hn hd _ ih =>
    simp only [List.mem_singleton, forall_eq]
    have ha := hp.tkAt
    rw [hc] at ha
    refine good_node rfl ⟨ha, fun e he => (listable_kind _).trans (List.mem_filter.mp he).2⟩ (noTask nofun) (good_list (ih (hp.next hn)))
  | @map p q r es hc hn hd _ ih =>
    simp only [List.mem_singleton, forall_eq]
    have ha := hp.tkAt
    rw [hc] at ha
    refine good_node rfl ⟨ha, fun e he => by simpa using (List.mem_filter.mp he).2⟩ (noTask nofun)
      (good_list (ih (hp.next hn)))
  | optional hc hn hd ih =>
    simp only [List.mem_singleton, forall_eq] at ih ⊢
    have hv := ih (hp.next hn)
    exact good_node rfl ⟨hc, hp.tkAt, hv.1⟩ (noTask nofun) hv.2
  | unwrap hc hn hd ih =>
    simp only [List.mem_singleton, forall_eq] at ih ⊢
    have hv := ih (hp.next hn)
    exact good_node rfl ⟨hc, hp.tkAt, hv.1⟩ (noTask nofun) hv.2
  | enumeration hc hn hd ih =>
    simp only [List.mem_singleton, forall_eq] at ih ⊢
    have hv := ih (hp.next hn)
    exact good_node rfl ⟨hc, hp.tkAt, hv.1⟩ (noTask nofun) hv.2
  | occ0 hc ho hd ih =>
    simp only [List.mem_singleton, forall_eq] at ih ⊢
    have hv := ih (hp.reach (occHead_reach ho))
    exact good_node rfl ⟨Or.inl hc, hp.tkAt, hv.1, ⟨_, rfl, Or.inl ⟨rfl, by rw [hc]; rfl⟩⟩,
      occHead_good hp ho⟩ (noTask nofun) hv.2
  | occ1 hc ho hd ih =>
    simp only [List.mem_singleton, forall_eq] at ih ⊢
    have hv := ih (hp.reach (occHead_reach ho))
    exact good_node rfl ⟨Or.inr hc, hp.tkAt, hv.1, ⟨_, rfl, Or.inl ⟨rfl, by rw [hc]; rfl⟩⟩,
      occHead_good hp ho⟩ (noTask nofun) hv.2
  | tag hc ht _ =>
    simp only [List.mem_singleton, forall_eq]
    exact good_node (ys := []) rfl ⟨hc, hp.tkAt, tagHead_good hp ht⟩ (noTask nofun) nofun
  | @tagItem p q q1 q2 r r' a b x hc ht _ hn hn' hd hcl ih =>
    simp only [List.mem_singleton, forall_eq] at ih ⊢
    have hr : Reach r r' := by
      rcases hcl with ⟨_, rfl⟩ | ⟨_, hcl⟩
      · exact .refl _
      · exact .next (.refl _) hcl
    have hv := (ih (((hp.reach (tagHead_reach ht)).next hn).next hn')).reach hr
    exact good_node rfl ⟨hc, hp.tkAt, tagHead_good hp ht⟩ (noTask nofun) hv.2
  | @colon p q q1 q2 r r' left name v t hd hpk hn hnm hn' hd' ht ih1 ih2 =>
    simp only [List.mem_singleton, forall_eq] at ih1 ih2 ⊢
    have hq := hp.reach (der_reach hd)
    have hq1 := hq.next hn
    have hl := ih1 hp
    have hv := (ih2 (hq1.next hn')).reach (trail_reach ht)
    have ha := hq1.tkAt
    rw [next_cur hn] at ha
    refine good_node rfl ⟨?_, hv.1, ?_, trail_tk ((hq1.next hn').reach (der_reach hd')) ht⟩ (noTask nofun) hv.2
    · rcases hpk with h | h <;> rw [h] at ha
      · exact Or.inl ha
      · exact Or.inr ha
    · have hls := hl.self
      cases hnm with
      | ident i => exact Or.inl hls
      | int p' t' v' =>
        obtain ⟨rfl, lit, h1, h2⟩ := hls
        exact Or.inr ⟨p', lit, v', h1, h2, rfl⟩
  | comma hd _ hn ih =>
    simp only [List.mem_singleton, forall_eq] at ih ⊢
    exact (ih hp).reach (.next (.refl _) hn)
  | @choice p q q1 q2 r left sec hd hpk hn hn' hd' ih1 ih2 =>
    simp only [List.mem_singleton, forall_eq] at ih1 ih2 ⊢
    have hq1 := (hp.reach (der_reach hd)).next hn
    have hl := (ih1 hp).reach (.step hn (.step hn' (der_reach hd')))
    have hv := ih2 (hq1.next hn')
    exact good_node rfl ⟨by rw [next_cur hn]; exact hpk, hq1.tkAt, hl.1, hv.1⟩ (noTask nofun)
      (good_two hl hv)
  | @size p q q1 q2 r left sz hd hpk hn hk hn' hd' ih1 ih2 =>
    simp only [List.mem_singleton, forall_eq] at ih1 ih2 ⊢
    have hq1 := (hp.reach (der_reach hd)).next hn
    have hl := (ih1 hp).reach (.step hn (.step hn' (der_reach hd')))
    have hv := ih2 (hq1.next hn')
    exact good_node rfl ⟨by rw [next_cur hn]; exact hpk, hq1.tkAt, hv.1, hk⟩ (noTask nofun)
      (good_two hl hv)
  | @regexp p q q1 q2 r base rx hd hpk hn _ hn' hd' ih1 ih2 =>
    simp only [List.mem_singleton, forall_eq] at ih1 ih2 ⊢
    have hq1 := (hp.reach (der_reach hd)).next hn
    have hl := (ih1 hp).reach (.step hn (.step hn' (der_reach hd')))
    have hv := ih2 (hq1.next hn')
    exact good_node rfl ⟨by rw [next_cur hn]; exact hpk, hq1.tkAt, hv.1⟩ (noTask nofun)
      (good_two hl hv)
  | @bits p q q1 q2 r left c hd hpk hn hn' hd' ih1 ih2 =>
    simp only [List.mem_singleton, forall_eq] at ih1 ih2 ⊢
    have hq1 := (hp.reach (der_reach hd)).next hn
    have hl := (ih1 hp).reach (.step hn (.step hn' (der_reach hd')))
    have hv := ih2 (hq1.next hn')
    exact good_node rfl ⟨by rw [next_cur hn]; exact hpk, hq1.tkAt, hl.1, hv.1⟩ (noTask nofun)
      (good_two hl hv)
  | @compare p q q1 q2 r left right hd hpk hn _ hn' hd' ih1 ih2 =>
    simp only [List.mem_singleton, forall_eq] at ih1 ih2 ⊢
    have hq1 := (hp.reach (der_reach hd)).next hn
    have hv := ih2 (hq1.next hn')
    refine good_node rfl ⟨by rw [next_cur hn]; exact hpk, hq1.tk, rfl, hv.1⟩ (noTask nofun) ?_
    intro y hy
    rcases List.mem_append.mp hy with h | h
    · simp only [subs, List.mem_singleton] at h
      subst h
      exact ⟨⟨rfl, q1.pos, q1.cur, by rw [next_cur hn]; exact hpk, hq1.tkAt⟩, noTask nofun⟩
    · exact hv.2 y h
  | @occ p q q1 q2 r left u m x hd hpk hn hu ho hd' ih1 ih2 =>
    simp only [List.mem_singleton, forall_eq] at ih1 ih2 ⊢
    have hq1 := (hp.reach (der_reach hd)).next hn
    have hl := (ih1 hp).self
    have hv := ih2 (hq1.reach (occHead_reach ho))
    refine good_node rfl ⟨by rw [next_cur hn]; exact hpk, hq1.tkAt, hv.1, ⟨u, rfl, ?_⟩,
      occHead_good hq1 ho⟩ (noTask nofun) hv.2
    cases hu with
    | uint => exact Or.inr (Or.inr hl)
    | @int pos t v h0 =>
      obtain ⟨rfl, lit, h1, h2⟩ := hl
      exact Or.inr (Or.inl ⟨lit, h1, by rw [h2]; simp; omega⟩)
  | @rangeEmpty p q r left hd hpk hn _ _ _ ih =>
    simp only [List.mem_singleton, forall_eq]
    have hq1 := ((hp.reach (der_reach hd)).next hn).tkAt
    rw [next_cur hn] at hq1
    exact good_node (ys := []) rfl (Or.inl ⟨rfl, rfl, rfl, rfl, _, hpk.imp (· ▸ hq1) (· ▸ hq1)⟩) (noTask nofun) nofun
  | @rangeIdent p q q1 q2 r i to hd hpk hn hn' hd' ih1 ih2 =>
    simp only [List.mem_singleton, forall_eq] at ih1 ih2 ⊢
    have hq1 := (hp.reach (der_reach hd)).next hn
    have hl := ((ih1 hp).reach (.step hn (.step hn' (der_reach hd')))).mono (addTask_prefix r (.identBound q1.cur i to))
    have hv := (ih2 (hq1.next hn')).mono (addTask_prefix r (.identBound q1.cur i to))
    exact good_node rfl (Or.inr ⟨by rw [next_cur hn]; exact hpk, hq1.tkAt, Or.inl ⟨rfl, hv.1⟩⟩) (noTask nofun)
      (good_two hl hv)
  | @rangeInt p q q1 q2 r _ _ _ _ _ _ hd hpk hn hn' hd' ih1 ih2 =>
    simp only [List.mem_singleton, forall_eq] at ih1 ih2 ⊢
    have hq1 := (hp.reach (der_reach hd)).next hn
    have hl := ((ih1 hp).reach (.step hn (.step hn' (der_reach hd'))))
    have hv := (ih2 (hq1.next hn'))
    exact good_node rfl (Or.inr ⟨by rw [next_cur hn]; exact hpk, hq1.tkAt,
      Or.inr (Or.inl ⟨rfl, Or.inr (Or.inl rfl)⟩)⟩) (noTask nofun) (good_two hl hv)
  | @rangeIntIdent p q q1 q2 r _ _ _ i hd hpk hn hn' hd' ih1 ih2 =>
    simp only [List.mem_singleton, forall_eq] at ih1 ih2 ⊢
    have hq1 := (hp.reach (der_reach hd)).next hn
    have hl := ((ih1 hp).reach (.step hn (.step hn' (der_reach hd')))).mono (addTask_prefix r (.intBound i.name i.pos i.stop))
    have hv := (ih2 (hq1.next hn')).mono (addTask_prefix r (.intBound i.name i.pos i.stop))
    exact good_node rfl (Or.inr ⟨by rw [next_cur hn]; exact hpk, hq1.tkAt,
      Or.inr (Or.inl ⟨rfl, Or.inr (Or.inr rfl)⟩)⟩) (noTask nofun) (good_two hl hv)
  | @rangeIntOther p q q1 q2 r _ _ _ to hd hpk hn hn' hd' _ _ _ ih1 ih2 =>
    simp only [List.mem_singleton, forall_eq] at ih1 ih2 ⊢
    have hq1 := (hp.reach (der_reach hd)).next hn
    have hl := ((ih1 hp).reach (.step hn (.step hn' (der_reach hd'))))
    exact good_node (by rw [subs, subs]) (Or.inr ⟨by rw [next_cur hn]; exact hpk, hq1.tkAt,
      Or.inr (Or.inl ⟨rfl, Or.inl rfl⟩)⟩) (noTask nofun) (by rw [List.append_nil]; exact hl.2)
  | @rangeFloat p q q1 q2 r _ _ _ _ _ _ hd hpk hn hn' hd' ih1 ih2 =>
    simp only [List.mem_singleton, forall_eq] at ih1 ih2 ⊢
    have hq1 := (hp.reach (der_reach hd)).next hn
    have hl := ((ih1 hp).reach (.step hn (.step hn' (der_reach hd'))))
    have hv := (ih2 (hq1.next hn'))
    exact good_node rfl (Or.inr ⟨by rw [next_cur hn]; exact hpk, hq1.tkAt,
      Or.inr (Or.inr ⟨rfl, Or.inr (Or.inl rfl)⟩)⟩) (noTask nofun) (good_two hl hv)
  | @rangeFloatIdent p q q1 q2 r _ _ _ i hd hpk hn hn' hd' ih1 ih2 =>
    simp only [List.mem_singleton, forall_eq] at ih1 ih2 ⊢
    have hq1 := (hp.reach (der_reach hd)).next hn
    have hl := ((ih1 hp).reach (.step hn (.step hn' (der_reach hd')))).mono (addTask_prefix r (.floatBound i.name i.pos i.stop))
    have hv := (ih2 (hq1.next hn')).mono (addTask_prefix r (.floatBound i.name i.pos i.stop))
    exact good_node rfl (Or.inr ⟨by rw [next_cur hn]; exact hpk, hq1.tkAt,
      Or.inr (Or.inr ⟨rfl, Or.inr (Or.inr rfl)⟩)⟩) (noTask nofun) (good_two hl hv)
  | @rangeFloatOther p q q1 q2 r _ _ _ to hd hpk hn hn' hd' _ _ _ ih1 ih2 =>
    simp only [List.mem_singleton, forall_eq] at ih1 ih2 ⊢
    have hq1 := (hp.reach (der_reach hd)).next hn
    have hl := ((ih1 hp).reach (.step hn (.step hn' (der_reach hd'))))
    exact good_node (by rw [subs, subs]) (Or.inr ⟨by rw [next_cur hn]; exact hpk, hq1.tkAt,
      Or.inr (Or.inr ⟨rfl, Or.inl rfl⟩)⟩) (noTask nofun) (by rw [List.append_nil]; exact hl.2)

end Cddlc
