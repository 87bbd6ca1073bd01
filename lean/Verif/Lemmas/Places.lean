import Verif.Lemmas.FileFacts
import Verif.Spec.Places

/-! The places of a tree are places of tokens, in the order in which they were read. -/

namespace Cddlc
open Spec

/-- The places of tokens other than the end of the source. -/
def tokPlaces (ts : List Token) : List Pos := (ts.filter (·.tok ≠ .EOF)).map (·.pos)

theorem tokPlaces_append (ts us : List Token) : tokPlaces (ts ++ us) = tokPlaces ts ++ tokPlaces us := by
  simp [tokPlaces]

theorem placesList_append (xs ys : List Node) : placesList (xs ++ ys) = placesList xs ++ placesList ys := by
  induction xs with
  | nil => simp [placesList]
  | cons x xs ih => simp [placesList, ih]

theorem placesList_one (x : Node) : placesList [x] = places x := by simp [placesList]

theorem placesList_filter (f : Node → Bool) (xs : List Node) :
    (placesList (xs.filter f)).Sublist (placesList xs) := by
  induction xs with
  | nil => simp [placesList]
  | cons x xs ih =>
    rw [List.filter_cons]
    split
    · exact ih.append_left _
    · exact ih.trans (List.sublist_append_right _ _)

theorem besides_sub (p q : Pos) : (besides p q).Sublist [q] := by
  unfold besides; split <;> simp

variable [Unicode]

/-- Between `p` and `q`, both included, tokens were read that stand at the places `ws`, in this order. -/
def Spelt (l0 : Lexer) (p : PState) (ws : List Pos) (q : PState) : Prop :=
  ∀ ts, Synced l0 ts p → ∃ ext, Synced l0 (ts ++ ext) q ∧ ws.Sublist (tokPlaces (ext ++ [q.curTok]))

variable {l0 : Lexer} {p q q1 r : PState} {ws us : List Pos}

theorem Spelt.none (p : PState) : Spelt l0 p [] p := fun ts h => ⟨[], by simpa using h, by simp⟩

theorem Spelt.here (hc : p.cur ≠ .EOF) : Spelt l0 p [p.pos] p :=
  fun ts h => ⟨[], by simpa using h, by simp [tokPlaces, PState.curTok, hc]⟩

theorem Spelt.sub (h : Spelt l0 p ws q) (hs : us.Sublist ws) : Spelt l0 p us q := by
  intro ts ht
  obtain ⟨ext, h1, h2⟩ := h ts ht
  exact ⟨ext, h1, hs.trans h2⟩

theorem Spelt.and (h : Spelt l0 p ws q) (hn : q.next = .ok q1) (h' : Spelt l0 q1 us r) :
    Spelt l0 p (ws ++ us) r := by
  intro ts ht
  obtain ⟨ext, h1, h2⟩ := h ts ht
  obtain ⟨ext', h3, h4⟩ := h' _ (synced_next h1 hn)
  refine ⟨ext ++ [q.curTok] ++ ext', by simpa using h3, ?_⟩
  rw [List.append_assoc, tokPlaces_append]
  exact h2.append h4

/-- The current token, and what is read behind it. -/
theorem Spelt.from (hc : p.cur ≠ .EOF) (hn : p.next = .ok q) (h : Spelt l0 q us r) :
    Spelt l0 p (p.pos :: us) r := (Spelt.here hc).and hn h

theorem Spelt.congr (h : Spelt l0 p ws q) (h1 : r.lx = q.lx) (h2 : r.curTok = q.curTok)
    (h3 : r.peekTok = q.peekTok) : Spelt l0 p ws r := by
  intro ts ht
  obtain ⟨ext, g1, g2⟩ := h ts ht
  exact ⟨ext, PState.synced_congr g1 h1 h2 h3, by rw [h2]; exact g2⟩

theorem Spelt.task (h : Spelt l0 p ws q) (t : Task) : Spelt l0 p ws (q.addTask t) := h.congr rfl rfl rfl

theorem spelt_reach (h : Reach p q) : Spelt l0 p [] q := by
  intro ts ht
  obtain ⟨ext, h1⟩ := synced_reach ht h
  exact ⟨ext, h1, by simp⟩

theorem spelt_comments {cs} (h : Comments p cs q) (hc : p.cur = .COMMENT) :
    Spelt l0 p (p.pos :: cs.map (·.pos)) q := by
  induction h with
  | stop => exact .here (by rw [hc]; decide)
  | more hp hn _ ih =>
    exact .from (by rw [hc]; decide) hn (ih (by rw [next_cur hn, hp]))

theorem spelt_leaf {x} (h : Leaf p x) : Spelt l0 p (places x) p := by
  have key : p.cur ≠ .EOF → places x = [p.pos] → Spelt l0 p (places x) p :=
    fun h1 h2 => by rw [h2]; exact .here h1
  cases h with
  | boolType hc => exact key (by rw [hc]; decide) (by simp [places])
  | true hc => exact key (by rcases hc with hc | hc <;> rw [hc] <;> decide) (by simp [places])
  | false hc => exact key (by rcases hc with hc | hc <;> rw [hc] <;> decide) (by simp [places])
  | tstr hc => exact key (by rcases hc with hc | hc <;> rw [hc] <;> decide) (by simp [places])
  | text hc => exact key (by rw [hc]; decide) (by simp [places])
  | floatLit hc => exact key (by rcases hc with hc | hc | hc | hc <;> rw [hc] <;> decide) (by simp [places])
  | floatType hc => exact key (by rcases hc with hc | hc | hc | hc <;> rw [hc] <;> decide) (by simp [places])
  | uintLit hc => exact key (by rw [hc]; decide) (by simp [places])
  | uintType hc => exact key (by rw [hc]; decide) (by simp [places])
  | intLit hc => exact key (by rw [hc]; decide) (by simp [places])
  | intType hc => exact key (by rw [hc]; decide) (by simp [places])
  | nint hc => exact key (by rw [hc]; decide) (by simp [places])
  | bstr hc => exact key (by rw [hc]; decide) (by simp [places])
  | bytes hc => exact key (by rw [hc]; decide) (by simp [places])
  | null hc => exact key (by rcases hc with hc | hc <;> rw [hc] <;> decide) (by simp [places])

/-- The comment behind an entry. -/
theorem spelt_trail {t} (h : Spelt l0 p ws q) (ht : Trail q t r) : Spelt l0 p (ws ++ commentAt t) r := by
  cases ht with
  | none => simpa [commentAt] using h
  | some hp _ hn => exact h.and hn (.here (by rw [next_cur hn, hp]; decide))

/-- An occurrence mark and its item, which begins with the upper bound if there is one. -/
theorem spelt_occ {m} (hc : p.cur ≠ .EOF) (ho : OccHead p m q) (h : Spelt l0 q us r) :
    Spelt l0 p (p.pos :: us) r := by
  cases ho with
  | none _ hn => exact .from hc hn h
  | some _ _ hn => exact .from hc hn h

/-- The numbers of a tag. -/
theorem spelt_tag {a b} (hc : p.cur ≠ .EOF) (ht : TagHead p a b q) : Spelt l0 p (p.pos :: numberAt b) q := by
  cases ht with
  | none => exact .here hc
  | major _ hn => exact .from hc hn (.none _)
  | @both _ a b hp hn hv =>
    have hb : b.pos = q.pos := by
      unfold PState.parseFloatTag at hv
      split at hv
      · split at hv
        · cases hv
        · split at hv <;> cases hv
          rfl
      · cases hv
    exact .from hc hn (by rw [numberAt, hb]; exact .here (by rw [next_cur hn, hp]; decide))

/-- An operator with two operands. -/
theorem spelt_infix {q2 : PState} (h : Spelt l0 p ws q) (hp : q.peek ≠ .EOF) (hn : q.next = .ok q1)
    (hn' : q1.next = .ok q2) (h' : Spelt l0 q2 us r) : Spelt l0 p (ws ++ q1.pos :: us) r :=
  h.and hn (.from (by rw [next_cur hn]; exact hp) hn' h')

theorem spelt_der {b xs} (h : Der b p xs q) : Spelt l0 p (placesList xs) q := by
  induction h with
  | nil => exact .none _
  | cons _ hn _ ih1 ih2 => rw [placesList_one] at ih1; exact ih1.and hn ih2
  | skip hc hcs hn _ ih =>
    exact ((spelt_comments hcs hc).and hn ih).sub (List.sublist_append_right _ _)
  | leaf hl => rw [placesList_one]; exact spelt_leaf hl
  | ref hc => rw [placesList_one]; exact (Spelt.here (by rw [hc]; decide)).task _
  | socket hc => rw [placesList_one]; exact .here (by rw [hc]; decide)
  | @field p q q1 r r' v t hc hpk hn hn' hd ht ih =>
    rw [placesList_one] at ih ⊢
    have := Spelt.from (l0 := l0) (p := p) (by rw [hc]; decide) hn
      (Spelt.from (by rw [next_cur hn, hpk]; decide) hn' (spelt_trail ih ht))
    exact this.sub ((besides_sub _ _).append (List.Sublist.refl _))
  | @group p q r es hc hn _ _ ih =>
    rw [placesList_one]
    exact (Spelt.from (by rw [hc]; decide) hn ih).sub ((placesList_filter _ _).cons_cons _)
  | @array p q r es hc hn _ _ ih =>
    rw [placesList_one]
    exact (Spelt.from (by rw [hc]; decide) hn ih).sub ((placesList_filter _ _).cons_cons _)
  | @map p q r es hc hn _ _ ih =>
    rw [placesList_one]
    exact (Spelt.from (by rw [hc]; decide) hn ih).sub ((placesList_filter _ _).cons_cons _)
  | optional hc hn _ ih => rw [placesList_one] at ih ⊢; exact .from (by rw [hc]; decide) hn ih
  | unwrap hc hn _ ih => rw [placesList_one] at ih ⊢; exact .from (by rw [hc]; decide) hn ih
  | enumeration hc hn _ ih => rw [placesList_one] at ih ⊢; exact .from (by rw [hc]; decide) hn ih
  | occ0 hc ho _ ih =>
    rw [placesList_one] at ih ⊢
    simpa [places, numberAt, besides] using spelt_occ (by rw [hc]; decide) ho ih
  | occ1 hc ho _ ih =>
    rw [placesList_one] at ih ⊢
    simpa [places, numberAt, besides] using spelt_occ (by rw [hc]; decide) ho ih
  | tag hc ht _ =>
    rw [placesList_one]
    simpa [places] using spelt_tag (by rw [hc]; decide) ht
  | @tagItem p q q1 q2 r r' a b x hc ht hpk hn hn' hd hcl ih =>
    rw [placesList_one] at ih ⊢
    have h1 : Spelt l0 p (p.pos :: numberAt b ++ places x) r := by
      have := ((spelt_tag (l0 := l0) (by rw [hc]; decide) ht).and hn (.none q1)).and hn' ih
      simpa using this
    rcases hcl with ⟨_, rfl⟩ | ⟨_, hcl⟩
    · exact h1
    · simpa [places] using h1.and hcl (.none r')
  | @colon p q q1 q2 r r' left name v t hd hpk hn hnm hn' hd' ht ih1 ih2 =>
    rw [placesList_one] at ih1 ih2 ⊢
    have hne : q.peek ≠ .EOF := by rcases hpk with h | h <;> rw [h] <;> decide
    refine (spelt_infix ih1 hne hn hn' (spelt_trail ih2 ht)).sub (List.Sublist.append ?_ (List.Sublist.refl _))
    cases hnm with
    | ident i => exact besides_sub _ _
    | int => simp [besides]
  | comma _ _ hn ih => simpa using ih.and hn (.none _)
  | choice _ hpk hn hn' _ ih1 ih2 =>
    rw [placesList_one] at ih1 ih2 ⊢
    exact spelt_infix ih1 (by rcases hpk with h | h <;> rw [h] <;> decide) hn hn' ih2
  | size _ hpk hn _ hn' _ ih1 ih2 =>
    rw [placesList_one] at ih1 ih2 ⊢
    exact spelt_infix ih1 (by rw [hpk]; decide) hn hn' ih2
  | regexp _ hpk hn _ hn' _ ih1 ih2 =>
    rw [placesList_one] at ih1 ih2 ⊢
    exact spelt_infix ih1 (by rw [hpk]; decide) hn hn' ih2
  | bits _ hpk hn hn' _ ih1 ih2 =>
    rw [placesList_one] at ih1 ih2 ⊢
    exact spelt_infix ih1 (by rw [hpk]; decide) hn hn' ih2
  | compare _ hpk hn _ hn' _ ih1 ih2 =>
    rw [placesList_one] at ih1 ih2 ⊢
    exact (spelt_infix ih1 (by intro h; rw [h] at hpk; simp at hpk) hn hn' ih2).sub
      (List.Sublist.append (List.nil_sublist _) (List.Sublist.refl _))
  | @occ p q q1 q2 r left u m x _ hpk hn hu ho _ ih1 ih2 =>
    rw [placesList_one] at ih1 ih2 ⊢
    have h1 := ih1.and hn
      (spelt_occ (by rw [next_cur hn]; rcases hpk with h | h <;> rw [h] <;> decide) ho ih2)
    refine h1.sub (List.Sublist.append ?_ (List.Sublist.refl _))
    simp only [numberAt, List.flatMap_cons, List.flatMap_nil, List.append_nil]
    cases hu with
    | uint => exact besides_sub _ _
    | int => exact besides_sub _ _
  | rangeEmpty _ _ hn _ _ _ ih =>
    rw [placesList_one] at ih ⊢
    exact (ih.and hn (.none _)).sub (List.nil_sublist _)
  | rangeIdent _ hpk hn hn' _ ih1 ih2 =>
    rw [placesList_one] at ih1 ih2 ⊢
    exact (spelt_infix ih1 (by rcases hpk with h | h <;> rw [h] <;> decide) hn hn' ih2).task _
  | rangeInt _ hpk hn hn' _ ih1 ih2 =>
    rw [placesList_one] at ih1 ih2 ⊢
    exact spelt_infix ih1 (by rcases hpk with h | h <;> rw [h] <;> decide) hn hn' ih2
  | rangeIntIdent _ hpk hn hn' _ ih1 ih2 =>
    rw [placesList_one] at ih1 ih2 ⊢
    exact (spelt_infix ih1 (by rcases hpk with h | h <;> rw [h] <;> decide) hn hn' ih2).task _
  | rangeIntOther _ hpk hn hn' _ _ _ _ ih1 ih2 =>
    rw [placesList_one] at ih1 ih2 ⊢
    exact (spelt_infix ih1 (by rcases hpk with h | h <;> rw [h] <;> decide) hn hn' ih2).sub
      ((List.Sublist.refl _).append ((List.nil_sublist _).cons_cons _))
  | rangeFloat _ hpk hn hn' _ ih1 ih2 =>
    rw [placesList_one] at ih1 ih2 ⊢
    exact spelt_infix ih1 (by rcases hpk with h | h <;> rw [h] <;> decide) hn hn' ih2
  | rangeFloatIdent _ hpk hn hn' _ ih1 ih2 =>
    rw [placesList_one] at ih1 ih2 ⊢
    exact (spelt_infix ih1 (by rcases hpk with h | h <;> rw [h] <;> decide) hn hn' ih2).task _
  | rangeFloatOther _ hpk hn hn' _ _ _ _ ih1 ih2 =>
    rw [placesList_one] at ih1 ih2 ⊢
    exact (spelt_infix ih1 (by rcases hpk with h | h <;> rw [h] <;> decide) hn hn' ih2).sub
      ((List.Sublist.refl _).append ((List.nil_sublist _).cons_cons _))

/-- The value of a rule, and the comment behind it. -/
theorem spelt_rule {p1 p2 p3 p4 : PState} {x tc} (hc : p.cur = .IDENT) (h1 : p.next = .ok p1)
    (h2 : p1.next = .ok p2) (hd : Der false p2 [x] p3) (ht : RuleTrail p3 tc p4) :
    Spelt l0 p (places (.rule {} ⟨p.pos, p.lit⟩ x tc)) p4 := by
  have hx := spelt_der (l0 := l0) hd
  rw [placesList_one] at hx
  have h : Spelt l0 p (p.pos :: places x) p3 :=
    .from (by rw [hc]; decide) h1 (by simpa using (Spelt.none p1).and h2 hx)
  cases ht with
  | none => simpa [places, commentAt] using h
  | some hp _ hn hn' =>
    have := (h.and hn (.here (by rw [next_cur hn, hp]; decide))).and hn' (.none _)
    simpa [places, commentAt] using this

theorem spelt_step {e err} (h : RuleStep p e err q) : Spelt l0 p (places e) q := by
  cases h with
  | comment hc hcs =>
    have := spelt_comments (l0 := l0) hcs hc
    unfold PState.commentNode
    split
    · rename_i h; cases h; exact this
    · exact this
  | bound hc h1 _ h2 hd ht _ => exact (spelt_rule hc h1 h2 hd ht).congr rfl rfl rfl
  | dup hc h1 _ h2 hd ht _ _ => exact (spelt_rule hc h1 h2 hd ht).congr rfl rfl rfl
  | choice hc h1 _ h2 hd ht => exact spelt_rule hc h1 h2 hd ht
  | @failed p1 p2 q n prec y d hc h1 _ h2 _ hx =>
    have hr := PState.parseEntry_reach n prec p2 _ hx
    exact .from (by rw [hc]; decide) h1 (by simpa [places, commentAt] using spelt_reach (.step h2 hr))
  | noAssign _ h1 => exact spelt_reach (.next (.refl _) h1)
  | noIdent => exact .none _

theorem spelt_run {rules} (h : FileRun p rules q) : Spelt l0 p (placesList rules) q := by
  induction h with
  | stop => exact .none _
  | @step p q r s e err rules _ hst hn _ ih =>
    have hf := PState.record_fields q err
    have h1 := ((spelt_step hst).congr hf.2.1 hf.2.2.1 hf.2.2.2.1).and hn ih
    rw [placesList_append]
    refine h1.sub (List.Sublist.append ?_ (List.Sublist.refl _))
    split
    · exact List.nil_sublist _
    · rw [placesList_one]; exact List.Sublist.refl _

/-! ### Parts of trees -/

omit [Unicode] in
theorem places_range_sub (p t a b) : (places a ++ places b).Sublist (places (.range p t a b)) := by
  by_cases h : a = .nil ∧ b = .nil
  · rw [h.1, h.2]; simp [places]
  · rw [places]
    · exact (List.Sublist.refl _).append (List.sublist_cons_self _ _)
    · intro h1 h2; exact h ⟨h1, h2⟩

omit [Unicode] in
theorem placesList_mem {x : Node} {xs : List Node} (h : x ∈ xs) : (places x).Sublist (placesList xs) := by
  induction xs with
  | nil => cases h
  | cons y ys ih =>
    rw [placesList]
    rcases List.mem_cons.mp h with rfl | h
    · exact List.sublist_append_left _ _
    · exact (ih h).trans (List.sublist_append_right _ _)

omit [Unicode] in
mutual
/-- The places of a part of a tree are places of the tree. -/
theorem places_subs : ∀ (x : Node) {y : Node}, y ∈ subs x → (places y).Sublist (places x)
  | .nil, y, h => by simp [subs] at h
  | .array p rs, y, h => by
    rw [subs, List.mem_cons] at h
    rcases h with rfl | h
    · exact List.Sublist.refl _
    · exact (places_subsList rs h).trans (by rw [places]; exact List.sublist_cons_self _ _)
  | .badNode p t b e, y, h => by
    rw [subs, List.mem_cons] at h
    rcases h with rfl | h
    · exact List.Sublist.refl _
    · rw [places]; exact places_subs b h
  | .cddl p rs, y, h => by
    rw [subs, List.mem_cons] at h
    rcases h with rfl | h
    · exact List.Sublist.refl _
    · exact (places_subsList rs h).trans (by rw [places]; exact List.sublist_cons_self _ _)
  | .bits p t a b, y, h => by
    rw [subs, List.mem_cons, List.mem_append] at h
    rcases h with rfl | h | h
    · exact List.Sublist.refl _
    · exact (places_subs a h).trans (by rw [places]; exact List.sublist_append_left _ _)
    · exact (places_subs b h).trans (by
        rw [places]; exact (List.sublist_cons_self _ _).trans (List.sublist_append_right _ _))
  | .comparator p t o a b, y, h => by
    rw [subs, List.mem_cons, List.mem_append] at h
    rcases h with rfl | h | h
    · exact List.Sublist.refl _
    · exact (places_subs a h).trans (by rw [places]; exact List.sublist_append_left _ _)
    · exact (places_subs b h).trans (by
        rw [places]; exact (List.sublist_cons_self _ _).trans (List.sublist_append_right _ _))
  | .regexp p t b r, y, h => by
    rw [subs, List.mem_cons, List.mem_cons] at h
    rcases h with rfl | rfl | h
    · exact List.Sublist.refl _
    · simp [places]
    · exact (places_subs r h).trans (by
        rw [places]; exact (List.sublist_cons_self _ _).trans (List.sublist_cons_self _ _))
  | .size p t s ty, y, h => by
    rw [subs, List.mem_cons, List.mem_append] at h
    rcases h with rfl | h | h
    · exact List.Sublist.refl _
    · exact (places_subs ty h).trans (by rw [places]; exact List.sublist_append_left _ _)
    · exact (places_subs s h).trans (by
        rw [places]; exact (List.sublist_cons_self _ _).trans (List.sublist_append_right _ _))
  | .entry p n v c, y, h => by
    rw [subs, List.mem_cons] at h
    rcases h with rfl | h
    · exact List.Sublist.refl _
    · exact (places_subs v h).trans (by
        rw [places]
        exact (List.sublist_append_left _ _).trans
          ((List.sublist_cons_self _ _).trans (List.sublist_append_right _ _)))
  | .enumeration p t v, y, h => by
    rw [subs, List.mem_cons] at h
    rcases h with rfl | h
    · exact List.Sublist.refl _
    · exact (places_subs v h).trans (by rw [places]; exact List.sublist_cons_self _ _)
  | .group p es, y, h => by
    rw [subs, List.mem_cons] at h
    rcases h with rfl | h
    · exact List.Sublist.refl _
    · exact (places_subsList es h).trans (by rw [places]; exact List.sublist_cons_self _ _)
  | .groupChoice p t a b, y, h => by
    rw [subs, List.mem_cons, List.mem_append] at h
    rcases h with rfl | h | h
    · exact List.Sublist.refl _
    · exact (places_subs a h).trans (by rw [places]; exact List.sublist_append_left _ _)
    · exact (places_subs b h).trans (by
        rw [places]; exact (List.sublist_cons_self _ _).trans (List.sublist_append_right _ _))
  | .map p es, y, h => by
    rw [subs, List.mem_cons] at h
    rcases h with rfl | h
    · exact List.Sublist.refl _
    · exact (places_subsList es h).trans (by rw [places]; exact List.sublist_cons_self _ _)
  | .optional p t i, y, h => by
    rw [subs, List.mem_cons] at h
    rcases h with rfl | h
    · exact List.Sublist.refl _
    · exact (places_subs i h).trans (by rw [places]; exact List.sublist_cons_self _ _)
  | .nm p t n m i, y, h => by
    rw [subs, List.mem_cons] at h
    rcases h with rfl | h
    · exact List.Sublist.refl _
    · exact (places_subs i h).trans (by
        rw [places]; exact (List.sublist_cons_self _ _).trans (List.sublist_append_right _ _))
  | .range p t a b, y, h => by
    rw [subs, List.mem_cons, List.mem_append] at h
    rcases h with rfl | h | h
    · exact List.Sublist.refl _
    · exact ((places_subs a h).trans (List.sublist_append_left _ _)).trans (places_range_sub p t a b)
    · exact ((places_subs b h).trans (List.sublist_append_right _ _)).trans (places_range_sub p t a b)
  | .rule p n v c, y, h => by
    rw [subs, List.mem_cons] at h
    rcases h with rfl | h
    · exact List.Sublist.refl _
    · exact (places_subs v h).trans (by
        rw [places]; exact (List.sublist_append_left _ _).trans (List.sublist_cons_self _ _))
  | .tag p t a b i, y, h => by
    rw [subs, List.mem_cons] at h
    rcases h with rfl | h
    · exact List.Sublist.refl _
    · exact (places_subs i h).trans (by
        rw [places]; exact (List.sublist_append_right _ _).trans (List.sublist_cons_self _ _))
  | .typeChoice p t a b, y, h => by
    rw [subs, List.mem_cons, List.mem_append] at h
    rcases h with rfl | h | h
    · exact List.Sublist.refl _
    · exact (places_subs a h).trans (by rw [places]; exact List.sublist_append_left _ _)
    · exact (places_subs b h).trans (by
        rw [places]; exact (List.sublist_cons_self _ _).trans (List.sublist_append_right _ _))
  | .unwrap p t i, y, h => by
    rw [subs, List.mem_cons] at h
    rcases h with rfl | h
    · exact List.Sublist.refl _
    · exact (places_subs i h).trans (by rw [places]; exact List.sublist_cons_self _ _)
  | .typedNil k, y, h => by simp [subs] at h; subst h; exact List.Sublist.refl _
  | .boolType .., y, h => by simp [subs] at h; subst h; exact List.Sublist.refl _
  | .boolLit .., y, h => by simp [subs] at h; subst h; exact List.Sublist.refl _
  | .bstr .., y, h => by simp [subs] at h; subst h; exact List.Sublist.refl _
  | .bytes .., y, h => by simp [subs] at h; subst h; exact List.Sublist.refl _
  | .comment .., y, h => by simp [subs] at h; subst h; exact List.Sublist.refl _
  | .commentGroup .., y, h => by simp [subs] at h; subst h; exact List.Sublist.refl _
  | .floatType .., y, h => by simp [subs] at h; subst h; exact List.Sublist.refl _
  | .floatLit .., y, h => by simp [subs] at h; subst h; exact List.Sublist.refl _
  | .ident .., y, h => by simp [subs] at h; subst h; exact List.Sublist.refl _
  | .intType .., y, h => by simp [subs] at h; subst h; exact List.Sublist.refl _
  | .nintType .., y, h => by simp [subs] at h; subst h; exact List.Sublist.refl _
  | .intLit .., y, h => by simp [subs] at h; subst h; exact List.Sublist.refl _
  | .null .., y, h => by simp [subs] at h; subst h; exact List.Sublist.refl _
  | .textLit .., y, h => by simp [subs] at h; subst h; exact List.Sublist.refl _
  | .tstr .., y, h => by simp [subs] at h; subst h; exact List.Sublist.refl _
  | .uintType .., y, h => by simp [subs] at h; subst h; exact List.Sublist.refl _
  | .uintLit .., y, h => by simp [subs] at h; subst h; exact List.Sublist.refl _
theorem places_subsList : ∀ (xs : List Node) {y : Node}, y ∈ subsList xs → (places y).Sublist (placesList xs)
  | [], y, h => by simp [subsList] at h
  | x :: xs, y, h => by
    rw [subsList, List.mem_append] at h
    rw [placesList]
    rcases h with h | h
    · exact (places_subs x h).trans (List.sublist_append_left _ _)
    · exact (places_subsList xs h).trans (List.sublist_append_right _ _)
end

omit [Unicode] in
mutual
/-- A part of a part is a part. -/
theorem subs_trans : ∀ (x : Node) {y z : Node}, y ∈ subs x → z ∈ subs y → z ∈ subs x
  | .nil, y, z, h, hz => by simp [subs] at h
  | .badNode p t b e, y, z, h, hz => by
    rw [subs, List.mem_cons] at h
    rcases h with rfl | h
    · exact hz
    · rw [subs]; exact List.mem_cons_of_mem _ (subs_trans b h hz)
  | .entry p n v c, y, z, h, hz => by
    rw [subs, List.mem_cons] at h
    rcases h with rfl | h
    · exact hz
    · rw [subs]; exact List.mem_cons_of_mem _ (subs_trans v h hz)
  | .enumeration p t v, y, z, h, hz => by
    rw [subs, List.mem_cons] at h
    rcases h with rfl | h
    · exact hz
    · rw [subs]; exact List.mem_cons_of_mem _ (subs_trans v h hz)
  | .optional p t i, y, z, h, hz => by
    rw [subs, List.mem_cons] at h
    rcases h with rfl | h
    · exact hz
    · rw [subs]; exact List.mem_cons_of_mem _ (subs_trans i h hz)
  | .nm p t n m i, y, z, h, hz => by
    rw [subs, List.mem_cons] at h
    rcases h with rfl | h
    · exact hz
    · rw [subs]; exact List.mem_cons_of_mem _ (subs_trans i h hz)
  | .rule p n v c, y, z, h, hz => by
    rw [subs, List.mem_cons] at h
    rcases h with rfl | h
    · exact hz
    · rw [subs]; exact List.mem_cons_of_mem _ (subs_trans v h hz)
  | .tag p t a b i, y, z, h, hz => by
    rw [subs, List.mem_cons] at h
    rcases h with rfl | h
    · exact hz
    · rw [subs]; exact List.mem_cons_of_mem _ (subs_trans i h hz)
  | .unwrap p t i, y, z, h, hz => by
    rw [subs, List.mem_cons] at h
    rcases h with rfl | h
    · exact hz
    · rw [subs]; exact List.mem_cons_of_mem _ (subs_trans i h hz)
  | .array p rs, y, z, h, hz => by
    rw [subs, List.mem_cons] at h
    rcases h with rfl | h
    · exact hz
    · rw [subs]; exact List.mem_cons_of_mem _ (subsList_trans rs h hz)
  | .cddl p rs, y, z, h, hz => by
    rw [subs, List.mem_cons] at h
    rcases h with rfl | h
    · exact hz
    · rw [subs]; exact List.mem_cons_of_mem _ (subsList_trans rs h hz)
  | .group p es, y, z, h, hz => by
    rw [subs, List.mem_cons] at h
    rcases h with rfl | h
    · exact hz
    · rw [subs]; exact List.mem_cons_of_mem _ (subsList_trans es h hz)
  | .map p es, y, z, h, hz => by
    rw [subs, List.mem_cons] at h
    rcases h with rfl | h
    · exact hz
    · rw [subs]; exact List.mem_cons_of_mem _ (subsList_trans es h hz)
  | .bits p t a b, y, z, h, hz => by
    rw [subs, List.mem_cons, List.mem_append] at h
    rcases h with rfl | h | h
    · exact hz
    · rw [subs]; exact List.mem_cons_of_mem _ (List.mem_append_left _ (subs_trans a h hz))
    · rw [subs]; exact List.mem_cons_of_mem _ (List.mem_append_right _ (subs_trans b h hz))
  | .comparator p t o a b, y, z, h, hz => by
    rw [subs, List.mem_cons, List.mem_append] at h
    rcases h with rfl | h | h
    · exact hz
    · rw [subs]; exact List.mem_cons_of_mem _ (List.mem_append_left _ (subs_trans a h hz))
    · rw [subs]; exact List.mem_cons_of_mem _ (List.mem_append_right _ (subs_trans b h hz))
  | .groupChoice p t a b, y, z, h, hz => by
    rw [subs, List.mem_cons, List.mem_append] at h
    rcases h with rfl | h | h
    · exact hz
    · rw [subs]; exact List.mem_cons_of_mem _ (List.mem_append_left _ (subs_trans a h hz))
    · rw [subs]; exact List.mem_cons_of_mem _ (List.mem_append_right _ (subs_trans b h hz))
  | .range p t a b, y, z, h, hz => by
    rw [subs, List.mem_cons, List.mem_append] at h
    rcases h with rfl | h | h
    · exact hz
    · rw [subs]; exact List.mem_cons_of_mem _ (List.mem_append_left _ (subs_trans a h hz))
    · rw [subs]; exact List.mem_cons_of_mem _ (List.mem_append_right _ (subs_trans b h hz))
  | .typeChoice p t a b, y, z, h, hz => by
    rw [subs, List.mem_cons, List.mem_append] at h
    rcases h with rfl | h | h
    · exact hz
    · rw [subs]; exact List.mem_cons_of_mem _ (List.mem_append_left _ (subs_trans a h hz))
    · rw [subs]; exact List.mem_cons_of_mem _ (List.mem_append_right _ (subs_trans b h hz))
  | .size p t s ty, y, z, h, hz => by
    rw [subs, List.mem_cons, List.mem_append] at h
    rcases h with rfl | h | h
    · exact hz
    · rw [subs]; exact List.mem_cons_of_mem _ (List.mem_append_left _ (subs_trans ty h hz))
    · rw [subs]; exact List.mem_cons_of_mem _ (List.mem_append_right _ (subs_trans s h hz))
  | .regexp p t b r, y, z, h, hz => by
    rw [subs, List.mem_cons, List.mem_cons] at h
    rcases h with rfl | rfl | h
    · exact hz
    · simp only [subs, List.mem_singleton] at hz; subst hz; simp [subs]
    · rw [subs]; exact List.mem_cons_of_mem _ (List.mem_cons_of_mem _ (subs_trans r h hz))
  | .typedNil .., y, z, h, hz => by simp only [subs, List.mem_singleton] at h; subst h; exact hz
  | .boolType .., y, z, h, hz => by simp only [subs, List.mem_singleton] at h; subst h; exact hz
  | .boolLit .., y, z, h, hz => by simp only [subs, List.mem_singleton] at h; subst h; exact hz
  | .bstr .., y, z, h, hz => by simp only [subs, List.mem_singleton] at h; subst h; exact hz
  | .bytes .., y, z, h, hz => by simp only [subs, List.mem_singleton] at h; subst h; exact hz
  | .comment .., y, z, h, hz => by simp only [subs, List.mem_singleton] at h; subst h; exact hz
  | .commentGroup .., y, z, h, hz => by simp only [subs, List.mem_singleton] at h; subst h; exact hz
  | .floatType .., y, z, h, hz => by simp only [subs, List.mem_singleton] at h; subst h; exact hz
  | .floatLit .., y, z, h, hz => by simp only [subs, List.mem_singleton] at h; subst h; exact hz
  | .ident .., y, z, h, hz => by simp only [subs, List.mem_singleton] at h; subst h; exact hz
  | .intType .., y, z, h, hz => by simp only [subs, List.mem_singleton] at h; subst h; exact hz
  | .nintType .., y, z, h, hz => by simp only [subs, List.mem_singleton] at h; subst h; exact hz
  | .intLit .., y, z, h, hz => by simp only [subs, List.mem_singleton] at h; subst h; exact hz
  | .null .., y, z, h, hz => by simp only [subs, List.mem_singleton] at h; subst h; exact hz
  | .textLit .., y, z, h, hz => by simp only [subs, List.mem_singleton] at h; subst h; exact hz
  | .tstr .., y, z, h, hz => by simp only [subs, List.mem_singleton] at h; subst h; exact hz
  | .uintType .., y, z, h, hz => by simp only [subs, List.mem_singleton] at h; subst h; exact hz
  | .uintLit .., y, z, h, hz => by simp only [subs, List.mem_singleton] at h; subst h; exact hz
theorem subsList_trans : ∀ (xs : List Node) {y z : Node}, y ∈ subsList xs → z ∈ subs y → z ∈ subsList xs
  | [], y, z, h, hz => by simp [subsList] at h
  | x :: xs, y, z, h, hz => by
    rw [subsList, List.mem_append] at h ⊢
    rcases h with h | h
    · exact Or.inl (subs_trans x h hz)
    · exact Or.inr (subsList_trans xs h hz)
end

omit [Unicode] in
/-- The start of a tree is the first of its places. -/
theorem places_start : ∀ {x : Node} {s : Pos}, x.start = .ok s → (∀ y ∈ subs x, y ≠ .commentGroup []) →
    ∃ ws, places x = s :: ws := by
  have key : ∀ {a : List Pos} {s : Pos} {b : List Pos}, (∃ ws, a = s :: ws) → ∃ ws, a ++ b = s :: ws := by
    rintro _ s b ⟨ws, rfl⟩; exact ⟨ws ++ b, rfl⟩
  intro x
  induction x using Node.start.induct <;> intro s hs hg <;> simp only [Node.start, Out.ok.injEq, reduceCtorEq] at hs
  case case11 => exact absurd rfl (hg _ (by simp [subs]))
  all_goals try (subst hs; simp only [places, List.map_cons]; exact ⟨_, rfl⟩)
  case case4 ih =>
    rw [places]; exact ih hs fun y hy => hg y (by rw [subs]; exact List.mem_cons_of_mem _ hy)
  case case13 ih =>
    rw [places]; exact key (ih hs fun y hy => hg y (by simp [subs, hy]))
  case case14 ih =>
    rw [places]; exact key (ih hs fun y hy => hg y (by simp [subs, hy]))
  case case16 ih =>
    rw [places]; exact key (ih hs fun y hy => hg y (by simp [subs, hy]))
  case case17 pos name value trailing =>
    subst hs
    rw [places, besides]
    split
    · rename_i h; rw [h]; exact ⟨_, rfl⟩
    · exact ⟨_, rfl⟩
  case case22 ih =>
    rw [places]; exact key (ih hs fun y hy => hg y (by simp [subs, hy]))
  case case30 pos tok n m item =>
    subst hs
    simp only [places, numberAt, List.flatMap_cons, List.flatMap_nil, List.append_nil, besides]
    split
    · rename_i h; rw [h]; exact ⟨_, rfl⟩
    · exact ⟨_, rfl⟩
  case case32 lo hi ih =>
    rw [places]
    · exact key (ih hs fun y hy => hg y (by simp [subs, hy]))
    · intro h; rw [h] at hs; cases hs
  case case37 ih =>
    rw [places]; exact key (ih hs fun y hy => hg y (by simp [subs, hy]))

end Cddlc
