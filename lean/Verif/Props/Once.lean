import Verif.Lemmas.Once
import Verif.Lemmas.Check
import Verif.Props.Total
import Mathlib.Data.List.Perm.Subperm

/-! C110 (how many diagnostics there can be) and C111 (that none is reported twice). -/

namespace Cddlc
open Spec
variable [Unicode]

/-! ### C110 -/

/-- **C110**: there are no more diagnostics than tokens in front of the end of the file. -/
theorem C110_at_most_tokens {n : Nat} {src : Bytes} {env : Env} {res : PState.FileResult} {ts eof l}
    (h : parseSource n src env = .ok res) (hs : Scans (Lexer.new src) (ts ++ [eof]) l) (he : eof.tok = .EOF) :
    res.errs.length ≤ ts.length := by
  unfold parseSource at h
  obtain ⟨p, hp, h⟩ := Out.bind_eq_ok.mp h
  obtain ⟨h1, -, h3, h4⟩ := PState.new_synced p hp
  unfold PState.parseFile at h
  split at h
  · cases h; simp
  · obtain ⟨⟨rules, q⟩, hq, h⟩ := Out.bind_eq_ok.mp h
    cases h
    have hw : PState.Within (Lexer.new src) 0 p := ⟨[], h1, by simp [h3, h4]⟩
    obtain ⟨⟨us, g1, g2⟩, -⟩ := loopOut_wp (I := fun s => PState.Within (Lexer.new src) 0 s.2)
      (Q := fun t => PState.Within (Lexer.new src) 0 t.2 ∧ t.2.cur = .EOF)
      (fun s hw => (PState.fileStep_within hw).mono fun r h => by cases r <;> exact h) n _ hw _ hq
    dsimp only at g1 g2
    have hlen : q.runTasks.errors.length ≤ q.errors.length + q.tasks.length := by
      simp only [PState.runTasks, List.length_append]
      have := List.length_filterMap_le (PState.runTask q.env) q.tasks
      omega
    have hcount : PState.counted us ≤ ts.length := by
      unfold Synced at g1
      obtain ⟨m, g1, -⟩ := scans_split g1
      by_cases hl : us.length ≤ ts.length
      · have : PState.counted us ≤ us.length := List.length_filter_le ..
        omega
      · obtain ⟨vs, hv⟩ := scans_det hs g1 (by simp; omega)
        rw [← hv] at g1 ⊢
        obtain ⟨m', i1, i2⟩ := scans_split g1
        obtain ⟨_, _, _, _, i3⟩ := C03_eof_absorbing i1 he
        have hz : PState.counted ([eof] ++ vs) = 0 := by
          simp only [PState.counted, List.length_eq_zero_iff, List.filter_eq_nil_iff]
          intro t ht
          rcases List.mem_append.mp ht with ht | ht
          · rw [List.mem_singleton] at ht; simp [ht, he]
          · simp [(i3 _ _ i2).1 t ht, he]
        rw [List.append_assoc, PState.counted_append, hz]
        have : PState.counted ts ≤ ts.length := List.length_filter_le ..
        omega
    dsimp only
    omega

omit [Unicode] in
/-- The bound is reached: three tokens, three diagnostics. -/
example : letI := asciiOnly; (∃ res, parseSource 20 b!"= 1 )" = .ok res ∧ res.errs.length = 3) ∧
    ∃ ts eof l, Scans (Lexer.new b!"= 1 )") (ts ++ [eof]) l ∧ eof.tok = .EOF ∧ ts.length = 3 := by
  let _ := asciiOnly
  obtain ⟨res, rules, h1, h2, h3⟩ := of_parses (n := 20) (src := b!"= 1 )")
    (f := fun _ errs => decide (errs.length = 3)) (by decide_cbv)
  exact ⟨⟨res, h1, of_decide_eq_true h3⟩, _, _, _, scanList_scans (n := 4) (ts := [_, _, _] ++ [_]) rfl, rfl, rfl⟩

/-! ### C111 -/

/-- Offsets rise from token to token, up to the end of the file. -/
theorem idx_rise {src : Bytes} (hc : Clean src) {i j t u} (h : Idx (Lexer.new src) i t) (h' : Idx (Lexer.new src) j u)
    (hij : i < j) (hE : t.tok ≠ .EOF) : t.pos.offset < u.pos.offset := by
  obtain ⟨us, m, h1, h2⟩ := h'
  obtain ⟨rest, ht, -⟩ := C05_lossless hc h2
  have key : ∀ {off ts s rest}, Tiles off ts s rest →
      ts.Pairwise (fun a b => a.tok ≠ .EOF → a.pos.offset < b.pos.offset) ∧ ∀ t ∈ ts, (off : Int) ≤ t.pos.offset := by
    intro off ts s rest h
    induction h with
    | nil => simp
    | @cons off t ts s rest gap raw _ ho _ he _ _ ih =>
      obtain ⟨ih1, ih2⟩ := ih
      constructor
      · refine List.pairwise_cons.mpr ⟨fun b hb hE => ?_, ih1⟩
        have hr := List.length_pos_iff.mpr (fun h => hE (he.mpr h))
        have := ih2 b hb
        rw [ho]; omega
      · intro t' ht'
        rcases List.mem_cons.mp ht' with rfl | ht'
        · rw [ho]; omega
        · have := ih2 t' ht'; omega
  obtain ⟨ts, l', g1, g2⟩ := h
  have hp : ts ++ [t] <+: us := by
    obtain ⟨m', h3, -⟩ := scans_split h2
    exact scans_det g2 h3 (by simp; omega)
  obtain ⟨vs, rfl⟩ := hp
  have := (List.pairwise_append.mp (key ht).1).2.2 t (by simp) u (by simp)
  exact this hE

/-- Behind the end of the file there is nothing else. -/
theorem idx_eof {src : Bytes} {i j t u} (h : Idx (Lexer.new src) i t) (h' : Idx (Lexer.new src) j u) (hij : i < j)
    (hF : u.tok ≠ .EOF) : t.tok ≠ .EOF := by
  intro hE
  obtain ⟨us, m, h1, h2⟩ := h'
  obtain ⟨ts, l', g1, g2⟩ := h
  obtain ⟨m', h3, -⟩ := scans_split h2
  obtain ⟨vs, rfl⟩ := scans_det g2 h3 (by simp; omega)
  rw [List.append_assoc] at h2
  obtain ⟨l1, i1, i2⟩ := scans_split h2
  obtain ⟨_, _, _, _, i3⟩ := C03_eof_absorbing i1 hE
  rw [(i3 _ _ i2).1 u (by simp)] at hF
  exact hF hE

/-- Two tokens at one position are one, unless both are the end of the file. -/
theorem idx_pos {src : Bytes} (hc : Clean src) {i j t u} (h : Idx (Lexer.new src) i t) (h' : Idx (Lexer.new src) j u)
    (hF : u.tok ≠ .EOF) (hp : t.pos = u.pos) : i = j := by
  rcases Nat.lt_trichotomy i j with hij | hij | hij
  · have := idx_rise hc h h' hij (idx_eof h h' hij hF); rw [hp] at this; omega
  · exact hij
  · have := idx_rise hc h' h hij hF; rw [hp] at this; omega

theorem behind_range {l : Lexer} {i t} (h : Behind l i) (ht : Idx l i t) : BehindRange l t := by
  obtain ⟨m, r, h1, h2, h3, h4⟩ := h
  obtain ⟨us, l', g1, g2⟩ := ht
  obtain ⟨ts, l1, i1, i2⟩ := h2
  have hp : ts ++ [r] <+: us := by
    obtain ⟨m', h5, -⟩ := scans_split g2
    exact scans_det i2 h5 (by simp; omega)
  obtain ⟨cs, rfl⟩ := hp
  refine ⟨ts, r, cs, l', by simpa using g2, h3, fun c hc => ?_⟩
  obtain ⟨a, b, rfl⟩ := List.append_of_mem hc
  refine h4 (ts.length + 1 + a.length) c (by omega) ?_ ?_
  · simp only [List.length_append, List.length_cons, List.length_nil] at g1
    omega
  · rw [show ts ++ [r] ++ (a ++ c :: b) ++ [t] = (ts ++ [r] ++ a ++ [c]) ++ (b ++ [t]) by simp] at g2
    obtain ⟨m', h5, -⟩ := scans_split g2
    exact ⟨_, m', by simp; omega, h5⟩

/-- What a task says, it says at the token it is about; the message tells the kind, but for a name that is not
there. -/
theorem task_says {l : Lexer} {env : Env} {t : Task} {k d} (hk : KeyOf l t k) (hd : PState.runTask env t = some d) :
    ∃ name, Idx l k.2 ⟨.IDENT, d.start, name⟩ ∧
      ((k.1 = 0 ∧ d.msg = .noSuchIdent name) ∨
       (k.1 = 1 ∧ ∃ a b c e f, d.msg = .boundTypes a b c e f) ∨
       (k.1 = 2 ∧ Behind l k.2 ∧ (d.msg = .noSuchIdent name ∨
          d.msg ∈ [.floatInIntRange, .intInFloatRange, .expectedIntUpper, .expectedFloatUpper]))) := by
  cases t with
  | «exists» name pos =>
    simp only [PState.runTask] at hd
    split at hd
    · cases hd
    · cases hd; exact ⟨name, hk.2, .inl ⟨hk.1, rfl⟩⟩
  | identBound tok left right =>
    simp only [PState.runTask] at hd
    split at hd
    · split at hd
      · cases hd
      · cases hd; exact ⟨_, hk.2, .inr (.inl ⟨hk.1, _, _, _, _, _, rfl⟩)⟩
    · cases hd
  | intBound name s e =>
    simp only [PState.runTask] at hd
    split at hd
    · cases hd; exact ⟨name, hk.2.1, .inr (.inr ⟨hk.1, hk.2.2, .inl rfl⟩)⟩
    · split at hd <;> cases hd <;> exact ⟨name, hk.2.1, .inr (.inr ⟨hk.1, hk.2.2, .inr (by simp)⟩)⟩
  | floatBound name s e =>
    simp only [PState.runTask] at hd
    split at hd
    · cases hd; exact ⟨name, hk.2.1, .inr (.inr ⟨hk.1, hk.2.2, .inl rfl⟩)⟩
    · split at hd <;> cases hd <;> exact ⟨name, hk.2.1, .inr (.inr ⟨hk.1, hk.2.2, .inr (by simp)⟩)⟩

/-- The diagnostics, with the rule or task they come from. -/
theorem errs_keyed {n : Nat} {src : Bytes} {env : Env} {res : PState.FileResult} (h : parseSource n src env = .ok res) :
    ∃ es ts ks, res.errs = es ++ ts.filterMap (PState.runTask res.final.env) ∧ (∃ k, PState.Errs (Lexer.new src) k es) ∧
      List.Forall₂ (KeyOf (Lexer.new src)) ts ks ∧ Listed ks := by
  unfold parseSource at h
  obtain ⟨p, hp, h⟩ := Out.bind_eq_ok.mp h
  obtain ⟨h1, -, h3, h4⟩ := PState.new_synced p hp
  unfold PState.parseFile at h
  split at h
  · cases h; exact ⟨[], [], [], rfl, ⟨0, [], .nil, by simp, by simp⟩, .nil, listed_nil⟩
  · obtain ⟨⟨rules, q⟩, hq, h⟩ := Out.bind_eq_ok.mp h
    cases h
    have hw : PState.FileTold (Lexer.new src) p p :=
      ⟨0, [], ⟨[], rfl, h1⟩, .refl, [], by rw [h3]; exact .nil, by simp, by simp⟩
    obtain ⟨k, ks, g1, ⟨ts, g2, g3, g4, -⟩, g5⟩ := loopOut_wp (I := fun s => PState.FileTold (Lexer.new src) p s.2)
      (Q := fun t => PState.FileTold (Lexer.new src) p t.2) (fun s hw =>
        (PState.fileStep_told hw).mono fun r h => by cases r <;> exact h) n _ hw _ hq
    rw [h4] at g2
    refine ⟨q.errors, ts, ks, ?_, ⟨k, g5⟩, g3, g4⟩
    simp only [PState.runTasks] at g2 ⊢
    rw [g2]
    simp

omit [Unicode] in
theorem forall₂_mem {α β : Type} {R : α → β → Prop} {as bs} (h : List.Forall₂ R as bs) {a} (ha : a ∈ as) :
    ∃ b ∈ bs, R a b := by
  induction h with
  | nil => cases ha
  | @cons x y xs ys hxy _ ih =>
    rcases List.mem_cons.mp ha with rfl | ha
    · exact ⟨y, by simp, hxy⟩
    · obtain ⟨b, h1, h2⟩ := ih ha
      exact ⟨b, by simp [h1], h2⟩

omit [Unicode] in
theorem pairwise_forall₂ {α β : Type} {R : α → β → Prop} {S : β → β → Prop} {T : α → α → Prop}
    (hT : ∀ a b a' b', R a b → R a' b' → S b b' → T a a') {as bs} (h : List.Forall₂ R as bs) :
    bs.Pairwise S → as.Pairwise T := by
  induction h with
  | nil => simp
  | @cons a b as bs hr hf ih =>
    intro hp
    obtain ⟨h1, h2⟩ := List.pairwise_cons.mp hp
    refine List.pairwise_cons.mpr ⟨fun a' ha' => ?_, ih h2⟩
    obtain ⟨b', hb', hr'⟩ := forall₂_mem hf ha'
    exact hT _ _ _ _ hr hr' (h1 b' hb')

/-- **C111**, what holds: no diagnostic is reported twice (with one message, at one place), except that a name is
not there, if it stands behind a range operator. That is reported at most twice. -/
theorem C111_once_partial {n : Nat} {src : Bytes} {env : Env} {res : PState.FileResult} (hc : Clean src)
    (h : parseSource n src env = .ok res) :
    res.errs.Pairwise (fun d e => d.msg = e.msg → d.start = e.start → ∃ name, d.msg = .noSuchIdent name ∧
      BehindRange (Lexer.new src) ⟨.IDENT, d.start, name⟩) ∧
    ∀ d : Diag, (res.errs.filter fun e => e.msg = d.msg ∧ e.start = d.start).length ≤ 2 := by
  obtain ⟨es, ts, ks, he, ⟨k, is, h1, h2, -⟩, h3, h4, -⟩ := errs_keyed h
  have hpair : res.errs.Pairwise (fun d e => d.msg = e.msg → d.start = e.start → ∃ name, d.msg = .noSuchIdent name ∧
      BehindRange (Lexer.new src) ⟨.IDENT, d.start, name⟩) := by
    rw [he]
    refine List.pairwise_append.mpr ⟨?_, ?_, ?_⟩
    · -- rules
      refine pairwise_forall₂ ?_ h1 h2
      rintro d i e j ⟨-, i', t, a1, a2, a3, a4, -⟩ ⟨-, j', u, b1, b2, b3, b4, -⟩ ⟨m, v, c1, c2, c3, c4⟩ - hp
      cases (by omega : i = i')
      cases (by omega : j = j')
      have := idx_rise hc a3 b3 (by omega) (idx_eof a3 c3 c1 c4)
      rw [a4, b4, hp] at this
      omega
    · -- tasks
      refine List.pairwise_filterMap.mpr (pairwise_forall₂ ?_ h3 h4)
      intro t κ t' κ' hk hk' hne d hd e hd' hm hp
      obtain ⟨a, a1, a2⟩ := task_says hk hd
      obtain ⟨b, b1, b2⟩ := task_says hk' hd'
      have hi : κ.2 = κ'.2 := idx_pos hc a1 b1 (by simp) hp
      have hab := (hi ▸ a1).unique b1
      simp only [Token.mk.injEq, true_and] at hab
      have hne1 : κ.1 ≠ κ'.1 := fun h => hne (Prod.ext h hi)
      have fin : Behind (Lexer.new src) κ.2 → d.msg = .noSuchIdent a → ∃ name, d.msg = .noSuchIdent name ∧
          BehindRange (Lexer.new src) ⟨.IDENT, d.start, name⟩ := fun hb hm => ⟨a, hm, behind_range hb a1⟩
      rcases a2 with ⟨x1, x2⟩ | ⟨x1, _, _, _, _, _, x2⟩ | ⟨x1, xb, x2⟩ <;>
        rcases b2 with ⟨y1, y2⟩ | ⟨y1, _, _, _, _, _, y2⟩ | ⟨y1, yb, y2⟩
      · exact absurd (x1.trans y1.symm) hne1
      · rw [hm, y2] at x2; cases x2
      · exact fin (hi ▸ yb) x2
      · rw [hm, y2] at x2; cases x2
      · exact absurd (x1.trans y1.symm) hne1
      · rw [← hm, x2] at y2; simp at y2
      · rcases x2 with x2 | x2
        · exact fin xb x2
        · rw [hm, y2] at x2; simp at x2
      · rw [hm, y2] at x2; simp at x2
      · exact absurd (x1.trans y1.symm) hne1
    · -- one of each
      intro d hd e hd' hm hp
      exfalso
      obtain ⟨t, ht, hd'⟩ := List.mem_filterMap.mp hd'
      obtain ⟨κ, -, hk⟩ := forall₂_mem h3 ht
      obtain ⟨i, -, b1, b2⟩ := forall₂_mem h1 hd
      obtain ⟨j, u, -, -, c3, c4, c5⟩ := b2
      obtain ⟨a, a1, a2⟩ := task_says hk hd'
      rcases a2 with ⟨x1, x2⟩ | ⟨x1, _, _, _, _, _, x2⟩ | ⟨x1, xb, x2⟩
      · rw [hm, x2] at b1; cases b1
      · rw [hm, x2] at b1; cases b1
      · have hji := idx_pos hc c3 a1 (by simp) (by rw [c4, hp])
        subst hji
        have hu : u.tok = .IDENT := by rw [c3.unique a1]
        rcases x2 with x2 | x2
        · rw [hm, x2] at b1; cases b1
        · simp only [List.mem_cons, List.not_mem_nil, or_false] at x2
          rcases x2 with x2 | x2 | x2 | x2
          · exact c5 (.inl (hm.trans x2)) hu
          · exact c5 (.inr (hm.trans x2)) hu
          · rw [hm, x2] at b1; cases b1
          · rw [hm, x2] at b1; cases b1
  refine ⟨hpair, fun d => ?_⟩
  by_cases hd : ∃ name, d.msg = .noSuchIdent name
  · obtain ⟨name, hd⟩ := hd
    classical
    rw [he, List.filter_append, List.length_append]
    have hes : es.filter (fun e => e.msg = d.msg ∧ e.start = d.start) = [] := by
      rw [List.filter_eq_nil_iff]
      intro e hm hp
      simp only [decide_eq_true_eq] at hp
      obtain ⟨i, -, b1, -⟩ := forall₂_mem h1 hm
      rw [hp.1, hd] at b1
      cases b1
    let Q : Nat × Nat → Prop := fun κ => (∃ a, Idx (Lexer.new src) κ.2 ⟨.IDENT, d.start, a⟩) ∧ (κ.1 = 0 ∨ κ.1 = 2)
    have hle : ((ts.filterMap (PState.runTask res.final.env)).filter
        fun e => e.msg = d.msg ∧ e.start = d.start).length ≤ (ks.filter fun κ => Q κ).length := by
      clear he h4
      induction h3 with
      | nil => simp
      | @cons t κ ts ks hk _ ih =>
        cases hr : PState.runTask res.final.env t with
        | none =>
          rw [List.filterMap_cons_none hr]
          exact Nat.le_trans ih (List.Sublist.length_le ((List.sublist_cons_self _ _).filter _))
        | some e =>
          rw [List.filterMap_cons_some hr]
          by_cases hp : e.msg = d.msg ∧ e.start = d.start
          · have hQ : Q κ := by
              obtain ⟨a, a1, a2⟩ := task_says hk hr
              refine ⟨⟨a, hp.2 ▸ a1⟩, ?_⟩
              rcases a2 with ⟨x1, -⟩ | ⟨x1, _, _, _, _, _, x2⟩ | ⟨x1, -⟩
              · exact .inl x1
              · rw [hp.1, hd] at x2; cases x2
              · exact .inr x1
            rw [List.filter_cons_of_pos (by simpa using hp), List.filter_cons_of_pos (by simpa using hQ)]
            simpa using ih
          · rw [List.filter_cons_of_neg (by simpa using hp)]
            exact Nat.le_trans ih (List.Sublist.length_le ((List.sublist_cons_self _ _).filter _))
    have h2 : (ks.filter fun κ => Q κ).length ≤ 2 := by
      have hnd : (ks.filter fun κ => Q κ).Nodup := h4.filter _
      cases hl : ks.filter fun κ => Q κ with
      | nil => simp
      | cons κ0 rest =>
        rw [← hl]
        have h0 : Q κ0 := by
          have : κ0 ∈ ks.filter fun κ => Q κ := by rw [hl]; simp
          simpa using (List.mem_filter.mp this).2
        have hsub : (ks.filter fun κ => Q κ) ⊆ [(0, κ0.2), (2, κ0.2)] := by
          intro κ hκ
          have hQ : Q κ := by simpa using (List.mem_filter.mp hκ).2
          obtain ⟨⟨a, ha⟩, hk⟩ := hQ
          obtain ⟨⟨b, hb⟩, -⟩ := h0
          have hi : κ.2 = κ0.2 := idx_pos hc ha hb (by simp) rfl
          rcases hk with hk | hk
          · rw [show κ = (0, κ0.2) from Prod.ext hk hi]; simp
          · rw [show κ = (2, κ0.2) from Prod.ext hk hi]; simp
        exact (List.subperm_of_subset hnd hsub).length_le
    rw [hes]
    simp only [List.length_nil]
    omega
  · have hf := hpair.filter (fun e => decide (e.msg = d.msg ∧ e.start = d.start))
    cases hl : res.errs.filter (fun e => decide (e.msg = d.msg ∧ e.start = d.start)) with
    | nil => simp
    | cons x rest =>
      cases rest with
      | nil => simp
      | cons y rest =>
        rw [hl] at hf
        have hx : ∀ z ∈ x :: y :: rest, z.msg = d.msg ∧ z.start = d.start := by
          rw [← hl]
          intro z hz
          simpa using (List.mem_filter.mp hz).2
        have hx1 := hx x (by simp)
        have hy1 := hx y (by simp)
        obtain ⟨name, h5, -⟩ := (List.pairwise_cons.mp hf).1 y (by simp) (hx1.1.trans hy1.1.symm) (hx1.2.trans hy1.2.symm)
        exact absurd ⟨name, hx1.1.symm.trans h5⟩ hd

omit [Unicode] in
/-- **C111** is false: that the upper end of a range is not there is reported twice, with one message, at one
place. -/
theorem C111_refuted : letI := asciiOnly; Clean b!"a = 1..x" ∧ ∃ res d e, parseSource 20 b!"a = 1..x" = .ok res ∧
    res.errs = [d, e] ∧ d.msg = e.msg ∧ d.start = e.start := by
  let _ := asciiOnly
  refine ⟨clean_enc (cs := "a = 1..x".toList) (by decide), ?_⟩
  obtain ⟨res, rules, h1, h2, h3⟩ := of_parses (n := 20) (src := b!"a = 1..x")
    (f := fun _ errs => decide (errs =
      [⟨.noSuchIdent b!"x", ⟨7, 1, 8, []⟩, ⟨7, 1, 8, []⟩⟩, ⟨.noSuchIdent b!"x", ⟨7, 1, 8, []⟩, ⟨8, 1, 9, []⟩⟩]))
    (by decide_cbv)
  exact ⟨res, _, _, h1, of_decide_eq_true h3, rfl, rfl⟩

omit [Unicode] in
/-- Diagnostics of both phases, of several kinds. -/
example : letI := asciiOnly; Clean b!"a = x / y\na = x\n= 1" ∧ ∃ res, parseSource 30 b!"a = x / y\na = x\n= 1" = .ok res ∧
    res.errs.length = 6 := by
  let _ := asciiOnly
  refine ⟨clean_enc (cs := "a = x / y\na = x\n= 1".toList) (by decide), ?_⟩
  obtain ⟨res, rules, h1, h2, h3⟩ := of_parses (n := 30) (src := b!"a = x / y\na = x\n= 1")
    (f := fun _ errs => decide (errs.length = 6)) (by decide_cbv)
  exact ⟨res, h1, of_decide_eq_true h3⟩

end Cddlc
