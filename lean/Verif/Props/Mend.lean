import Verif.Props.Session

/-! C127: parts of a file with mistakes, each for itself. -/

namespace Cddlc
open Spec PState
variable [Unicode]

theorem parts_mistakes {lines : List (List Char)} (hw : ∀ l ∈ lines, Whole l) (hne : lines ≠ []) {env : Env} :
    ∀ {xs : List (Bytes × FileResult)}, xs.map (·.1) = lines.map enc → (∀ x ∈ xs, ∃ n, parseSource n x.1 env = .ok x.2) →
      (∀ x ∈ xs.dropLast, Finished x.1 x.2.errs) → (∀ x ∈ xs.tail, Opens x.1) → xs.Pairwise (fun x y => NamesApart env x.2 y.2) →
    (∀ x ∈ xs, x.2.errs = earlyOf x.2 ++ lateOf x.2) ∧
    ∃ m r ws, parseSource m (enc lines.flatten) env = .ok r ∧ r.cddl = some ws ∧
      noPosL ws = noPosL (xs.flatMap fun x => x.2.cddl.getD []) ∧
      (earlyOf r).map dm = (xs.flatMap fun x => earlyOf x.2).map dm ∧
      (∀ x ∈ xs, ∀ k, x.2.final.env.exists? k = true →
        (assocFind k r.final.env.symbols).map noPos = (assocFind k x.2.final.env.symbols).map noPos) ∧
      (∀ k, r.final.env.exists? k = true → env.exists? k = true ∨ ∃ x ∈ xs, x.2.final.env.exists? k = true) ∧
      r.final.tasks.map noPosTask = (xs.flatMap fun x => x.2.final.tasks).map noPosTask := by
  induction lines with
  | nil => exact absurd rfl hne
  | cons l ls ih =>
    intro xs hx hp hf ho hd
    cases xs with
    | nil => simp at hx
    | cons x rest =>
    obtain ⟨src, res⟩ := x
    simp only [List.map_cons, List.cons.injEq] at hx
    obtain ⟨rfl, hx⟩ := hx
    obtain ⟨n, hp1⟩ := hp (enc l, res) (by simp)
    dsimp only at hp1
    have hl := hw l (by simp)
    have hc := whole_tree hl hp1
    cases hc' : res.cddl with
    | none => exact absurd hc' hc
    | some ys =>
    have hel := early_late hp1 hc'
    cases ls with
    | nil =>
      cases rest with
      | cons => simp at hx
      | nil =>
      refine ⟨by simpa using hel, n, res, ys, by simpa using hp1, hc', by simp [hc'], by simp, by simp, fun k hk => .inr ⟨_, List.mem_cons_self, hk⟩, by simp⟩
    | cons l2 ls =>
      have hrne : rest ≠ [] := by rintro rfl; simp at hx
      obtain ⟨x2, rest2, rfl⟩ := List.exists_cons_of_ne_nil hrne
      obtain ⟨hd1, hd2⟩ := List.pairwise_cons.mp hd
      obtain ⟨i1, m, rB, ws, j1, j2, j3, j4, j5, j6, j7⟩ := ih (fun l hl => hw l (by simp [hl])) (by simp) hx
        (fun x hx => hp x (List.mem_cons_of_mem _ hx))
        (fun x hx => hf x (by simp [hx])) (fun x hx => ho x (by simp only [List.tail_cons] at hx ⊢; simp [hx])) hd2
      have hcl : ∀ L : List (List Char), (∀ l ∈ L, Whole l) → '�' ∉ L.flatten := by
        intro L hL hm
        obtain ⟨a, ha, hm⟩ := List.mem_flatten.mp hm
        exact (hL a ha).1 hm
      have hB := hcl (l2 :: ls) fun l hl => hw l (by simp [hl])
      have ho2 : Opens (enc (l2 :: ls).flatten) := by
        rw [List.flatten_cons]
        refine opens_front (hw l2 (by simp)) (hcl ls fun l hl => hw l (by simp [hl])) ?_
        have h1 : x2.1 = enc l2 := by
          simp only [List.map_cons, List.cons.injEq] at hx
          exact hx.1
        rw [← h1]
        exact ho x2 (by simp)
      obtain ⟨t, rfl⟩ := hl.2.1
      have hfin : Finished (enc (t ++ ['\n'])) (earlyOf res) := fun c hc d hm =>
        hf (enc (t ++ ['\n']), res) (by simp) c hc d (by rw [hel]; exact List.mem_append_left _ hm)
      obtain ⟨as, ha, hnew⟩ := source_adds hp1 hc'
      have hbel : Below env res.final.env := by
        intro k hk
        rw [ha, assoc_append, hnew k hk]
        rfl
      have hdB : ∀ k, res.final.env.exists? k = true → rB.final.env.exists? k = true → env.exists? k = true := by
        intro k h1 h2
        rcases j6 k h2 with h | ⟨x, hx, h⟩
        · exact h
        · exact hd1 x hx k h1 h
      obtain ⟨m', r, zs, es2, bs, bs', h1, h2, h3, h4, h5, h5', h6, h7, h8, h9⟩ := join_any hl hB hp1 hc' hel hfin j1 j2
        (early_late j1 j2) (fun f hf => by
          obtain ⟨l2, h3, _⟩ := scans_split (ts := [f.curTok]) (us := [f.peekTok]) (new_synced f hf).1
          exact ho2 _ _ h3) (.inr hbel) hdB
      have hflat : (t ++ ['\n']) ++ (l2 :: ls).flatten = t ++ '\n' :: (l2 :: ls).flatten := by simp
      have her : earlyOf r = earlyOf res ++ es2 := by
        have := early_late h1 h2
        rw [h4] at this
        exact (List.append_cancel_right this).symm
      have hnames := names_both ha h6 h7 h8 h9 hdB
      refine ⟨?_, m', r, zs, ?_, h2, ?_, ?_, ?_, ?_, ?_⟩
      · intro x hx
        rcases List.mem_cons.mp hx with rfl | hx
        · exact hel
        · exact i1 x hx
      · rw [List.flatten_cons, hflat]
        exact h1
      · rw [h3, List.flatMap_cons]
        simp only [noPosL_map, List.map_append] at j3 ⊢
        rw [j3, hc']
        rfl
      · rw [her, List.map_append, h5, j4, ← List.map_append]
        rfl
      · intro x hm k hk
        rw [hnames k]
        rcases List.mem_cons.mp hm with rfl | hm
        · simp only [Env.exists?] at hk
          dsimp only
          cases hb : assocFind k res.final.env.symbols with
          | none => rw [hb] at hk; cases hk
          | some y => rfl
        · cases hb : assocFind k res.final.env.symbols with
          | none => exact j5 x hm k hk
          | some y =>
            have he := hd1 x hm k (by simp [Env.exists?, hb]) hk
            obtain ⟨nx, hpx⟩ := hp x (List.mem_cons_of_mem _ hm)
            have hxc : x.2.cddl ≠ none := by
              obtain ⟨l', hl', hxe⟩ : ∃ l' ∈ l2 :: ls, enc l' = x.1 := by
                have := List.mem_map_of_mem (f := fun x : Bytes × FileResult => x.1) hm
                rw [hx] at this
                exact List.mem_map.mp this
              rw [← hxe] at hpx
              exact whole_tree (hw l' (by simp [List.mem_cons.mp hl'])) hpx
            cases hxc' : x.2.cddl with
            | none => exact absurd hxc' hxc
            | some vs =>
            obtain ⟨cs, hcs, hcn⟩ := source_adds hpx hxc'
            have e1 := hbel k he
            rw [hb] at e1
            rw [hcs, assoc_append, hcn k he, ← e1]
            rfl
      · intro k hk
        have h10 := hnames k
        simp only [Env.exists?] at hk
        cases hb : assocFind k res.final.env.symbols with
        | some y => exact .inr ⟨_, List.mem_cons_self, by simp [Env.exists?, hb]⟩
        | none =>
          rw [hb] at h10
          rcases j6 k (by
            simp only [Env.exists?]
            cases hz : assocFind k rB.final.env.symbols with
            | some y => rfl
            | none =>
              rw [hz] at h10
              rw [Option.map_eq_none_iff.mp h10] at hk
              cases hk) with h | ⟨x, hx, h⟩
          · exact .inl h
          · exact .inr ⟨x, List.mem_cons_of_mem _ hx, h⟩
      · rw [h5', List.map_append, j7, ← List.map_append]
        rfl

/-- **C127** (parts), as far as it holds: the file is parsed to the rules of the parts in order, up to positions, every name
has the value it has in its part, what is reported while rules are read is what is reported for the parts alone, and the
names reported as undeclared are those that are for a part and that no part declares. -/
theorem C127_parts_partial {env : Env} {texts : List (List Char)} {xs : List (Bytes × FileResult)} (h0 : Parts env texts xs) :
    ∃ (m : Nat) (r : FileResult) (ws : List Node) (early late : List Diag) (parts : List (List Diag × List Diag)),
      parseSource m (enc texts.flatten) env = .ok r ∧ r.cddl = some ws ∧
      noPosL ws = noPosL (xs.flatMap fun x => x.2.cddl.getD []) ∧
      r.errs = early ++ late ∧ xs.map (fun x => x.2.errs) = parts.map (fun y => y.1 ++ y.2) ∧
      early.map (fun d => noPosMsg d.msg) = (parts.flatMap fun y => y.1).map (fun d => noPosMsg d.msg) ∧
      (∀ d ∈ late ++ parts.flatMap fun y => y.2, LateKind d) ∧
      (∀ x ∈ xs, ∀ k, x.2.final.env.exists? k = true →
        (assocFind k r.final.env.symbols).map noPos = (assocFind k x.2.final.env.symbols).map noPos) ∧
      (∀ k, r.final.env.exists? k = true → env.exists? k = true ∨ ∃ x ∈ xs, x.2.final.env.exists? k = true) ∧
      ∀ k, (∃ d ∈ late, d.msg = .noSuchIdent k) ↔
        (∃ y ∈ parts, ∃ d ∈ y.2, d.msg = .noSuchIdent k) ∧ ∀ x ∈ xs, x.2.final.env.exists? k = false := by
  obtain ⟨i1, m, r, ws, h1, h2, h3, h4, h5, h6, h7⟩ := parts_mistakes h0.whole h0.some h0.sources h0.parsed h0.finished h0.opens h0.apart
  refine ⟨m, r, ws, earlyOf r, lateOf r, xs.map fun x => (earlyOf x.2, lateOf x.2), h1, h2, h3, early_late h1 h2, ?_, ?_, ?_, h5, h6, ?_⟩
  · rw [List.map_map]
    exact List.map_congr_left i1
  · rw [List.flatMap_map]
    exact h4
  · intro d hd
    rcases List.mem_append.mp hd with hd | hd
    · exact late_kind hd
    · obtain ⟨y, hy, hd⟩ := List.mem_flatMap.mp hd
      obtain ⟨x, _, rfl⟩ := List.mem_map.mp hy
      exact late_kind hd
  · have hmem : ∀ (e : Env) {tk : Task} {d : Diag} {k : Bytes}, runTask e tk = some d → d.msg = .noSuchIdent k → e.exists? k = false := by
      intro e tk d k h1 h2
      cases tk with
      | «exists» a x =>
        simp only [runTask] at h1
        split at h1 <;> cases h1
        cases h2
        rename_i hno
        exact Bool.eq_false_iff.mpr hno
      | identBound tok l y =>
        cases y <;> simp only [runTask, reduceCtorEq] at h1
        split at h1 <;> cases h1
        cases h2
      | intBound a x y =>
        simp only [runTask] at h1
        split at h1
        · cases h1; cases h2; rename_i hno; simpa using hno
        · split at h1 <;> cases h1 <;> cases h2
      | floatBound a x y =>
        simp only [runTask] at h1
        split at h1
        · cases h1; cases h2; rename_i hno; simpa using hno
        · split at h1 <;> cases h1 <;> cases h2
    have hsub : ∀ x ∈ xs, ∀ k, r.final.env.exists? k = false → x.2.final.env.exists? k = false := by
      intro x hx k hk
      cases hb : x.2.final.env.exists? k with
      | false => rfl
      | true =>
        have := h5 x hx k hb
        simp only [Env.exists?] at hk hb
        cases hr : assocFind k r.final.env.symbols with
        | some y => rw [hr] at hk; cases hk
        | none =>
          rw [hr] at this
          rw [Option.map_eq_none_iff.mp this.symm] at hb
          cases hb
    intro k
    constructor
    · rintro ⟨d, hd, hdk⟩
      obtain ⟨tk, htk, hrun⟩ := List.mem_filterMap.mp hd
      have hno := hmem _ hrun hdk
      refine ⟨?_, fun x hx => hsub x hx k hno⟩
      have := List.mem_map_of_mem (f := noPosTask) htk
      rw [h7] at this
      obtain ⟨tk', htk', heq⟩ := List.mem_map.mp this
      obtain ⟨x, hx, htk'⟩ := List.mem_flatMap.mp htk'
      obtain ⟨d', hd', hk'⟩ := late_named (e' := x.2.final.env) (fun h => by rw [hsub x hx k hno] at h; cases h) heq.symm hrun hdk
      exact ⟨_, List.mem_map_of_mem hx, d', List.mem_filterMap.mpr ⟨tk', htk', hd'⟩, hk'⟩
    · rintro ⟨⟨y, hy, d, hd, hdk⟩, hall⟩
      obtain ⟨x, hx, rfl⟩ := List.mem_map.mp hy
      obtain ⟨tk, htk, hrun⟩ := List.mem_filterMap.mp hd
      have := List.mem_map_of_mem (f := noPosTask) (List.mem_flatMap (f := fun x : Bytes × FileResult => x.2.final.tasks).mpr ⟨x, hx, htk⟩)
      rw [← h7] at this
      obtain ⟨tk', htk', heq⟩ := List.mem_map.mp this
      obtain ⟨d', hd', hk'⟩ := late_named (e' := r.final.env) (fun h => by
        rcases h6 k h with h | ⟨z, hz, h⟩
        · obtain ⟨n, hpx⟩ := h0.parsed x hx
          obtain ⟨t, ht, hxe⟩ : ∃ t ∈ texts, enc t = x.1 := by
            have := List.mem_map_of_mem (f := fun x : Bytes × FileResult => x.1) hx
            rw [h0.sources] at this
            exact List.mem_map.mp this
          rw [← hxe] at hpx
          cases hc : x.2.cddl with
          | none => exact absurd hc (whole_tree (h0.whole t ht) hpx)
          | some vs =>
            obtain ⟨cs, hcs, hcn⟩ := source_adds hpx hc
            simp only [Env.exists?] at h ⊢
            rw [hcs, assoc_append, hcn k h]
            exact h
        · rw [hall z hz] at h; cases h) heq.symm hrun hdk
      exact ⟨d', List.mem_filterMap.mpr ⟨tk', htk', hd'⟩, hk'⟩

/-- **C127** (mending), as far as it holds: if one part is replaced by another, the rules before and behind it, the values
of their names and what is reported for them while rules are read stay the same, up to positions. -/
theorem C127_mend_partial {env : Env} {A B : List (List Char)} {t t' : List Char} {xs ys : List (Bytes × FileResult)}
    {x x' : Bytes × FileResult} (h : Parts env (A ++ t :: B) (xs ++ x :: ys))
    (h' : Parts env (A ++ t' :: B) (xs ++ x' :: ys)) :
    ∃ m m' r r' us us' vs vs' ws ws' a a' b b' c c' late late',
      parseSource m (enc (A ++ t :: B).flatten) env = .ok r ∧ parseSource m' (enc (A ++ t' :: B).flatten) env = .ok r' ∧
      r.cddl = some (us ++ vs ++ ws) ∧ r'.cddl = some (us' ++ vs' ++ ws') ∧
      noPosL us = noPosL us' ∧ noPosL ws = noPosL ws' ∧ noPosL vs = noPosL (x.2.cddl.getD []) ∧ noPosL vs' = noPosL (x'.2.cddl.getD []) ∧
      r.errs = a ++ b ++ c ++ late ∧ r'.errs = a' ++ b' ++ c' ++ late' ∧
      a.map (fun d => noPosMsg d.msg) = a'.map (fun d => noPosMsg d.msg) ∧
      c.map (fun d => noPosMsg d.msg) = c'.map (fun d => noPosMsg d.msg) ∧
      b.map (fun d => noPosMsg d.msg) <+: x.2.errs.map (fun d => noPosMsg d.msg) ∧
      b'.map (fun d => noPosMsg d.msg) <+: x'.2.errs.map (fun d => noPosMsg d.msg) ∧
      (∀ d ∈ late ++ late', LateKind d) ∧
      ∀ z ∈ xs ++ ys, ∀ k, z.2.final.env.exists? k = true →
        (assocFind k r.final.env.symbols).map noPos = (assocFind k r'.final.env.symbols).map noPos := by
  obtain ⟨i1, m, r, ws, h1, h2, h3, h4, h5, -⟩ := parts_mistakes h.whole h.some h.sources h.parsed h.finished h.opens h.apart
  obtain ⟨i1', m', r', ws', h1', h2', h3', h4', h5', -⟩ := parts_mistakes h'.whole h'.some h'.sources h'.parsed h'.finished h'.opens h'.apart
  have cut : ∀ {α β : Type} {f : α → β} {l p q s : List α}, l.map f = (p ++ (q ++ s)).map f →
      ∃ p' q' s', l = p' ++ q' ++ s' ∧ p'.map f = p.map f ∧ q'.map f = q.map f ∧ s'.map f = s.map f := by
    intro α β f l p q s h
    rw [List.map_append, List.map_append] at h
    obtain ⟨p', l', rfl, e1, h⟩ := List.map_eq_append_iff.mp h
    obtain ⟨q', s', rfl, e2, e3⟩ := List.map_eq_append_iff.mp h
    exact ⟨p', q', s', by simp, e1, e2, e3⟩
  simp only [List.flatMap_append, List.flatMap_cons] at h3 h4 h3' h4'
  simp only [noPosL_map] at h3 h3'
  obtain ⟨a, b, c, ha, e1, e2, e3⟩ := cut h4
  obtain ⟨a', b', c', ha', e1', e2', e3'⟩ := cut h4'
  obtain ⟨us, vs, zs, rfl, f1, f2, f3⟩ := cut h3
  obtain ⟨us', vs', zs', rfl, f1', f2', f3'⟩ := cut h3'
  refine ⟨m, m', r, r', us, us', vs, vs', zs, zs', a, a', b, b', c, c', lateOf r, lateOf r', h1, h1', h2, h2', ?_, ?_, ?_, ?_, ?_, ?_,
    e1.trans e1'.symm, e3.trans e3'.symm, ?_, ?_, ?_, ?_⟩
  · simp only [noPosL_map]; exact f1.trans f1'.symm
  · simp only [noPosL_map]; exact f3.trans f3'.symm
  · simp only [noPosL_map]; exact f2
  · simp only [noPosL_map]; exact f2'
  · rw [← ha]; exact early_late h1 h2
  · rw [← ha']; exact early_late h1' h2'
  · rw [i1 x (by simp), List.map_append]
    exact ⟨_, congrArg (· ++ _) e2⟩
  · rw [i1' x' (by simp), List.map_append]
    exact ⟨_, congrArg (· ++ _) e2'⟩
  · intro d hd
    rcases List.mem_append.mp hd with hd | hd <;> exact late_kind hd
  · intro z hz k hk
    have hz1 : z ∈ xs ++ x :: ys := by
      rcases List.mem_append.mp hz with h | h
      · exact List.mem_append_left _ h
      · exact List.mem_append_right _ (List.mem_cons_of_mem _ h)
    have hz2 : z ∈ xs ++ x' :: ys := by
      rcases List.mem_append.mp hz with h | h
      · exact List.mem_append_left _ h
      · exact List.mem_append_right _ (List.mem_cons_of_mem _ h)
    rw [h5 z hz1 k hk, h5' z hz2 k hk]

omit [Unicode] in
theorem apart_of {env : Env} {x y : FileResult} (h : ((x.final.env.symbols.map (·.1)).all fun k =>
    !(y.final.env.symbols.map (·.1)).contains k) = true) : NamesApart env x y := by
  have key : ∀ (s : List (Bytes × Node)) k, (assocFind k s).isSome = true → k ∈ s.map (·.1) := by
    intro s k
    induction s with
    | nil => simp [assocFind]
    | cons a s ih =>
      simp only [assocFind]
      split
      · rename_i h; intro _; simp [h]
      · intro h; simp only [List.map_cons, List.mem_cons]; exact .inr (ih h)
  intro k h1 h2
  have h3 := List.all_eq_true.mp h k (key _ k (by simpa [Env.exists?] using h1))
  have h4 := key _ k (by simpa [Env.exists?] using h2)
  simp only [Bool.not_eq_true', List.contains_eq_mem, decide_eq_false_iff_not] at h3
  exact absurd h4 h3

theorem three_parts {env : Env} {n : Nat} {t1 t2 t3 : List Char} {r1 r2 r3 : FileResult} (w1 : Whole t1) (w2 : Whole t2) (w3 : Whole t3)
    (p1 : parseSource n (enc t1) env = .ok r1) (p2 : parseSource n (enc t2) env = .ok r2) (p3 : parseSource n (enc t3) env = .ok r3)
    (f1 : Finished (enc t1) r1.errs) (f2 : Finished (enc t2) r2.errs) (o2 : Opens (enc t2)) (o3 : Opens (enc t3))
    (a1 : NamesApart env r1 r2) (a2 : NamesApart env r1 r3) (a3 : NamesApart env r2 r3) :
    Parts env [t1, t2, t3] [(enc t1, r1), (enc t2, r2), (enc t3, r3)] where
  whole := by simp [w1, w2, w3]
  some := by simp
  sources := rfl
  parsed := by
    intro x hx
    simp only [List.mem_cons, List.not_mem_nil, or_false] at hx
    rcases hx with rfl | rfl | rfl
    · exact ⟨n, p1⟩
    · exact ⟨n, p2⟩
    · exact ⟨n, p3⟩
  finished := by simp [List.dropLast, f1, f2]
  opens := by simp [o2, o3]
  apart := by simp [a1, a2, a3]

omit [Unicode] in
/-- The hypotheses of `C127_mend_partial` hold where, between two parts with mistakes, a part with two mistakes is
replaced by one with none. -/
example : letI := asciiOnly; ∃ r1 r2 r2' r3,
    Parts Env.new (["a = )\n".toList] ++ "b = }\nc = [ 1 ) ]\n".toList :: ["d 1\n".toList])
      ([(enc "a = )\n".toList, r1)] ++ (enc "b = }\nc = [ 1 ) ]\n".toList, r2) :: [(enc "d 1\n".toList, r3)]) ∧
    Parts Env.new (["a = )\n".toList] ++ "b = int\n".toList :: ["d 1\n".toList])
      ([(enc "a = )\n".toList, r1)] ++ (enc "b = int\n".toList, r2') :: [(enc "d 1\n".toList, r3)]) ∧
    r1.errs.length = 1 ∧ r2.errs.length ≥ 2 ∧ r2'.errs = [] ∧ r3.errs.length = 1 := by
  let := asciiOnly
  obtain ⟨⟨r1, r2, r2', r3⟩, h1, h2⟩ := Out.of_check (o := do
      let r1 ← parseSource 60 (enc "a = )\n".toList)
      let r2 ← parseSource 60 (enc "b = }\nc = [ 1 ) ]\n".toList)
      let r2' ← parseSource 60 (enc "b = int\n".toList)
      let r3 ← parseSource 60 (enc "d 1\n".toList)
      .ok (r1, r2, r2', r3)) (f := fun r => ((r.1.errs ++ r.2.1.errs).all fun d => match d.msg with
        | .unexpectedPrefix t _ => decide (t ≠ .EOF)
        | .expectedAssign _ => false
        | _ => true) && decide (r.1.errs.length = 1 ∧ r.2.1.errs.length ≥ 2 ∧ r.2.2.1.errs = [] ∧ r.2.2.2.errs.length = 1 ∧
          r.1.final.env.symbols.map (·.1) = [] ∧ r.2.1.final.env.symbols.map (·.1) = [] ∧ r.2.2.2.final.env.symbols.map (·.1) = []))
    (by decide_cbv)
  obtain ⟨x1, e1, h1⟩ := Out.bind_eq_ok.mp h1
  obtain ⟨x2, e2, h1⟩ := Out.bind_eq_ok.mp h1
  obtain ⟨x3, e3, h1⟩ := Out.bind_eq_ok.mp h1
  obtain ⟨x4, e4, h1⟩ := Out.bind_eq_ok.mp h1
  cases h1
  rw [Bool.and_eq_true, List.all_append, Bool.and_eq_true, decide_eq_true_eq] at h2
  obtain ⟨⟨h2, h3⟩, h4, h5, h6, h7, k1, k2, k3⟩ := h2
  dsimp only at h2 h3 h4 h5 h6 h7 k1 k2 k3
  have w1 : Whole "a = )\n".toList := of_wholeCheck (n := 3) (by decide_cbv)
  have w3 : Whole "d 1\n".toList := of_wholeCheck (n := 2) (by decide_cbv)
  have o3 : Opens (enc "d 1\n".toList) := opens_of (by decide_cbv)
  refine ⟨r1, r2, r2', r3, three_parts w1 (of_wholeCheck (n := 9) (by decide_cbv)) w3 e1 e2 e4 (finished_of h2) (finished_of h3)
    (opens_of (by decide_cbv)) o3 (apart_of (by rw [k1]; rfl)) (apart_of (by rw [k1]; rfl)) (apart_of (by rw [k2]; rfl)),
    three_parts w1 (of_wholeCheck (n := 3) (by decide_cbv)) w3 e1 e3 e4 (finished_of h2) (finished_of (by rw [h6]; rfl))
    (opens_of (by decide_cbv)) o3 (apart_of (by rw [k1]; rfl)) (apart_of (by rw [k1]; rfl)) (apart_of (by rw [k3]; simp)), h4, h5, h6, h7⟩

omit [Unicode] in
/-- **C127** is false as stated: with the bracket in the first part closed the name in the second is declared, and with it
left open it is not. -/
theorem C127_refuted : letI := asciiOnly; ∃ r r',
    (∀ t ∈ ["a = [ int ]\n".toList, "a = [ int\n".toList, "b = int\n".toList], Whole t) ∧
    parseSource 60 (enc ["a = [ int ]\n".toList, "b = int\n".toList].flatten) = .ok r ∧
    parseSource 60 (enc ["a = [ int\n".toList, "b = int\n".toList].flatten) = .ok r' ∧
    r.final.env.exists? b!"b" = true ∧ r'.final.env.exists? b!"b" = false := by
  let := asciiOnly
  obtain ⟨⟨r, r'⟩, h1, h2⟩ := Out.of_check (o := do
      let r ← parseSource 60 (enc ["a = [ int ]\n".toList, "b = int\n".toList].flatten)
      let r' ← parseSource 60 (enc ["a = [ int\n".toList, "b = int\n".toList].flatten)
      .ok (r, r')) (f := fun r => r.1.final.env.exists? b!"b" && !r.2.final.env.exists? b!"b") (by decide_cbv)
  obtain ⟨x1, e1, h1⟩ := Out.bind_eq_ok.mp h1
  obtain ⟨x2, e2, h1⟩ := Out.bind_eq_ok.mp h1
  cases h1
  simp only [Bool.and_eq_true, Bool.not_eq_true'] at h2
  refine ⟨r, r', ?_, e1, e2, h2.1, h2.2⟩
  intro t ht
  simp only [List.mem_cons, List.not_mem_nil, or_false] at ht
  rcases ht with rfl | rfl | rfl
  · exact of_wholeCheck (n := 5) (by decide_cbv)
  · exact of_wholeCheck (n := 4) (by decide_cbv)
  · exact of_wholeCheck (n := 3) (by decide_cbv)

end Cddlc
