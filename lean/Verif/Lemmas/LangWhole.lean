import Verif.Lemmas.LangRules
import Verif.Lemmas.RunFile

/-! The language of Spec/Language.lean and whole sources. -/

namespace Cddlc
open Spec PState
attribute [local instance] noMarks
variable [Unicode] {p q : PState} {n m : Nat}

/-! ### Names -/

omit [Unicode] in
theorem assocFind_find {α} (k : Bytes) : (s : List (Bytes × α)) → assocFind k s = (s.find? (·.1 = k)).map (·.2)
  | [] => rfl
  | (k', x) :: s => by
    rw [assocFind, List.find?_cons]
    by_cases h : k' = k
    · simp [h]
    · simp [h, assocFind_find k s]

omit [Unicode] in
theorem find_reverse {k : Bytes} : {ds : List (Bytes × Node)} → (ds.map (·.1)).Nodup →
    ds.reverse.find? (·.1 = k) = ds.find? (·.1 = k)
  | [], _ => rfl
  | (k', x) :: ds, h => by
    simp only [List.map_cons, List.nodup_cons] at h
    rw [List.reverse_cons, List.find?_append, find_reverse h.2, List.find?_cons]
    by_cases hk : k' = k
    · subst hk
      have : ds.find? (·.1 = k') = none := by
        rw [List.find?_eq_none]
        intro d hd hk
        exact h.1 (List.mem_map.mpr ⟨d, hd, by simpa using hk⟩)
      simp [this]
    · simp [hk]

omit [Unicode] in
theorem declared_kind {ds s : List (Bytes × Node)} {e : Env} (hd : (ds.map (·.1)).Nodup)
    (he : e.symbols = ds.reverse ++ s) (k : Bytes) :
    declaredKind (ds ++ s) k = if e.exists? k then some (e.get k).kind else none := by
  unfold declaredKind Env.exists? Env.get
  rw [he, assocFind_find, List.find?_append, List.find?_append, find_reverse hd]
  cases ds.find? (·.1 = k) with
  | some x => simp
  | none => cases s.find? (·.1 = k) <;> simp

omit [Unicode] in
theorem fresh_exists {ds : List (Bytes × Node)} {env : Env} :
    FreshFor ds env ↔ (ds.map (·.1)).Nodup ∧ ∀ d ∈ ds, d.1 ∉ env.symbols.map (·.1) := by
  unfold FreshFor
  refine and_congr_right fun _ => forall_congr' fun d => forall_congr' fun _ => ?_
  unfold Env.exists?
  rw [assocFind_find]
  cases hf : env.symbols.find? (·.1 = d.1) with
  | some x =>
    have h1 := List.find?_some hf
    have h2 := List.mem_of_find?_eq_some hf
    simp only [decide_eq_true_eq] at h1
    simp only [Option.map_some, Option.isSome_some, Bool.true_eq_false, false_iff, Decidable.not_not]
    exact List.mem_map.mpr ⟨x, h2, h1⟩
  | none =>
    rw [List.find?_eq_none] at hf
    simp only [Option.map_none, Option.isSome_none, true_iff]
    intro hm
    obtain ⟨x, h1, h2⟩ := List.mem_map.mp hm
    exact hf x h1 (by simpa using h2)

/-! ### Checks -/

omit [Unicode] in
theorem task_checkOf {e : Env} {kind : Bytes → Option NodeKind}
    (hk : ∀ k, kind k = if e.exists? k then some (e.get k).kind else none) (t : Task) :
    (runTask e t).map (fun d => noPosMsg d.msg) = t.check.bind (Check.failure kind) := by
  have hget : ∀ k, e.exists? k = false → (e.get k).kind = .none := by
    intro k hk
    unfold Env.exists? at hk
    unfold Env.get
    cases hf : assocFind k e.symbols with
    | none => rfl
    | some x => rw [hf] at hk; cases hk
  have hgetD : ∀ k, (kind k).getD .none = (e.get k).kind := by
    intro k
    rw [hk k]
    cases he : e.exists? k with
    | true => rfl
    | false => simp [hget k he]
  cases t with
  | «exists» k pos =>
    simp only [runTask, Task.check, Option.bind_some, Check.failure, hk k]
    cases e.exists? k <;> simp [noPosMsg]
  | identBound tok l to =>
    cases to <;> simp only [runTask, Task.check, Option.bind_some, Option.bind_none, Check.failure, hgetD, Option.map_none]
    split <;> simp [noPosMsg]
  | intBound k s s' =>
    simp only [runTask, Task.check, Option.bind_some, Check.failure, hk k]
    cases e.exists? k with
    | false => simp [noPosMsg]
    | true => cases (e.get k).kind <;> simp [noPosMsg]
  | floatBound k s s' =>
    simp only [runTask, Task.check, Option.bind_some, Check.failure, hk k]
    cases e.exists? k with
    | false => simp [noPosMsg]
    | true => cases (e.get k).kind <;> simp [noPosMsg]

omit [Unicode] in
theorem tasks_checksOf {e : Env} {kind : Bytes → Option NodeKind}
    (hk : ∀ k, kind k = if e.exists? k then some (e.get k).kind else none) (ts : List Task) :
    (ts.filterMap (runTask e)).map (fun d => noPosMsg d.msg) =
      (ts.filterMap Task.check).filterMap (Check.failure kind) := by
  rw [List.filterMap_filterMap, List.map_filterMap]
  congr 1
  funext t
  exact task_checkOf hk t

/-! ### Tokens -/

/-- Every token of a source is one of those in front of the end, or the end. -/
theorem tk_of {src : Bytes} {ts eof L} (hs : Scans (Lexer.new src) (ts ++ [eof]) L) (he : eof.tok = .EOF) {t}
    (h : Tk (Lexer.new src) t) : t ∈ ts ∨ t = eof := by
  obtain ⟨us, l', h⟩ := h
  obtain ⟨L', hp⟩ := scans_pad hs he (us ++ [t]).length
  have := (scans_det h hp (by simp; omega)).subset (show t ∈ us ++ [t] by simp)
  simp only [List.mem_append, List.mem_replicate, List.mem_cons, List.not_mem_nil, or_false] at this
  rcases this with (h | ⟨_, h⟩) | h
  · exact .inl h
  all_goals exact .inr h

theorem ends_of {src : Bytes} {ts eof L} (hs : Scans (Lexer.new src) (ts ++ [eof]) L) (he : eof.tok = .EOF)
    (hc : ∀ t ∈ ts, t.tok ≠ .EOF) : LastTok (Lexer.new src) eof := by
  refine ⟨fun t ht hte => ?_, ?_⟩
  · rcases tk_of hs he ht with h | h
    · exact absurd hte (hc t h)
    · exact h
  · rintro p ⟨us, hp⟩ hpe
    unfold Synced at hp
    obtain ⟨m, h1, h2⟩ := scans_split (ts := us ++ [p.curTok]) (us := [p.peekTok]) (by simpa using hp)
    obtain ⟨-, M', h3, -⟩ := C03_eof_absorbing h1 hpe
    cases h2 with
    | cons h4 _ =>
      rw [h4] at h3
      simp only [Out.ok.injEq, Prod.mk.injEq] at h3
      simp [h3]

/-! ### Sources -/

/-- What is read up to the end of a source is all of its tokens. -/
theorem whole_tokens {src : Bytes} {ts eof L} {env : Env} {p q : PState} {us vs : List Token}
    (hs : Scans (Lexer.new src) (ts ++ [eof]) L) (he : eof.tok = .EOF)
    (hc : ∀ t ∈ ts, t.tok ≠ .EOF) (h1 : PState.new (Lexer.new src) env = .ok p) (i1 : Span p (us ++ vs ++ [q.curTok]) q)
    (hvs : vs = [] ∨ vs = [eof]) (i0 : ∀ t ∈ us, t.tok ≠ .EOF) (i2 : q.cur = .EOF) : us = ts := by
  obtain ⟨k1, -⟩ := PState.new_synced p h1
  have hqe : q.curTok = eof := (ends_of hs he hc).cur (i1.on ⟨_, k1⟩) i2
  obtain ⟨M, j3⟩ : ∃ M, Scans (Lexer.new src) (us ++ [eof]) M := by
    obtain ⟨vs', ws, j1, j2, -⟩ := i1
    rw [List.append_cancel_right_eq] at j2
    subst j2
    have hw : Synced (Lexer.new src) ([] ++ (us ++ vs)) q := j1 _ _ k1
    unfold Synced at hw
    rw [hqe] at hw
    rcases hvs with rfl | rfl
    · obtain ⟨m, h, -⟩ := scans_split (ts := us ++ [eof]) (us := [q.peekTok]) (by simpa using hw)
      exact ⟨m, h⟩
    · obtain ⟨m, h, -⟩ := scans_split (ts := us ++ [eof]) (us := [eof, q.peekTok]) (by simpa using hw)
      exact ⟨m, h⟩
  rcases Nat.le_total (us ++ [eof]).length (ts ++ [eof]).length with hle | hle
  · obtain ⟨w, hw⟩ := scans_det j3 hs hle
    rcases List.eq_nil_or_concat w with rfl | ⟨w, x, rfl⟩
    · exact (List.append_inj' ((List.append_nil _).symm.trans hw) rfl).1
    · rw [List.concat_eq_append, ← List.append_assoc] at hw
      have := (List.append_inj' hw rfl).1
      exact absurd he (hc _ (this ▸ by simp))
  · obtain ⟨w, hw⟩ := scans_det hs j3 hle
    rcases List.eq_nil_or_concat w with rfl | ⟨w, x, rfl⟩
    · exact (List.append_inj' ((List.append_nil _).symm.trans hw) rfl).1.symm
    · rw [List.concat_eq_append, ← List.append_assoc] at hw
      have := (List.append_inj' hw rfl).1
      exact absurd he (i0 _ (this ▸ by simp))

theorem lang_sound {src : Bytes} {ts eof L} {env : Env} {res : FileResult} {rules}
    (hs : Scans (Lexer.new src) (ts ++ [eof]) L) (he : eof.tok = .EOF)
    (hc : ∀ t ∈ ts, t.tok ≠ .EOF) (h : parseSource n src env = .ok res) (hw : ReadWell res rules) :
    ∃ ds cs, Rules eof ts rules ds cs ∧ FreshFor ds env ∧
      res.errs.map (fun d => noPosMsg d.msg) = cs.filterMap (Check.failure (declaredKind (ds ++ env.symbols))) ∧
      res.final.env.symbols = ds.reverse ++ env.symbols := by
  obtain ⟨p, q, h1, h2, h3, h4, h5, h6, h7⟩ := well_loop h hw
  obtain ⟨k1, k2, k3, k4⟩ := PState.new_synced p h1
  have hE := ends_of hs he hc
  obtain ⟨i2, us, ds, cs, rs, ⟨⟨vs, i1, hvs⟩, i0, i3, ⟨new, i5, i6⟩, i7, i8⟩, i4⟩ :=
    loop_lang (new_spells src) hE n ⟨_, k1⟩ k3 h3 h4
  simp only [List.nil_append] at i4
  subst i4
  rw [k4, List.nil_append] at i5
  rw [k2] at i7 i8
  have hus : us = ts := whole_tokens hs he hc h1 i1 hvs i0 i2
  subst hus
  refine ⟨ds, cs, i3, i8, ?_, ?_⟩
  · rw [h7, tasks_checksOf (declared_kind i8.1 i7), i5, i6]
  · rw [← h5, i7]

omit [Unicode] in
/-- No file begins with a text. -/
theorem rules_begin {eof : Token} {ts rules ds cs} (hr : Rules eof ts rules ds cs) : ∀ t ∈ ts.take 2, t.tok ≠ .TEXT_LITERAL := by
  have head : ∀ {us rs ds es}, Rules eof us rs ds es → ∀ t ∈ us.head?, t.tok = .COMMENT ∨ t.tok = .IDENT := by
    intro us rs ds es h t ht
    cases h with
    | nil => cases ht
    | comments k1 k2 =>
      rename_i gs us
      obtain ⟨g, gs, rfl⟩ := List.exists_cons_of_ne_nil k1
      cases ht
      exact .inl (k2 _ (by simp))
    | declare k1 => cases ht; exact .inr k1
    | extend k1 => cases ht; exact .inr k1
  cases hr with
  | nil => simp
  | declare k1 k2 => simp [k1, k2]
  | extend k1 k2 => rcases k2 with k2 | k2 <;> simp [k1, k2]
  | comments k1 k2 k3 k4 =>
    rename_i gs us rs
    match gs, k1 with
    | [g], _ =>
      intro t ht
      rw [List.cons_append, List.nil_append, List.take_succ_cons] at ht
      rcases List.mem_cons.mp ht with rfl | ht
      · rw [k2 _ (by simp)]; decide
      · have : t ∈ us.head? := by
          cases us with
          | nil => cases ht
          | cons a us => simp at ht; simp [ht]
        rcases head k4 t this with h | h <;> rw [h] <;> decide
    | g :: g' :: gs, _ =>
      intro t ht
      simp at ht
      rcases ht with rfl | rfl <;> rw [k2 _ (by simp)] <;> decide

theorem lang_complete {src : Bytes} {ts eof L} {env : Env} {rules ds cs}
    (hs : Scans (Lexer.new src) (ts ++ [eof]) L) (he : eof.tok = .EOF)
    (hr : Rules eof ts rules ds cs) (hf : FreshFor ds env) :
    ∃ N, ∀ n, N ≤ n → ∃ res, parseSource n src env = .ok res ∧ res.cddl = some rules ∧
      res.errs.map (fun d => noPosMsg d.msg) = cs.filterMap (Check.failure (declaredKind (ds ++ env.symbols))) ∧
      res.final.env.symbols = ds.reverse ++ env.symbols := by
  obtain ⟨p, h1, h2, h3, h4, h5, h6⟩ := new_start hs he env (ts.length + 2)
  have h6 : p.lx.errors = [] := h6 (rules_begin hr)
  have hok : ∀ t ∈ ts, TokOK t := fun t ht =>
    ⟨scans_spelled hs t (by simp [ht]), Lexer.ident_ne hs t (by simp [ht])⟩
  obtain ⟨N, hN⟩ := rules_run he hr
  refine ⟨N, fun n hn => ?_⟩
  obtain ⟨q, i1, i2, ⟨new, i3, i4⟩, i5⟩ := hN n hn n hn [] p _ h5 (by omega) hok (by rw [h2]; exact hf)
  rw [h4, List.nil_append] at i3
  rw [h2] at i5
  refine ⟨⟨some rules, q.runTasks.errors, q.runTasks⟩, ?_, rfl, ?_, ?_⟩
  · unfold parseSource
    rw [h1]
    show PState.parseFile n p = _
    unfold parseFile
    rw [if_neg (by simp [h6]), i1]
    simp [Out.bind_def, Out.bind]
  · show (q.errors ++ q.tasks.filterMap (runTask q.env)).map _ = _
    rw [i2, h3, List.nil_append, tasks_checksOf (declared_kind hf.1 i5), i3, i4]
  · exact i5

end Cddlc
