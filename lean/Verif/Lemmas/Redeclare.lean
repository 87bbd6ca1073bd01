import Verif.Lemmas.LangWhole
import Verif.Spec.Redeclare
import Verif.Lemmas.Term

/-! Files of the grammar in which names are declared more than once. -/

namespace Cddlc
open Spec PState
attribute [local instance] noMarks
variable [Unicode] {p q : PState} {n m : Nat}

/-! ### Types without a start -/

omit [Unicode] in
/-- The start of a type of the grammar. -/
theorem lang_start {part ts nx cs} (h : Lang part ts nx cs) :
    match part with
    | .operand x | .entry x => (headless x = true ↔ ∃ w, x.start = .panic w) ∧ (headless x = false ↔ ∃ pos, x.start = .ok pos)
    | .entries _ => True := by
  have fine : ∀ {x : Node} {pos}, headless x = false → x.start = .ok pos →
      (headless x = true ↔ ∃ w, x.start = .panic w) ∧ (headless x = false ↔ ∃ pos, x.start = .ok pos) := by
    intro x pos h1 h2
    simp [h1, h2]
  have keep : ∀ {x y : Node}, headless y = headless x → y.start = x.start →
      (headless x = true ↔ ∃ w, x.start = .panic w) ∧ (headless x = false ↔ ∃ pos, x.start = .ok pos) →
      (headless y = true ↔ ∃ w, y.start = .panic w) ∧ (headless y = false ↔ ∃ pos, y.start = .ok pos) := by
    intro x y h1 h2 h
    rw [h1, h2]
    exact h
  have join : ∀ {op f a b y es}, Joined op f a b y es →
      (headless a = true ↔ ∃ w, a.start = .panic w) ∧ (headless a = false ↔ ∃ pos, a.start = .ok pos) →
      (headless y = true ↔ ∃ w, y.start = .panic w) ∧ (headless y = false ↔ ∃ pos, y.start = .ok pos) := by
    intro op f a b y es h ha
    cases h with
    | field | keyed | regexp | occ => exact fine rfl rfl
    | choice | bits => exact keep rfl rfl ha
    | size h1 h2 =>
      cases a <;> simp [Node.kind] at h2 <;> first | exact fine rfl rfl | (obtain ⟨pos, h⟩ := ha.2.mp rfl; cases h)
    | compare => simp [headless, Node.start]
    | range h1 h2 =>
      cases a <;> simp [keptEnd] at h2 <;> exact fine rfl rfl
  induction h with
  | name => exact fine rfl rfl
  | single h => cases h <;> exact fine rfl rfl
  | group | array | map | tag | tagged | unclosed => exact fine rfl rfl
  | noRange => simp [headless, Node.start]
  | noted h1 h2 h3 h4 ih1 ih2 => cases h3 <;> exact fine rfl rfl
  | only _ _ _ ih => exact ih
  | comma _ _ ih => exact ih
  | marked h => cases h <;> exact fine rfl rfl
  | joined h1 h2 h3 h4 ih1 ih2 => exact join h3 ih1
  | skip _ _ ih => exact ih
  | nil => trivial
  | cons => trivial

omit [Unicode] in
theorem rules_start {eof ts rules ds cs} (h : Rules eof ts rules ds cs) : ∀ d ∈ ds,
    (headless d.2 = true ↔ ∃ w, d.2.start = .panic w) ∧ (headless d.2 = false ↔ ∃ pos, d.2.start = .ok pos) := by
  induction h with
  | nil => nofun
  | comments _ _ _ _ ih => exact ih
  | declare h1 h2 h3 hb hr ih =>
    intro d hd
    rcases List.mem_cons.mp hd with rfl | hd
    · exact lang_start h3
    · exact ih d hd
  | extend h1 h2 h3 hb hr ih => exact ih

/-! ### Rules -/

/-- The bindings of an environment are the first ones of a list. -/
def Binds (env : Env) (seen : List (Bytes × Node)) : Prop :=
  ∀ k, assocFind k env.symbols = (seen.find? (·.1 = k)).map (·.2)

omit [Unicode] in
theorem Binds.exists {env : Env} {seen} (h : Binds env seen) (k : Bytes) : env.exists? k = (seen.find? (·.1 = k)).isSome := by
  unfold Env.exists?
  rw [h k, Option.isSome_map]

omit [Unicode] in
theorem Binds.old {env : Env} {seen} (h : Binds env seen) {k : Bytes} {b} (hb : seen.find? (·.1 = k) = some b) (x : Node) :
    Binds env (seen ++ [(k, x)]) := by
  intro j
  rw [h j, List.find?_append]
  cases hj : seen.find? (·.1 = j) with
  | some y => simp
  | none =>
    have : k ≠ j := by rintro rfl; rw [hb] at hj; cases hj
    simp [this]

omit [Unicode] in
theorem Binds.fresh {env : Env} {seen} (h : Binds env seen) {k : Bytes} (hb : seen.find? (·.1 = k) = none) (x : Node) :
    Binds ⟨(k, x) :: env.symbols⟩ (seen ++ [(k, x)]) := by
  intro j
  rw [assocFind, List.find?_append]
  by_cases hk : k = j
  · subst hk
    simp [hb]
  · rw [if_neg hk, h j]
    simp [hk]

/-- How a file of the grammar is read when names may be declared already. -/
theorem rules_repeats {eof : Token} (he : eof.tok = .EOF) {ts rules ds cs} (h : Rules eof ts rules ds cs) :
    ∃ N, ∀ n, N ≤ n → ∀ m, N ≤ m → ∀ acc (p : PState) j seen, Stands p (ts ++ pad eof j) → ts.length + 4 ≤ j → (∀ t ∈ ts, TokOK t) →
      Binds p.env seen →
      (∀ d ∈ repeats seen ds, ∃ pos, d.2.start = .ok pos) ∧ (∃ q, loopOut (fileStep n) m (acc, p) = .ok (acc ++ rules, q) ∧
        (∃ errs, q.errors = p.errors ++ errs ∧ errs.map (noPosMsg ·.msg) = (repeats seen ds).map (Msg.existing ·.1 0 0)) ∧
        (∃ new, q.tasks = p.tasks ++ new ∧ new.filterMap Task.check = cs) ∧ Binds q.env (seen ++ ds)) ∨
      (∃ d ∈ repeats seen ds, ¬ ∃ pos, d.2.start = .ok pos) ∧ ∃ w, loopOut (fileStep n) m (acc, p) = .panic w := by
  have step : ∀ {n m acc p q q1 e}, p.cur ≠ .EOF → parseRule n p = .ok (e, none, q) → e.isNil = false →
      q.next = .ok q1 →
      loopOut (fileStep n) (m + 1) (acc, p) = loopOut (fileStep n) m (acc ++ [e], q1) := by
    intro n m acc p q q1 e h1 h2 h3 h5
    have : fileStep n (acc, p) = .ok (.inl (acc ++ [e], q1)) := by
      unfold fileStep
      rw [if_neg h1]
      dsimp only
      rw [h2]
      show Out.bind q.next _ = _
      rw [h5, h3]
      rfl
    rw [loopOut, this]
  have crash : ∀ {n m acc p w}, p.cur ≠ .EOF → parseRule n p = .panic w → loopOut (fileStep n) (m + 1) (acc, p) = .panic w := by
    intro n m acc p w h1 h2
    have : fileStep n (acc, p) = .panic w := by
      unfold fileStep
      rw [if_neg h1]
      dsimp only
      rw [h2]
      rfl
    rw [loopOut, this]
  induction h with
  | nil =>
    refine ⟨1, fun n _ m hm acc p j seen hf hj _ hb => ?_⟩
    obtain ⟨m, rfl⟩ : ∃ k, m = k + 1 := ⟨m - 1, by omega⟩
    obtain ⟨w, ws, hw⟩ := pad_first (eof := eof) [] (show 2 ≤ j by simp at hj; omega)
    rw [hw] at hf
    refine .inl ⟨nofun, p, ?_, ⟨[], by simp [repeats]⟩, ⟨[], by simp⟩, by simpa using hb⟩
    rw [loopOut]
    unfold fileStep
    rw [if_pos ((cur_of hf.1).1.trans he)]
    simp
  | @comments gs us rs ds es h1 h2 h3 hr ih =>
    obtain ⟨M, hM⟩ := ih
    refine ⟨gs.length + M + 2, fun n hn m hm acc p j seen hf hj hok hbd => ?_⟩
    obtain ⟨m, rfl⟩ : ∃ k, m = k + 1 := ⟨m - 1, by omega⟩
    simp only [List.length_append] at hj
    obtain ⟨w, ws, hw⟩ := pad_first (eof := eof) us (show 2 ≤ j by omega)
    rw [List.append_assoc, hw] at hf
    obtain ⟨q, k1, k2, k3, k4⟩ := comment_at (n := n) h2 h1 hf h3 (by omega)
    obtain ⟨q1, j1, j2, j3, j4⟩ := ahead_next k3
    have hf1 : Stands q1 (us ++ pad eof j) := by rw [hw]; exact ⟨j2, j3⟩
    have hsm := k4.trans j4
    have hpc : p.cur = .COMMENT := by
      obtain ⟨g, gs, rfl⟩ := List.exists_cons_of_ne_nil h1
      exact (cur_of hf.1).1.trans (h2 g (by simp))
    have hst : loopOut (fileStep n) (m + 1) (acc, p) = loopOut (fileStep n) m (acc ++ [commentTree gs], q1) := by
      refine step (by rw [hpc]; decide) (e := commentTree gs) (q := q) ?_ ?_ j1
      · unfold parseRule
        rw [hpc]
        exact k1
      · unfold commentTree
        split <;> rfl
    rw [hst]
    rcases hM n (by omega) m (by omega) (acc ++ [commentTree gs]) q1 j seen hf1 (by omega)
      (fun t ht => hok t (by simp [ht])) (by rw [hsm.1]; exact hbd) with ⟨i0, q2, i1, i2, i3, i5⟩ | hp
    · exact .inl ⟨i0, q2, by rw [i1]; simp, by rw [← hsm.2.1]; exact i2, by rw [← hsm.2.2]; exact i3, i5⟩
    · exact .inr hp
  | @declare nm a ts us vs' x k cs rs ds es h1 h2 h3 hb hr ih =>
    obtain ⟨N, hN⟩ := run_rule (a := a) h1 (lang_runs h3) hb
    obtain ⟨M, hM⟩ := ih
    refine ⟨N + M + 1, fun n hn m hm acc p j seen hf hj hok hbd => ?_⟩
    obtain ⟨m, rfl⟩ : ∃ k, m = k + 1 := ⟨m - 1, by omega⟩
    simp only [List.length_append, List.length_cons] at hj
    have hpc : p.cur = .IDENT := (cur_of hf.1).1.trans h1
    obtain ⟨q, j', k1, hj', k2, k3, _⟩ := hN n (by omega) p j hf (by omega) (fun t ht => hok t (by simp [ht]))
    have hlen := behind_length hb
    have k3 := k3 h2
    obtain ⟨e1, e2, new, e3, e4⟩ := k2
    obtain ⟨w, ws, hw⟩ := pad_first (eof := eof) vs' (show 2 ≤ j' by omega)
    rw [hw] at k1
    -- what follows when the rule is read
    have rest : ∀ (r : PState) (rep : List (Bytes × Node)) errs, Ahead r (firstTok vs' eof :: w :: ws) →
        parseRule n p = .ok (.rule {} ⟨nm.pos, nm.lit⟩ x k, none, r) → r.tasks = q.tasks → r.errors = p.errors ++ errs →
        errs.map (noPosMsg ·.msg) = rep.map (Msg.existing ·.1 0 0) → (∀ d ∈ rep, ∃ pos, d.2.start = .ok pos) →
        Binds r.env (seen ++ [(nm.lit, x)]) → repeats seen ((nm.lit, x) :: ds) = rep ++ repeats (seen ++ [(nm.lit, x)]) ds → 
        (∀ d ∈ repeats seen ((nm.lit, x) :: ds), ∃ pos, d.2.start = .ok pos) ∧
        (∃ q, loopOut (fileStep n) (m + 1) (acc, p) = .ok (acc ++ .rule {} ⟨nm.pos, nm.lit⟩ x k :: rs, q) ∧
          (∃ errs, q.errors = p.errors ++ errs ∧ errs.map (noPosMsg ·.msg) = (repeats seen ((nm.lit, x) :: ds)).map (Msg.existing ·.1 0 0)) ∧
          (∃ new, q.tasks = p.tasks ++ new ∧ new.filterMap Task.check = cs ++ es) ∧ Binds q.env (seen ++ (nm.lit, x) :: ds)) ∨
        (∃ d ∈ repeats seen ((nm.lit, x) :: ds), ¬ ∃ pos, d.2.start = .ok pos) ∧ ∃ w, loopOut (fileStep n) (m + 1) (acc, p) = .panic w := by
      intro r rep errs hr1 hr2 hr3 hr4 hr5 hr6 hr7 hr8
      obtain ⟨q1, j1, j2, j3, j4⟩ := ahead_next hr1
      have hf1 : Stands q1 (vs' ++ pad eof j') := by rw [hw]; exact ⟨j2, j3⟩
      rw [step (by rw [hpc]; decide) hr2 rfl j1, hr8]
      rcases hM n (by omega) m (by omega) (acc ++ [.rule {} ⟨nm.pos, nm.lit⟩ x k]) q1 j' (seen ++ [(nm.lit, x)]) hf1 (by omega)
        (fun t ht => hok t (by simp [behind_mem hb t ht])) (by rw [j4.1]; exact hr7) with
        ⟨i0, q2, i1, ⟨errs', i2, i2'⟩, ⟨new', i3, i4⟩, i5⟩ | ⟨⟨d, hd, i1⟩, i2⟩
      · refine .inl ⟨fun d hd => ?_, q2, by rw [i1]; simp, ⟨errs ++ errs', ?_, ?_⟩, ⟨new ++ new', ?_, ?_⟩, ?_⟩
        · rcases List.mem_append.mp hd with hd | hd
          · exact hr6 d hd
          · exact i0 d hd
        · rw [i2, j4.2.1, hr4, List.append_assoc]
        · simp only [List.map_append, hr5, i2']
        · rw [i3, j4.2.2, hr3, ← List.append_assoc, ← e3]
        · rw [List.filterMap_append, e4, i4]
        · simpa using i5
      · exact .inr ⟨⟨d, List.mem_append_right _ hd, i1⟩, i2⟩
    cases hfd : seen.find? (·.1 = nm.lit) with
    | none =>
      have hx : q.env.exists? nm.lit = false := by rw [e1, hbd.exists, hfd]; rfl
      rw [declare_fresh hx] at k3
      exact rest { q with env := ⟨(nm.lit, x) :: q.env.symbols⟩ } [] [] k1 k3 rfl (by simpa using e2) rfl nofun
        (by rw [e1]; exact hbd.fresh hfd x) (by simp [repeats, hfd])
    | some b =>
      have hx : q.env.exists? nm.lit = true := by rw [e1, hbd.exists, hfd]; rfl
      have hg : q.env.get nm.lit = b.2 := by
        unfold Env.get
        rw [e1, hbd, hfd]
        rfl
      have hdec : declare ⟨nm.pos, nm.lit⟩ x q = b.2.start.bind fun s =>
          .ok (q.addError ⟨.existing nm.lit s.line s.column, nm.pos, nm.pos⟩) := by
        unfold declare Env.add
        dsimp only
        rw [if_pos hx]
        dsimp only
        rw [hg]
        rfl
      rw [hdec] at k3
      cases hst : b.2.start with
      | hang => exact absurd hst (start_ne_hang _)
      | panic w' =>
        rw [hst] at k3
        refine .inr ⟨⟨(nm.lit, b.2), by simp [repeats, hfd], ?_⟩, w', crash (by rw [hpc]; decide) k3⟩
        rintro ⟨pos, h⟩
        rw [hst] at h
        cases h
      | ok s =>
        rw [hst] at k3
        exact rest (q.addError ⟨.existing nm.lit s.line s.column, nm.pos, nm.pos⟩) [(nm.lit, b.2)]
          [⟨.existing nm.lit s.line s.column, nm.pos, nm.pos⟩] k1 k3 rfl (by show q.errors ++ _ = _; rw [e2]) rfl
          (by simp [hst]) (by show Binds q.env _; rw [e1]; exact hbd.old hfd x) (by simp [repeats, hfd])
  | @extend nm a ts us vs' x k cs rs ds es h1 h2 h3 hb hr ih =>
    obtain ⟨N, hN⟩ := run_rule (a := a) h1 (lang_runs h3) hb
    obtain ⟨M, hM⟩ := ih
    refine ⟨N + M + 1, fun n hn m hm acc p j seen hf hj hok hbd => ?_⟩
    obtain ⟨m, rfl⟩ : ∃ k, m = k + 1 := ⟨m - 1, by omega⟩
    simp only [List.length_append, List.length_cons] at hj
    have hpc : p.cur = .IDENT := (cur_of hf.1).1.trans h1
    obtain ⟨q, j', k1, hj', k2, _, k3⟩ := hN n (by omega) p j hf (by omega) (fun t ht => hok t (by simp [ht]))
    have hlen := behind_length hb
    have k3 := k3 h2
    obtain ⟨w, ws, hw⟩ := pad_first (eof := eof) vs' (show 2 ≤ j' by omega)
    rw [hw] at k1
    obtain ⟨q1, j1, j2, j3, j4⟩ := ahead_next k1
    have hf1 : Stands q1 (vs' ++ pad eof j') := by rw [hw]; exact ⟨j2, j3⟩
    have he1 : q1.env = p.env := j4.1.trans k2.1
    obtain ⟨e1, e2, new, e3, e4⟩ := k2
    rw [step (by rw [hpc]; decide) k3 rfl j1]
    rcases hM n (by omega) m (by omega) (acc ++ [.rule {} ⟨nm.pos, nm.lit⟩ x k]) q1 j' seen hf1 (by omega)
      (fun t ht => hok t (by simp [behind_mem hb t ht])) (by rw [he1]; exact hbd) with
      ⟨i0, q2, i1, i2, ⟨new', i3, i4⟩, i5⟩ | hp
    · refine .inl ⟨i0, q2, by rw [i1]; simp, by rw [← e2, ← j4.2.1]; exact i2, ⟨new ++ new', ?_, ?_⟩, i5⟩
      · rw [i3, j4.2.2, ← List.append_assoc, ← e3]
      · rw [List.filterMap_append, e4, i4]
    · exact .inr hp

end Cddlc
