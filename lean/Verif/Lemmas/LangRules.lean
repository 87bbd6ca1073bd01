import Verif.Lemmas.LangRun
import Verif.Lemmas.LexErr

/-! Files of the grammar of Spec/Language.lean are accepted, and the results of the checks. -/

namespace Cddlc
open Spec PState
attribute [local instance] noMarks
variable [Unicode] {p q : PState} {n m : Nat}

/-! ### Rules -/

/-- The end of the source, `j` times. -/
abbrev pad (eof : Token) (j : Nat) : List Token := List.replicate j eof

omit [Unicode] in
theorem pad_first {eof : Token} (us : List Token) {j : Nat} (hj : 2 ≤ j) :
    ∃ w ws, us ++ pad eof j = firstTok us eof :: w :: ws := by
  obtain ⟨j, rfl⟩ : ∃ i, j = i + 2 := ⟨j - 2, by omega⟩
  match us with
  | [] => exact ⟨_, _, rfl⟩
  | [a] => exact ⟨_, _, rfl⟩
  | a :: b :: us => exact ⟨_, _, rfl⟩

/-- A comment behind a rule, and the token behind it. -/
theorem run_behind {eof : Token} {ts us vs : List Token} {k : Option Comment} {j} (hb : Behind eof ts us k vs)
    (h : Ahead q (us ++ pad eof j)) (hl : ts.getLast? = some q.curTok) (hj : 4 ≤ j) :
    ∃ q' j', ruleTrailing q = .ok (k, q') ∧ Ahead q' (vs ++ pad eof j') ∧ Same q q' ∧ j ≤ j' + 1 ∧ vs.length ≤ us.length := by
  cases hb with
  | none hn =>
    refine ⟨q, j, ?_, h, .refl q, by omega, Nat.le_refl _⟩
    obtain ⟨w, ws, hw⟩ := pad_first (eof := eof) us (show 2 ≤ j by omega)
    rw [hw] at h
    rw [trails_at h hl] at hn
    unfold ruleTrailing
    rw [if_neg hn]
  | @some c us hc =>
    obtain ⟨w, w', ws, hw, hv⟩ : ∃ w w' ws, us ++ pad eof j = w :: w' :: ws ∧
        ∃ j', w' :: ws = us.tail ++ pad eof j' ∧ j ≤ j' + 1 := by
      obtain ⟨j, rfl⟩ : ∃ i, j = i + 2 := ⟨j - 2, by omega⟩
      match us with
      | [] => exact ⟨_, _, _, rfl, j + 1, rfl, by omega⟩
      | [a] => exact ⟨_, _, _, rfl, j + 2, rfl, by omega⟩
      | a :: b :: us => exact ⟨_, _, _, rfl, j + 2, rfl, by omega⟩
    rw [List.cons_append, hw] at h
    obtain ⟨j', hv, hj'⟩ := hv
    rw [trails_at h hl] at hc
    obtain ⟨q1, a1, a2, a3, a4⟩ := ahead_next h
    obtain ⟨q2, b1, b2, b3, b4⟩ := ahead_next a3
    refine ⟨q2, j', ?_, by rw [← hv]; exact b3, a4.trans b4, hj', by simp; omega⟩
    unfold ruleTrailing
    rw [if_pos hc, a1]
    show Out.bind q1.next _ = _
    rw [b1]
    show Out.ok (Option.some q1.parseInnerComment, q2) = _
    unfold parseInnerComment
    rw [(cur_of a2).2.1, (cur_of a2).2.2]

omit [Unicode] in
theorem declare_fresh {i : Ident} {x : Node} (h : q.env.exists? i.name = false) :
    declare i x q = .ok { q with env := ⟨(i.name, x) :: q.env.symbols⟩ } := by
  unfold declare Env.add
  rw [if_neg (by rw [h]; decide)]

theorem run_rule {eof nm a : Token} {ts us vs x cs k} (hn : nm.tok = .IDENT)
    (h : RunsEn x ts (firstTok us eof) cs) (hb : Behind eof ts us k vs) :
    ∃ N, ∀ n, N ≤ n → ∀ (p : PState) j, Stands p (nm :: a :: ts ++ us ++ pad eof j) → 4 ≤ j → (∀ t ∈ ts, TokOK t) →
      ∃ q j', Ahead q (vs ++ pad eof j') ∧ j ≤ j' + 1 ∧ Eff p q cs ∧
        (a.tok = .ASSIGN →
          parseRule n p = (declare ⟨nm.pos, nm.lit⟩ x q).bind fun r => .ok (.rule {} ⟨nm.pos, nm.lit⟩ x k, none, r)) ∧
        (a.tok = .TYPE_CHOICE_ASSIGN ∨ a.tok = .GROUP_CHOICE_ASSIGN →
          parseRule n p = .ok (.rule {} ⟨nm.pos, nm.lit⟩ x k, none, q)) := by
  obtain ⟨M, h0⟩ := runs_entry h
  obtain ⟨N, h⟩ := runs_next h
  refine ⟨N + M, fun n hnn p j hf hj hok => ?_⟩
  obtain ⟨w, ws, hw⟩ := pad_first (eof := eof) us (show 2 ≤ j by omega)
  have hf' : Stands p (nm :: ((a :: ts) ++ firstTok us eof :: w :: ws)) := by
    rw [← hw]; simpa using hf
  obtain ⟨c1, c2, c3⟩ := cur_of hf'.1
  obtain ⟨p1, g1, g2, g3⟩ := at_into hf'
  have d1 := (cur_of g2.1).1
  obtain ⟨p2, q, k1, k2, k3, k4, k5, k6, k7, k8⟩ := h n (by omega) p1 a w ws g2 hok
  by_cases ha : a.tok = .ASSIGN
  · rw [← hw] at k5
    obtain ⟨q', j', b1, b2, b3, b4, -⟩ := run_behind hb k5 k8 hj
    have heff : Eff p q' cs := (g3.then k6).same b3
    refine ⟨q', j', b2, b4, heff, fun _ => ?_, fun h => by rw [ha] at h; rcases h with h | h <;> cases h⟩
    unfold parseRule
    rw [c1, hn]
    dsimp only
    rw [g1]
    show (match p1.cur with | .ASSIGN => _ | .TYPE_CHOICE_ASSIGN | .GROUP_CHOICE_ASSIGN => _ | _ => _) = _
    rw [d1, ha]
    dsimp only
    rw [k4]
    show Out.bind (ruleTrailing q) _ = _
    rw [b1]
    show Out.bind (declare ⟨p.pos, p.lit⟩ x q') _ = _
    rw [c2, c3]
  · obtain ⟨q0, i1, i2, i3, i4, i5⟩ := h0 n (by omega) p2 0 w ws k2 hok (Nat.zero_le _)
    rw [← hw] at i2
    obtain ⟨q', j', b1, b2, b3, b4, -⟩ := run_behind hb i2 i5 hj
    refine ⟨q', j', b2, b4, (g3.then ((same_next k1).then i3)).same b3, fun h => absurd h ha, fun h => ?_⟩
    unfold parseRule
    rw [c1, hn]
    dsimp only
    rw [g1]
    show (match p1.cur with | .ASSIGN => _ | .TYPE_CHOICE_ASSIGN | .GROUP_CHOICE_ASSIGN => _ | _ => _) = _
    rcases h with h | h <;>
    · rw [d1, h]
      dsimp only
      rw [k1]
      show Out.bind (parseEntry n 0 p2) _ = _
      rw [i1]
      show Out.bind (ruleTrailing q0) _ = _
      rw [b1, c2, c3]
      rfl

omit [Unicode] in
theorem behind_length {eof : Token} {ts us vs : List Token} {k} (h : Behind eof ts us k vs) : vs.length ≤ us.length := by
  cases h with
  | none => exact Nat.le_refl _
  | some => simp; omega

omit [Unicode] in
theorem behind_mem {eof : Token} {ts us vs : List Token} {k} (h : Behind eof ts us k vs) : ∀ t ∈ vs, t ∈ us := by
  cases h with
  | none => exact fun _ h => h
  | some => exact fun t h => List.mem_cons_of_mem _ (List.mem_of_mem_tail h)

theorem rules_run {eof : Token} (he : eof.tok = .EOF) {ts rules ds cs} (h : Rules eof ts rules ds cs) :
    ∃ N, ∀ n, N ≤ n → ∀ m, N ≤ m → ∀ acc (p : PState) j, Stands p (ts ++ pad eof j) → ts.length + 4 ≤ j → (∀ t ∈ ts, TokOK t) →
      FreshFor ds p.env → ∃ q, loopOut (fileStep n) m (acc, p) = .ok (acc ++ rules, q) ∧ q.errors = p.errors ∧
        (∃ new, q.tasks = p.tasks ++ new ∧ new.filterMap Task.check = cs) ∧ q.env.symbols = ds.reverse ++ p.env.symbols := by
  have step : ∀ {n m acc p q q1 e}, p.cur ≠ .EOF → parseRule n p = .ok (e, none, q) → e.isNil = false →
      q.next = .ok q1 →
      loopOut (fileStep n) (m + 1) (acc, p) = loopOut (fileStep n) m (acc ++ [e], q1) := by
    intro n m acc p q q1 e h1 h2 h3 h5
    have : fileStep n (acc, p) = .ok (.inl (acc ++ [e], q1)) := by
      unfold fileStep
      rw [if_neg h1]
      dsimp only
      rw [h2]
      show Out.bind q.next _ = _
      rw [h5, h3]
      rfl
    rw [loopOut, this]
  induction h with
  | nil =>
    refine ⟨1, fun n _ m hm acc p j hf hj _ _ => ?_⟩
    obtain ⟨m, rfl⟩ : ∃ k, m = k + 1 := ⟨m - 1, by omega⟩
    obtain ⟨w, ws, hw⟩ := pad_first (eof := eof) [] (show 2 ≤ j by simp at hj; omega)
    rw [hw] at hf
    refine ⟨p, ?_, rfl, ⟨[], by simp⟩, rfl⟩
    rw [loopOut]
    unfold fileStep
    rw [if_pos ((cur_of hf.1).1.trans he)]
    simp
  | @comments gs us rs ds es h1 h2 h3 hr ih =>
    obtain ⟨M, hM⟩ := ih
    refine ⟨gs.length + M + 2, fun n hn m hm acc p j hf hj hok hfr => ?_⟩
    obtain ⟨m, rfl⟩ : ∃ k, m = k + 1 := ⟨m - 1, by omega⟩
    simp only [List.length_append] at hj
    obtain ⟨w, ws, hw⟩ := pad_first (eof := eof) us (show 2 ≤ j by omega)
    rw [List.append_assoc, hw] at hf
    obtain ⟨q, k1, k2, k3, k4⟩ := comment_at (n := n) h2 h1 hf h3 (by omega)
    obtain ⟨q1, j1, j2, j3, j4⟩ := ahead_next k3
    have hf1 : Stands q1 (us ++ pad eof j) := by rw [hw]; exact ⟨j2, j3⟩
    have hsm := k4.trans j4
    obtain ⟨q2, i1, i2, i3, i5⟩ := hM n (by omega) m (by omega) (acc ++ [commentTree gs]) q1 j hf1 (by omega)
      (fun t ht => hok t (by simp [ht])) (by rw [hsm.1]; exact hfr)
    have hpc : p.cur = .COMMENT := by
      obtain ⟨g, gs, rfl⟩ := List.exists_cons_of_ne_nil h1
      exact (cur_of hf.1).1.trans (h2 g (by simp))
    refine ⟨q2, ?_, by rw [i2, hsm.2.1], by rw [← hsm.2.2]; exact i3, by rw [i5, hsm.1]⟩
    rw [step (by rw [hpc]; decide) (e := commentTree gs) (q := q) ?_ ?_ j1, i1]
    · simp
    · unfold parseRule
      rw [hpc]
      exact k1
    · unfold commentTree
      split <;> rfl
  | @declare nm a ts us vs' x k cs rs ds es h1 h2 h3 hb hr ih =>
    obtain ⟨N, hN⟩ := run_rule (a := a) h1 (lang_runs h3) hb
    obtain ⟨M, hM⟩ := ih
    refine ⟨N + M + 1, fun n hn m hm acc p j hf hj hok hfr => ?_⟩
    obtain ⟨m, rfl⟩ : ∃ k, m = k + 1 := ⟨m - 1, by omega⟩
    simp only [List.length_append, List.length_cons] at hj
    have hpc : p.cur = .IDENT := (cur_of hf.1).1.trans h1
    obtain ⟨q, j', k1, hj', k2, k3, _⟩ := hN n (by omega) p j hf (by omega) (fun t ht => hok t (by simp [ht]))
    have hlen := behind_length hb
    have k3 := k3 h2
    rw [declare_fresh (by rw [k2.1]; exact hfr.2 (nm.lit, x) (by simp)), k2.1] at k3
    obtain ⟨w, ws, hw⟩ := pad_first (eof := eof) vs' (show 2 ≤ j' by omega)
    rw [hw] at k1
    obtain ⟨q1, j1, j2, j3, j4⟩ := ahead_next (p := { q with env := ⟨(nm.lit, x) :: p.env.symbols⟩ }) k1
    have hf1 : Stands q1 (vs' ++ pad eof j') := by rw [hw]; exact ⟨j2, j3⟩
    have he1 : q1.env = ⟨(nm.lit, x) :: p.env.symbols⟩ := j4.1
    have hfr1 : FreshFor ds q1.env := by
      obtain ⟨f1, f2⟩ := hfr
      simp only [List.map_cons, List.nodup_cons] at f1
      refine ⟨f1.2, fun d hd => ?_⟩
      rw [he1]
      unfold Env.exists?
      rw [assocFind, if_neg]
      · exact f2 d (by simp [hd])
      · intro hd1
        exact f1.1 (List.mem_map.mpr ⟨d, hd, hd1.symm⟩)
    obtain ⟨q2, i1, i2, ⟨new', i3, i4⟩, i5⟩ := hM n (by omega) m (by omega) (acc ++ [.rule {} ⟨nm.pos, nm.lit⟩ x k]) q1 j' hf1 (by omega)
      (fun t ht => hok t (by simp [behind_mem hb t ht])) hfr1
    obtain ⟨e1, e2, new, e3, e4⟩ := k2
    refine ⟨q2, ?_, ?_, ⟨new ++ new', ?_, ?_⟩, ?_⟩
    · rw [step (by rw [hpc]; decide) k3 rfl j1, i1]; simp
    · rw [i2, j4.2.1]; exact e2
    · rw [i3, j4.2.2, ← List.append_assoc, ← e3]
    · rw [List.filterMap_append, e4, i4]
    · rw [i5, he1]; simp
  | @extend nm a ts us vs' x k cs rs ds es h1 h2 h3 hb hr ih =>
    obtain ⟨N, hN⟩ := run_rule (a := a) h1 (lang_runs h3) hb
    obtain ⟨M, hM⟩ := ih
    refine ⟨N + M + 1, fun n hn m hm acc p j hf hj hok hfr => ?_⟩
    obtain ⟨m, rfl⟩ : ∃ k, m = k + 1 := ⟨m - 1, by omega⟩
    simp only [List.length_append, List.length_cons] at hj
    have hpc : p.cur = .IDENT := (cur_of hf.1).1.trans h1
    obtain ⟨q, j', k1, hj', k2, _, k3⟩ := hN n (by omega) p j hf (by omega) (fun t ht => hok t (by simp [ht]))
    have hlen := behind_length hb
    have k3 := k3 h2
    obtain ⟨w, ws, hw⟩ := pad_first (eof := eof) vs' (show 2 ≤ j' by omega)
    rw [hw] at k1
    obtain ⟨q1, j1, j2, j3, j4⟩ := ahead_next k1
    have hf1 : Stands q1 (vs' ++ pad eof j') := by rw [hw]; exact ⟨j2, j3⟩
    have he1 : q1.env = p.env := j4.1.trans k2.1
    obtain ⟨q2, i1, i2, ⟨new', i3, i4⟩, i5⟩ := hM n (by omega) m (by omega) (acc ++ [.rule {} ⟨nm.pos, nm.lit⟩ x k]) q1 j' hf1 (by omega)
      (fun t ht => hok t (by simp [behind_mem hb t ht])) (by rw [he1]; exact hfr)
    obtain ⟨e1, e2, new, e3, e4⟩ := k2
    refine ⟨q2, ?_, ?_, ⟨new ++ new', ?_, ?_⟩, ?_⟩
    · rw [step (by rw [hpc]; decide) k3 rfl j1, i1]; simp
    · rw [i2, j4.2.1]; exact e2
    · rw [i3, j4.2.2, ← List.append_assoc, ← e3]
    · rw [List.filterMap_append, e4, i4]
    · rw [i5, he1]

/-! ### Files -/

theorem lexeme_err_tok {r : List Char} {x : Lexeme} (h : lexeme r = some x) (he : x.err = true) : x.tok = .TEXT_LITERAL := by
  cases r with
  | nil => cases h; cases he
  | cons c t =>
    by_cases hc : c = '"'
    · subst hc
      have h' : string t = some x := h
      unfold string at h'
      dsimp only at h'
      split at h'
      · cases h'; rfl
      · split at h'
        · cases h'
        · cases h'; rfl
    · obtain ⟨y, hy, hf⟩ := lexeme_not_string (t := t) hc
      rw [hy] at h
      cases h
      rw [hf] at he
      cases he

/-- Lexical errors come with text literals only. -/
theorem scans_no_errors {cs done r : List Char} {l l' : Lexer} {ts} (h : Lexer.Clean cs l done r) (hs : Scans l ts l')
    (ht : ∀ t ∈ ts, t.tok ≠ .TEXT_LITERAL) : l'.errors = l.errors := by
  induction hs generalizing done r with
  | nil => rfl
  | cons h1 _ ih =>
    obtain ⟨x, hx, h2, _, _, h3, h4⟩ := Lexer.clean_scan_ok h h1
    rw [ih h3 fun t h => ht t (List.mem_cons_of_mem _ h), h4]
    cases he : x.err with
    | false => simp
    | true => exact absurd (h2.symm.trans (lexeme_err_tok hx he)) (ht _ (List.mem_cons_self ..))

/-- The end of a source comes again and again. -/
theorem scans_pad {src : Bytes} {ts eof L} (hs : Scans (Lexer.new src) (ts ++ [eof]) L) (he : eof.tok = .EOF) (k : Nat) :
    ∃ L', Scans (Lexer.new src) (ts ++ List.replicate k eof ++ [eof]) L' := by
  induction k with
  | zero => exact ⟨L, by simpa using hs⟩
  | succ k ih =>
    obtain ⟨M, h⟩ := ih
    obtain ⟨h1, M', h2, _⟩ := C03_eof_absorbing h he
    have h3 : Scans (Lexer.new src) (ts ++ List.replicate k eof ++ [eof] ++ [⟨.EOF, eof.pos, []⟩]) M' := scans_push h h2
    have he' : (⟨.EOF, eof.pos, []⟩ : Token) = eof := by
      cases eof; simp only [] at he h1; subst he; subst h1; rfl
    rw [he'] at h3
    refine ⟨M', ?_⟩
    rw [show List.replicate (k + 1) eof = List.replicate k eof ++ [eof] from List.replicate_succ' ..]
    simpa using h3

/-- The parser at the start of a source. -/
theorem new_start {src : Bytes} {ts eof L} (hs : Scans (Lexer.new src) (ts ++ [eof]) L) (he : eof.tok = .EOF) (env : Env)
    (j : Nat) : ∃ p, PState.new (Lexer.new src) env = .ok p ∧ p.env = env ∧ p.errors = [] ∧ p.tasks = [] ∧
      Stands p (ts ++ pad eof (j + 2)) ∧ ((∀ t ∈ ts.take 2, t.tok ≠ .TEXT_LITERAL) → p.lx.errors = []) := by
  obtain ⟨L', h1⟩ := scans_pad hs he (j + 1)
  rw [List.append_assoc, ← List.replicate_succ'] at h1
  obtain ⟨t, u, vs, hts, hin⟩ : ∃ t u vs, ts ++ pad eof (j + 2) = t :: u :: vs ∧
      ((∀ t ∈ ts.take 2, t.tok ≠ .TEXT_LITERAL) → t.tok ≠ .TEXT_LITERAL ∧ u.tok ≠ .TEXT_LITERAL) := by
    have hne : eof.tok ≠ .TEXT_LITERAL := by rw [he]; decide
    match ts with
    | [] => exact ⟨_, _, _, rfl, fun _ => ⟨hne, hne⟩⟩
    | [a] => exact ⟨_, _, _, rfl, fun h => ⟨h a (by simp), hne⟩⟩
    | a :: b :: ts => exact ⟨_, _, _, rfl, fun h => ⟨h a (by simp), h b (by simp)⟩⟩
  rw [hts] at h1 ⊢
  obtain ⟨p, hpn⟩ : ∃ p, PState.new (Lexer.new src) env = .ok p := by
    cases h1 with
    | cons hs1 hr1 =>
      cases hr1 with
      | cons hs2 hr2 =>
        unfold PState.new
        simp only [PState.next, Out.bind_def, hs1, Out.bind, hs2]
        exact ⟨_, rfl⟩
  obtain ⟨k1, k2, k3, k4⟩ := PState.new_synced p hpn
  obtain ⟨m, m1, m2⟩ := scans_split (ts := [t, u]) (us := vs) h1
  obtain ⟨htu, rfl⟩ := scans_same k1 m1 (by simp)
  simp only [List.nil_append, List.cons.injEq, and_true] at htu
  refine ⟨p, hpn, k2, k3, k4, ⟨htu.1, htu.2, ⟨_, m2⟩⟩, fun h => ?_⟩
  have hcl : Clean src := by
    apply Classical.byContradiction
    intro hn
    exact C02_malformed_no_eof hn hs eof (by simp) he
  obtain ⟨cs, hg, rfl⟩ := hcl
  rw [scans_no_errors (Lexer.clean_new hg) m1]
  · exact clean_new_errors _
  · intro t' ht'
    simp only [List.mem_cons, List.not_mem_nil, or_false] at ht'
    rcases ht' with rfl | rfl
    · exact (hin h).1
    · exact (hin h).2

end Cddlc
