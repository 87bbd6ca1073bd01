import Verif.Props.Parser
import Verif.Props.Print
import Verif.Props.Errors
import Verif.Props.Total
import Verif.Lemmas.IdentBytes
import Verif.Spec.Repl
import Batteries.Data.List.Basic

/-! Properties of the REPL (C58, C76 to C78). -/

namespace Cddlc
open Spec

theorem hasPrefix_iff (s p : Bytes) : hasPrefix s p = true ↔ p <+: s := by
  unfold hasPrefix
  rw [decide_eq_true_iff, List.prefix_iff_eq_take, eq_comm]

instance (text : Bytes) (r : Request) : Decidable (Asks text r) :=
  match r with
  | .help => if h : (b!":help") <+: text then .isTrue (.help h) else .isFalse fun | .help h' => h h'
  | .pv => if h : (b!":pv") <+: text then .isTrue (.pv h) else .isFalse fun | .pv h' => h h'
  | .exit => if h : (b!":exit") <+: text then .isTrue (.exit h) else .isFalse fun | .exit h' => h h'
  | .tree => if h : (b!":tree") <+: text then .isTrue (.tree h) else .isFalse fun | .tree h' => h h'
  | .source =>
    if h : ¬ (b!":help") <+: text ∧ ¬ (b!":pv") <+: text ∧ ¬ (b!":exit") <+: text ∧ ¬ (b!":tree") <+: text
    then .isTrue (.source h.1 h.2.1 h.2.2.1 h.2.2.2)
    else .isFalse fun | .source h1 h2 h3 h4 => h ⟨h1, h2, h3, h4⟩

/-- A text asks for one thing. -/
theorem asks_unique {text : Bytes} {r r' : Request} (h : Asks text r) (h' : Asks text r') : r = r' := by
  have key : ∀ {p q : Bytes}, p <+: text → q <+: text → p.take 3 = q.take 3 ∨ p.length < 3 ∨ q.length < 3 := by
    intro p q hp hq
    by_cases h1 : p.length < 3
    · exact Or.inr (Or.inl h1)
    by_cases h2 : q.length < 3
    · exact Or.inr (Or.inr h2)
    refine Or.inl ?_
    obtain ⟨a, rfl⟩ := hp
    obtain ⟨b, hb⟩ := hq
    have := congrArg (List.take 3) hb
    rw [List.take_append_of_le_length (by omega), List.take_append_of_le_length (by omega)] at this
    exact this.symm
  cases h <;> cases h' <;> first
    | rfl
    | contradiction
    | (rename_i h1 h2; have := key h1 h2; revert this; decide)

section
variable [Unicode] (lib : ReplLib) (n : Nat)

/-- What is done for a line, by what it asks for. -/
theorem line_cases (st : ReplState) (l : Bytes) :
    (Asks (lib.trim l) .help ∧ lib.line n st l = .ok (helpText, some st)) ∨
    (Asks (lib.trim l) .pv ∧ lib.line n st l = .ok ([], some { st with verbose := !st.verbose })) ∨
    (Asks (lib.trim l) .exit ∧ lib.line n st l = .ok ([b!"exiting...\n"], none)) ∨
    (Asks (lib.trim l) .tree ∧
      lib.line n st l = (lib.tree st.env ((splitSpace (lib.trim l)).drop 1)).bind fun out => .ok (out, some st)) ∨
    (Asks (lib.trim l) .source ∧ lib.line n st l = lib.source n st l) := by
  unfold ReplLib.line
  simp only
  by_cases h1 : hasPrefix (lib.trim l) b!":help" = true
  · rw [if_pos h1]; exact Or.inl ⟨.help ((hasPrefix_iff _ _).1 h1), rfl⟩
  rw [if_neg h1]
  by_cases h2 : hasPrefix (lib.trim l) b!":pv" = true
  · rw [if_pos h2]; exact Or.inr (Or.inl ⟨.pv ((hasPrefix_iff _ _).1 h2), rfl⟩)
  rw [if_neg h2]
  by_cases h3 : hasPrefix (lib.trim l) b!":exit" = true
  · rw [if_pos h3]; exact Or.inr (Or.inr (Or.inl ⟨.exit ((hasPrefix_iff _ _).1 h3), rfl⟩))
  rw [if_neg h3]
  by_cases h4 : hasPrefix (lib.trim l) b!":tree" = true
  · rw [if_pos h4]; exact Or.inr (Or.inr (Or.inr (Or.inl ⟨.tree ((hasPrefix_iff _ _).1 h4), rfl⟩)))
  rw [if_neg h4]
  rw [hasPrefix_iff] at h1 h2 h3 h4
  exact Or.inr (Or.inr (Or.inr (Or.inr ⟨.source h1 h2 h3 h4, rfl⟩)))

/-- The state after a line of source. -/
theorem source_ok {st : ReplState} {l : Bytes} {o s1} (h : lib.source n st l = .ok (o, s1)) :
    ∃ res, parseSource n l st.env = .ok res ∧ s1 = some { st with env := res.final.env } := by
  unfold ReplLib.source at h
  simp only at h
  split at h
  all_goals
    obtain ⟨toks, _, h⟩ := Out.bind_eq_ok.mp h
    obtain ⟨res, hp, h⟩ := Out.bind_eq_ok.mp h
    split at h
    all_goals
      obtain ⟨rules, _, h⟩ := Out.bind_eq_ok.mp h
      cases h
      exact ⟨res, hp, rfl⟩

/-! ### C58 -/

/-- The state after a session, from any state. -/
theorem session_state {lines : List Bytes} {st out e st'} (h : lib.session n st lines = .ok (out, e, st')) :
    ∃ active rest, lines = active ++ rest ∧ (∀ l ∈ active, ¬ Asks (lib.trim l) .exit) ∧
      ((e = .noInput ∧ rest = []) ∨ (e = .exit ∧ ∃ l r, rest = l :: r ∧ Asks (lib.trim l) .exit)) ∧
      (st'.verbose = (st.verbose ^^ decide ((active.countP fun l => decide (Asks (lib.trim l) .pv)) % 2 = 1))) ∧
      ∃ xs, Entered n st.env xs st'.env ∧ xs.map (·.1) = active.filter fun l => decide (Asks (lib.trim l) .source) := by
  induction lines generalizing st out with
  | nil =>
    cases h
    exact ⟨[], [], rfl, nofun, Or.inl ⟨rfl, rfl⟩, by simp, [], .nil, rfl⟩
  | cons l ls ih =>
    unfold ReplLib.session at h
    obtain ⟨⟨o, s1⟩, h1, h⟩ := Out.bind_eq_ok.mp h
    have skip : ∀ {s2 : ReplState} {r : Request}, s1 = some s2 → Asks (lib.trim l) r → r ≠ .exit → r ≠ .source →
        s2.env = st.env → s2.verbose = (st.verbose ^^ decide (r = .pv)) →
        ∃ active rest, l :: ls = active ++ rest ∧ (∀ l ∈ active, ¬ Asks (lib.trim l) .exit) ∧
          ((e = .noInput ∧ rest = []) ∨ (e = .exit ∧ ∃ l r, rest = l :: r ∧ Asks (lib.trim l) .exit)) ∧
          (st'.verbose = (st.verbose ^^ decide ((active.countP fun l => decide (Asks (lib.trim l) .pv)) % 2 = 1))) ∧
          ∃ xs, Entered n st.env xs st'.env ∧ xs.map (·.1) = active.filter fun l => decide (Asks (lib.trim l) .source) := by
      intro s2 r hs ha hne hns henv hv
      subst hs
      obtain ⟨⟨o', e', s3⟩, h2, h⟩ := Out.bind_eq_ok.mp h
      cases h
      obtain ⟨active, rest, rfl, h3, h4, h5, xs, h6, h7⟩ := ih h2
      refine ⟨l :: active, rest, rfl, ?_, h4, ?_, xs, henv ▸ h6, ?_⟩
      · intro x hx
        rcases List.mem_cons.1 hx with rfl | hx
        · exact fun hh => hne (asks_unique ha hh)
        · exact h3 x hx
      · rw [h5, hv, List.countP_cons]
        have : decide (Asks (lib.trim l) .pv) = decide (r = .pv) :=
          decide_eq_decide.2 ⟨fun hh => asks_unique ha hh, fun hh => hh ▸ ha⟩
        rw [this]
        by_cases hr : r = .pv
        · simp only [hr, decide_true, if_true]
          by_cases h9 : (active.countP fun l => decide (Asks (lib.trim l) .pv)) % 2 = 1
          · rw [show decide _ = true from decide_eq_true h9, show decide _ = false from decide_eq_false (by omega)]
            cases st.verbose <;> rfl
          · rw [show decide _ = false from decide_eq_false h9, show decide _ = true from decide_eq_true (by omega)]
            cases st.verbose <;> rfl
        · simp [hr]
      · rw [List.filter_cons, if_neg, h7]
        simp only [decide_eq_true_eq]
        exact fun hh => hns (asks_unique ha hh)
    rcases line_cases lib n st l with ⟨ha, hl⟩ | ⟨ha, hl⟩ | ⟨ha, hl⟩ | ⟨ha, hl⟩ | ⟨ha, hl⟩ <;> rw [hl] at h1
    · cases h1
      exact skip rfl ha (by simp) (by simp) rfl (by simp)
    · cases h1
      exact skip rfl ha (by simp) (by simp) rfl (by simp)
    · cases h1
      cases h
      exact ⟨[], l :: ls, rfl, nofun, Or.inr ⟨rfl, l, ls, rfl, ha⟩, by simp, [], .nil, rfl⟩
    · obtain ⟨o', h2, h1⟩ := Out.bind_eq_ok.mp h1
      cases h1
      exact skip rfl ha (by simp) (by simp) rfl (by simp)
    · obtain ⟨res, hp, rfl⟩ := source_ok lib n h1
      obtain ⟨⟨o', e', s3⟩, h2, h⟩ := Out.bind_eq_ok.mp h
      cases h
      obtain ⟨active, rest, rfl, h3, h4, h5, xs, h6, h7⟩ := ih h2
      refine ⟨l :: active, rest, rfl, ?_, h4, ?_, (l, res) :: xs, .cons hp h6, ?_⟩
      · intro x hx
        rcases List.mem_cons.1 hx with rfl | hx
        · exact fun hh => nomatch asks_unique ha hh
        · exact h3 x hx
      · rw [h5, List.countP_cons, if_neg (by
          simp only [decide_eq_true_eq]
          exact fun hh => nomatch asks_unique ha hh)]
        rfl
      · rw [List.filter_cons, if_pos (decide_eq_true ha), List.map_cons, h7]

/-- Names bound stay bound to the same. -/
theorem entered_keep {env env' : Env} {xs} (h : Entered n env xs env') {k : Bytes} (hk : env.exists? k = true) :
    env'.exists? k = true ∧ env'.get k = env.get k := by
  induction h with
  | nil => exact ⟨hk, rfl⟩
  | cons hp _ ih =>
    obtain ⟨h1, h2⟩ := (C19_environment hp k).2.1 hk
    rw [← h2]
    exact ih h1

/-- **C58**: after lines entered one after the other, a name is bound exactly if one of them declares it,
and then to the value of the first declaration of the session. -/
theorem C58_first_declaration {env env' : Env} {xs} (h : Entered n env xs env') {k : Bytes} (hk : env.exists? k = false) :
    (∃ v, Bound xs k v ∧ env'.exists? k = true ∧ env'.get k = v) ∨ (Unbound xs k ∧ env'.exists? k = false) := by
  suffices hs : (∃ pre x post v, xs = pre ++ x :: post ∧ DeclaresIn x k v ∧ (∀ y ∈ pre, ∀ w, ¬ DeclaresIn y k w) ∧
      env'.exists? k = true ∧ env'.get k = v) ∨
      ((∀ x ∈ xs, ∀ v, ¬ DeclaresIn x k v) ∧ env'.exists? k = false) by
    rcases hs with ⟨pre, x, post, v, h1, h2, h3, h4⟩ | hs
    · exact Or.inl ⟨v, ⟨pre, x, post, h1, h2, h3⟩, h4⟩
    · exact Or.inr hs
  induction h with
  | nil => exact Or.inr ⟨by simp, hk⟩
  | @cons env src res rest env' hp hr ih =>
    have hno : ∀ hx : res.final.env.exists? k = false, (∀ v, ¬ DeclaresIn (src, res) k v) →
        (∃ pre x post v, (src, res) :: rest = pre ++ x :: post ∧ DeclaresIn x k v ∧ (∀ y ∈ pre, ∀ w, ¬ DeclaresIn y k w) ∧
          env'.exists? k = true ∧ env'.get k = v) ∨
        ((∀ x ∈ (src, res) :: rest, ∀ v, ¬ DeclaresIn x k v) ∧ env'.exists? k = false) := by
      intro hx hd
      rcases ih hx with ⟨pre, x, post, v, rfl, h1, h2, h3⟩ | ⟨h1, h2⟩
      · refine Or.inl ⟨(src, res) :: pre, x, post, v, rfl, h1, ?_, h3⟩
        intro y hy
        rcases List.mem_cons.1 hy with rfl | hy
        · exact hd
        · exact h2 y hy
      · refine Or.inr ⟨?_, h2⟩
        intro y hy
        rcases List.mem_cons.1 hy with rfl | hy
        · exact hd
        · exact h1 y hy
    cases hc : res.cddl with
    | none =>
      refine hno (by rw [(C19_environment hp k).1 hc]; exact hk) ?_
      rintro v ⟨rules, h1, _⟩
      rw [show res.cddl = some rules from h1] at hc
      cases hc
    | some rules =>
      rcases (C19_environment hp k).2.2 rules hc hk with ⟨v, h1, h2, h3⟩ | ⟨h1, h2⟩
      · obtain ⟨h4, h5⟩ := entered_keep n hr h2
        exact Or.inl ⟨[], (src, res), rest, v, rfl, ⟨rules, hc, h1⟩, by simp, h4, h5.trans h3⟩
      · refine hno h2 ?_
        rintro v ⟨rules', h3, pre, e, post, rfl, h5, _⟩
        rw [show res.cddl = _ from h3] at hc
        cases hc
        exact h1 e (by simp) v h5

/-- **C58**: a session takes the lines up to the first that asks to exit, or all; it ends with success
exactly in the first case. The flag is on exactly if an odd number of them toggles it, and the lines
that are no commands were parsed one after the other, with one environment: in the end, the names that
they declare are bound to the values of their first declarations, and no others are bound. -/
theorem C58_session {lines : List Bytes} {out e st} (h : repl lib n lines = .ok (out, e, st)) :
    ∃ active rest, lines = active ++ rest ∧ (∀ l ∈ active, ¬ Asks (lib.trim l) .exit) ∧
      ((e = .noInput ∧ rest = []) ∨ (e = .exit ∧ ∃ l r, rest = l :: r ∧ Asks (lib.trim l) .exit)) ∧
      (st.verbose = true ↔ (active.countP fun l => decide (Asks (lib.trim l) .pv)) % 2 = 1) ∧
      ∃ xs, Entered n .new xs st.env ∧ (xs.map (·.1) = active.filter fun l => decide (Asks (lib.trim l) .source)) ∧
        ∀ k, (∃ v, Bound xs k v ∧ st.env.exists? k = true ∧ st.env.get k = v) ∨
          (Unbound xs k ∧ st.env.exists? k = false) := by
  obtain ⟨active, rest, h1, h2, h3, h4, xs, h5, h6⟩ := session_state lib n h
  refine ⟨active, rest, h1, h2, h3, ?_, xs, h5, h6, fun k => C58_first_declaration n h5 rfl⟩
  rw [h4]
  show (false ^^ decide _) = true ↔ _
  rw [Bool.false_xor, decide_eq_true_iff]

/-! ### C76: `:tree` -/

/-- What an environment is like after any session. -/
theorem entered_env {xs} {env : Env} (h : Entered n .new xs env) {k : Bytes} (hk : env.exists? k = true) :
    (env.get k).isNil = false ∧ Real (env.get k) ∧ ∀ c ∈ k, Lexer.isIdentBody (c.toNat : Int) = true := by
  have hreal : ∀ {env env' : Env} {xs}, Entered n env xs env' → Real (env.get k) → Real (env'.get k) := by
    intro env env' xs h
    induction h with
    | nil => exact id
    | cons hp _ ih => exact fun hr => ih (bound_real hp k hr)
  refine ⟨?_, hreal h real_nil, ?_⟩ <;>
  · rcases C58_first_declaration n h (k := k) rfl with ⟨v, ⟨pre, x, post, _, ⟨rules, _, p, e, q, _, ⟨pos, tc, _, h3, h4⟩, _⟩, _⟩, _, h5⟩ | ⟨_, h1⟩
    · first
      | exact h5 ▸ h3
      | obtain ⟨ts, a, l, hs, _⟩ := h4
        exact Lexer.ident_bytes hs ⟨.IDENT, pos, k⟩ (by simp) rfl
    · rw [hk] at h1; cases h1

omit [Unicode] in
theorem splitSpace_ne (s : Bytes) : splitSpace s ≠ [] := by
  cases s with
  | nil => simp [splitSpace]
  | cons c s =>
    rw [splitSpace]
    split
    · simp
    · split <;> simp

omit [Unicode] in
/-- The pieces between the spaces. -/
theorem splitSpace_between (s : Bytes) : Between s (splitSpace s) := by
  induction s with
  | nil => exact .last (by simp)
  | cons c s ih =>
    rw [splitSpace]
    split
    · rename_i hc
      subst hc
      exact .more (w := []) (by simp) ih
    · rename_i hc
      have hcn : (32 : UInt8) ≠ c := fun h => hc h.symm
      generalize hx : splitSpace s = xs at ih ⊢
      cases ih with
      | last h => exact .last (fun hm => (List.mem_cons.1 hm).elim hcn h)
      | @more w s' ws h h' => exact .more (w := c :: w) (fun hm => (List.mem_cons.1 hm).elim hcn h) h'

omit [Unicode] in
theorem between_unique {s : Bytes} {xs ys : List Bytes} (h : Between s xs) : Between s ys → xs = ys := by
  have key : ∀ {a b c d : Bytes}, 32 ∉ a → 32 ∉ c → a ++ 32 :: b = c ++ 32 :: d → a = c ∧ b = d := by
    intro a
    induction a with
    | nil =>
      intro b c d _ hc h
      cases c with
      | nil => cases h; exact ⟨rfl, rfl⟩
      | cons x c => cases h; exact absurd (by simp) hc
    | cons y a ih =>
      intro b c d ha hc h
      cases c with
      | nil => cases h; exact absurd (by simp) ha
      | cons x c =>
        simp only [List.cons_append, List.cons.injEq] at h
        obtain ⟨rfl, h⟩ := h
        obtain ⟨rfl, rfl⟩ := ih (fun hm => ha (by simp [hm])) (fun hm => hc (by simp [hm])) h
        exact ⟨rfl, rfl⟩
  induction h generalizing ys with
  | @last w hw =>
    intro h2
    cases h2 with
    | last _ => rfl
    | more _ _ => exact absurd (by simp) hw
  | @more w t ws hw _ ih =>
    intro h2
    generalize hs : w ++ 32 :: t = s at h2
    cases h2 with
    | last h3 => exact absurd (by rw [← hs]; simp) h3
    | more h3 h4 =>
      obtain ⟨rfl, rfl⟩ := key hw h3 hs
      rw [ih h4]

omit [Unicode] in
/-- What `:tree` prints, for an environment with values that can be printed. -/
theorem tree_prints {env : Env}
    (h : ∀ k, env.exists? k = true → (env.get k).isNil = false ∧ (formatNode lib.float (env.get k)).isOk = true ∧ 37 ∉ k)
    {fmt : Bytes → Bytes} (hf : ∀ k, env.exists? k = true → formatNode lib.float (env.get k) = .ok (fmt k))
    (args : List Bytes) :
    lib.tree env args = .ok (args.flatMap fun k => if env.exists? k then [k ++ b!": ", fmt k ++ b!"\n"] else []) := by
  induction args with
  | nil => rfl
  | cons k ks ih =>
    unfold ReplLib.tree
    rw [ih]
    by_cases hk : env.exists? k = true
    · obtain ⟨h1, _, h3⟩ := h k hk
      have h4 := hf k hk
      rw [List.flatMap_cons, if_pos hk]
      have h5 : lib.printf (k ++ b!": ") = k ++ b!": " := by
        unfold ReplLib.printf
        rw [if_neg]
        simp only [List.mem_append, not_or]
        exact ⟨h3, by decide⟩
      rw [h5]
      cases hv : env.get k with
      | nil => rw [hv] at h1; cases h1
      | _ => rw [hv] at h4; simp only [h4]; rfl
    · have hv : env.get k = .nil := by
        unfold Env.get
        unfold Env.exists? at hk
        cases hx : assocFind k env.symbols with
        | none => rfl
        | some v => rw [hx] at hk; exact absurd rfl hk
      rw [List.flatMap_cons, if_neg hk, hv]
      rfl

/-- What `:tree` needs holds in every session. -/
theorem entered_prints {xs} {env : Env} (h : Entered n .new xs env) (k : Bytes) (hk : env.exists? k = true) :
    (env.get k).isNil = false ∧ (formatNode lib.float (env.get k)).isOk = true ∧ 37 ∉ k := by
  obtain ⟨h1, h2, h3⟩ := entered_env n h hk
  refine ⟨h1, (C38_panics_iff lib.float _).2.2 fun x hx => real_printed hx h2, fun hm => ?_⟩
  have := h3 _ hm
  revert this
  decide

/-- **C76**: `:tree`, in any session, prints for each of the names that is bound the name and its tree,
in the order asked for, and nothing for others. It does not panic, and does not change the state. -/
theorem C76_tree {st : ReplState} {xs} (h : Entered n .new xs st.env) {l : Bytes} (ha : Asks (lib.trim l) .tree) :
    ∃ names, Between (lib.trim l) names ∧ ∃ fmt : Bytes → Bytes,
      (∀ k, st.env.exists? k = true → formatNode lib.float (st.env.get k) = .ok (fmt k)) ∧
      lib.line n st l = .ok ((names.drop 1).flatMap fun k =>
        if st.env.exists? k then [k ++ b!": ", fmt k ++ b!"\n"] else [], some st) := by
  have hall : ∀ k, ∃ s, st.env.exists? k = true → formatNode lib.float (st.env.get k) = .ok s := by
    intro k
    by_cases hk : st.env.exists? k = true
    · have := (entered_prints lib n h k hk).2.1
      cases hx : formatNode lib.float (st.env.get k) with
      | ok s => exact ⟨s, fun _ => rfl⟩
      | panic w => rw [hx] at this; cases this
      | hang => rw [hx] at this; cases this
    · exact ⟨[], fun h => absurd h hk⟩
  obtain ⟨fmt, hf⟩ := Classical.skolem.1 hall
  refine ⟨_, splitSpace_between _, fmt, hf, ?_⟩
  rcases line_cases lib n st l with ⟨ha', hl⟩ | ⟨ha', hl⟩ | ⟨ha', hl⟩ | ⟨ha', hl⟩ | ⟨ha', hl⟩ <;>
    have := asks_unique ha ha' <;> cases this
  rw [hl, tree_prints lib (entered_prints lib n h) hf]
  rfl

/-- A session goes on after its first lines as one with the rest of the lines. -/
theorem session_split {pre rest : List Bytes} (hp : ∀ l ∈ pre, ¬ Asks (lib.trim l) .exit) :
    ∀ {st out e st'}, lib.session n st (pre ++ rest) = .ok (out, e, st') →
      ∃ o1 st1 o2, lib.session n st pre = .ok (o1 ++ [b!">>> "], .noInput, st1) ∧
        lib.session n st1 rest = .ok (o2, e, st') ∧ out = o1 ++ o2 := by
  induction pre with
  | nil => exact fun {st out e st'} h => ⟨[], st, out, rfl, h, rfl⟩
  | cons l ls ih =>
    intro st out e st' h
    rw [List.cons_append] at h
    unfold ReplLib.session at h
    obtain ⟨⟨o, s1⟩, h1, h⟩ := Out.bind_eq_ok.mp h
    cases s1 with
    | none =>
      refine absurd ?_ (hp l (by simp))
      rcases line_cases lib n st l with ⟨ha, hl⟩ | ⟨ha, hl⟩ | ⟨ha, hl⟩ | ⟨ha, hl⟩ | ⟨ha, hl⟩ <;> rw [hl] at h1
      · cases h1
      · cases h1
      · exact ha
      · obtain ⟨_, _, h1⟩ := Out.bind_eq_ok.mp h1
        cases h1
      · obtain ⟨_, _, h2⟩ := source_ok lib n h1
        cases h2
    | some s1 =>
      obtain ⟨⟨o', e', s3⟩, h2, h⟩ := Out.bind_eq_ok.mp h
      cases h
      obtain ⟨o1, st1, o2, h3, h4, rfl⟩ := ih (fun l hm => hp l (List.mem_cons_of_mem _ hm)) h2
      refine ⟨b!">>> " :: o ++ o1, st1, o2, ?_, h4, by simp⟩
      unfold ReplLib.session
      rw [h1]
      simp only [Out.bind_def, Out.bind, h3]
      simp

/-- **C76** (in a session): what is printed for a line that asks for trees, after the prompt, is what
is to be shown for each of the names on it after the sources entered before. -/
theorem C76_session {pre post : List Bytes} {l : Bytes} (hp : ∀ l ∈ pre, ¬ Asks (lib.trim l) .exit)
    (ha : Asks (lib.trim l) .tree) {out e st} (h : repl lib n (pre ++ l :: post) = .ok (out, e, st)) :
    ∃ xs env, Entered n .new xs env ∧ (xs.map (·.1) = pre.filter fun l => decide (Asks (lib.trim l) .source)) ∧
      ∃ names, Between (lib.trim l) names ∧ ∃ shown, List.Forall₂ (Shows lib.float xs) (names.drop 1) shown ∧
        ∃ o1 o2, out = o1 ++ b!">>> " :: shown.flatten ++ b!">>> " :: o2 := by
  obtain ⟨o1, st1, o2, h1, h2, rfl⟩ := session_split lib n hp h
  obtain ⟨active, rest, h3, h4, h5, _, xs, h6, h7⟩ := session_state lib n h1
  have hr : rest = [] := by
    rcases h5 with ⟨_, h5⟩ | ⟨h5, _⟩
    · exact h5
    · cases h5
  subst hr
  rw [List.append_nil] at h3
  subst h3
  obtain ⟨names, h8, fmt, h9, h10⟩ := C76_tree lib n h6 ha
  unfold ReplLib.session at h2
  obtain ⟨⟨o, s1⟩, hl, h2⟩ := Out.bind_eq_ok.mp h2
  rw [h10] at hl
  cases hl
  obtain ⟨⟨o', e', s3⟩, h11, h2⟩ := Out.bind_eq_ok.mp h2
  cases h2
  have hne : ∃ o3, o' = b!">>> " :: o3 := by
    unfold ReplLib.session at h11
    split at h11
    · cases h11; exact ⟨_, rfl⟩
    · obtain ⟨⟨o, s1⟩, _, h11⟩ := Out.bind_eq_ok.mp h11
      cases s1 with
      | none => cases h11; exact ⟨_, rfl⟩
      | some s1 =>
        obtain ⟨⟨o4, e4, s4⟩, _, h11⟩ := Out.bind_eq_ok.mp h11
        cases h11; exact ⟨_, rfl⟩
  obtain ⟨o3, rfl⟩ := hne
  refine ⟨xs, st1.env, h6, h7, names, h8,
    (names.drop 1).map fun k => if st1.env.exists? k then [k ++ b!": ", fmt k ++ b!"\n"] else [], ?_, o1, o3, ?_⟩
  · generalize names.drop 1 = ks
    induction ks with
    | nil => exact .nil
    | cons k ks ih =>
      refine .cons ?_ ih
      simp only
      rcases C58_first_declaration n h6 (k := k) rfl with ⟨v, h12, h13, h14⟩ | ⟨h12, h13⟩
      · rw [if_pos h13]
        exact Or.inl ⟨v, fmt k, h12, h14 ▸ h9 k h13, rfl⟩
      · rw [h13]
        exact Or.inr ⟨h12, rfl⟩
  · simp [List.flatMap]

/-! ### C77: crashes -/

/-- The names and types of the rules of a parsed file can be printed. -/
theorem short_ok {src : Bytes} {env : Env} {res : PState.FileResult} (h : parseSource n src env = .ok res)
    {rules} (ht : res.cddl = some rules) : (lib.short res.cddl).isOk = true := by
  rw [ht]
  have : ∀ rs : List Node, (∀ e ∈ rs, e ≠ .typedNil .rule) → (lib.shortRules rs).isOk = true := by
    intro rs hr
    induction rs with
    | nil => rfl
    | cons e es ih =>
      have h2 := ih fun e he => hr e (List.mem_cons_of_mem _ he)
      have h1 := hr e (by simp)
      unfold ReplLib.shortRules
      cases hx : lib.shortRules es with
      | ok s =>
        cases e with
        | typedNil k =>
          cases k <;> first | rfl | exact absurd rfl h1
        | _ => rfl
      | panic w => rw [hx] at h2; cases h2
      | hang => rw [hx] at h2; cases h2
  refine this rules fun e he hx => ?_
  obtain ⟨p, q, _, _, _, _, hrun, _⟩ := tree_run h ht
  exact (run_real hrun e he).1 _ hx

/-- A line of source, step by step. -/
theorem source_def (st : ReplState) (l : Bytes) : lib.source n st l = Out.bind (if lib.lexFlag then ReplLib.tokens n l else .ok []) fun toks =>
      Out.bind (parseSource n l st.env) fun res => Out.bind
        (if st.verbose then lib.short res.cddl else .ok []) fun rules =>
        .ok (toks ++ (if res.errs.length ≠ 0 then [errorListString lib.text res.errs ++ b!"\n"] else []) ++ rules,
          some ({ st with env := res.final.env } : ReplState)) := by
  unfold ReplLib.source
  cases lib.lexFlag <;> cases st.verbose <;> rfl

/-- **C77** (when a line crashes): in any session, a line crashes the REPL exactly if it is a source and
listing its tokens panics, or the parser panics, or the flag is on and the parser returns no tree. -/
theorem C77_panics_iff {st : ReplState} {xs} (h : Entered n .new xs st.env) (l : Bytes) :
    (lib.line n st l).isPanic = true ↔ Asks (lib.trim l) .source ∧
      ((lib.lexFlag = true ∧ (ReplLib.tokens n l).isPanic = true) ∨
        (lib.lexFlag = false ∨ (ReplLib.tokens n l).isOk = true) ∧
          ((parseSource n l st.env).isPanic = true ∨
            ∃ res, parseSource n l st.env = .ok res ∧ st.verbose = true ∧ res.cddl = none)) := by
  rcases line_cases lib n st l with ⟨ha, hl⟩ | ⟨ha, hl⟩ | ⟨ha, hl⟩ | ⟨ha, hl⟩ | ⟨ha, hl⟩
  · rw [hl]; exact ⟨nofun, fun hs => nomatch asks_unique ha hs.1⟩
  · rw [hl]; exact ⟨nofun, fun hs => nomatch asks_unique ha hs.1⟩
  · rw [hl]; exact ⟨nofun, fun hs => nomatch asks_unique ha hs.1⟩
  · obtain ⟨_, _, _, _, h2⟩ := C76_tree lib n h ha
    rw [h2]; exact ⟨nofun, fun hs => nomatch asks_unique ha hs.1⟩
  rw [hl]
  refine Iff.trans ?_ (and_iff_right ha).symm
  have rest : ∀ toks : List Bytes, (Out.bind (parseSource n l st.env) fun res => Out.bind
        (if st.verbose then lib.short res.cddl else .ok []) fun rules =>
        .ok (toks ++ (if res.errs.length ≠ 0 then [errorListString lib.text res.errs ++ b!"\n"] else []) ++ rules,
          some ({ st with env := res.final.env } : ReplState))).isPanic = true ↔
      ((parseSource n l st.env).isPanic = true ∨
        ∃ res, parseSource n l st.env = .ok res ∧ st.verbose = true ∧ res.cddl = none) := by
    intro toks
    cases hp : parseSource n l st.env with
    | panic w => exact ⟨fun _ => Or.inl rfl, fun _ => rfl⟩
    | hang => exact ⟨nofun, by rintro (hh | ⟨_, hh, _⟩) <;> cases hh⟩
    | ok res =>
      simp only [Out.bind]
      cases hv : st.verbose with
      | false =>
        refine ⟨nofun, ?_⟩
        rintro (hh | ⟨_, _, hh, _⟩) <;> cases hh
      | true =>
        cases hc : res.cddl with
        | none => exact ⟨fun _ => Or.inr ⟨res, rfl, rfl, hc⟩, fun _ => rfl⟩
        | some rules =>
          have h1 := short_ok lib n hp hc
          rw [hc] at h1
          cases hx : lib.short (some rules) with
          | panic w => rw [hx] at h1; cases h1
          | hang => rw [hx] at h1; cases h1
          | ok s =>
            refine ⟨nofun, ?_⟩
            rintro (hh | ⟨res', hh, _, hn⟩)
            · cases hh
            · cases hh; rw [hc] at hn; cases hn
  rw [source_def]
  cases hf : lib.lexFlag with
  | false => exact (rest []).trans ⟨fun h => Or.inr ⟨Or.inl rfl, h⟩, by
      rintro (⟨hh, _⟩ | ⟨_, hh⟩)
      · cases hh
      · exact hh⟩
  | true =>
    cases ht : (ReplLib.tokens n l : Out (List Bytes)) with
    | ok toks => exact (rest toks).trans ⟨fun h => Or.inr ⟨Or.inr rfl, h⟩, by
        rintro (⟨_, hh⟩ | ⟨_, hh⟩)
        · cases hh
        · exact hh⟩
    | panic w => exact ⟨fun _ => Or.inl ⟨rfl, rfl⟩, fun _ => rfl⟩
    | hang => exact ⟨nofun, by rintro (⟨_, hh⟩ | ⟨hh | hh, _⟩) <;> cases hh⟩

/-- A line that does no harm: a command, or a clean source without comparisons, with ranges that start with names
and numbers, on which nothing that can panic is reached and whose first two tokens are no cut off strings. -/
def Harmless (l : Bytes) : Prop := Asks (lib.trim l) .source → Clean l ∧ Tame (Lexer.new l) ∧ Comparable (Lexer.new l) ∧
  ∀ a b l', Scans (Lexer.new l) [a, b] l' → l'.errors = []

/-- **C77** (what holds): a session of harmless lines does not crash and does not hang. -/
theorem C77_returns_partial {lines : List Bytes} (hl : ∀ l ∈ lines, Harmless lib l ∧ l.length + 2 ≤ n) :
    ∃ out e st, repl lib n lines = .ok (out, e, st) := by
  suffices h : ∀ lines : List Bytes, (∀ l ∈ lines, Harmless lib l ∧ l.length + 2 ≤ n) → ∀ (st : ReplState) xs,
      Entered n .new xs st.env → (∀ k, st.env.exists? k = true → ∃ pos, (st.env.get k).start = .ok pos) → ∃ out e st', lib.session n st lines = .ok (out, e, st') from
    h lines hl {} [] .nil nofun
  intro lines hl
  induction lines with
  | nil => exact fun st _ _ _ => ⟨_, _, _, rfl⟩
  | cons l ls ih =>
    intro st xs hx hn
    have hls := ih fun l hm => hl l (List.mem_cons_of_mem _ hm)
    obtain ⟨hl, hlen⟩ := hl l (by simp)
    suffices h : ∃ o s1, lib.line n st l = .ok (o, s1) ∧ ∀ s2, s1 = some s2 → ∃ xs, Entered n .new xs s2.env ∧
        ∀ k, s2.env.exists? k = true → ∃ pos, (s2.env.get k).start = .ok pos by
      obtain ⟨o, s1, h1, h2⟩ := h
      unfold ReplLib.session
      rw [h1]
      cases s1 with
      | none => exact ⟨_, _, _, rfl⟩
      | some s2 =>
        obtain ⟨xs', h3, h4⟩ := h2 s2 rfl
        obtain ⟨o', e', s', h5⟩ := hls s2 xs' h3 h4
        simp only [Out.bind_def, Out.bind, h5]
        exact ⟨_, _, _, rfl⟩
    rcases line_cases lib n st l with ⟨ha, h1⟩ | ⟨ha, h1⟩ | ⟨ha, h1⟩ | ⟨ha, h1⟩ | ⟨ha, h1⟩
    · exact ⟨_, _, h1, fun s2 h2 => by cases h2; exact ⟨xs, hx, hn⟩⟩
    · exact ⟨_, _, h1, fun s2 h2 => by cases h2; exact ⟨xs, hx, hn⟩⟩
    · exact ⟨_, _, h1, nofun⟩
    · obtain ⟨_, _, _, _, h2⟩ := C76_tree lib n hx ha
      exact ⟨_, _, h2, fun s2 h2 => by cases h2; exact ⟨xs, hx, hn⟩⟩
    obtain ⟨hc, ht, hcmp, herr⟩ := hl ha
    obtain ⟨res, hres, henv⟩ := C16_returns_partial (env := st.env) hc ⟨ht, Or.inl hcmp⟩ hn
    have hp := hres n hlen
    obtain ⟨toks, htk⟩ : ∃ toks, (ReplLib.tokens n l : Out (List Bytes)) = .ok toks := by
      obtain ⟨ts, l', pos, h3, h4, h5⟩ := C01_reaches_eof hc ht.scan
      have := (lexLoop n (Lexer.new l) 0 [] _ _).mpr ⟨ts, _, l', h5, h4, rfl, by omega, rfl, rfl⟩
      unfold ReplLib.tokens
      rw [this]
      exact ⟨_, rfl⟩
    have hsome : ∃ rules, res.cddl = some rules := by
      obtain ⟨p, _, hs, _, _, _, _, hcase⟩ := parseSource_run res hp
      rcases hcase with ⟨he, _⟩ | ⟨_, rules, q, _, rfl⟩
      · exact absurd (herr _ _ _ hs) he
      · exact ⟨rules, rfl⟩
    obtain ⟨rules, hr⟩ := hsome
    have hsh := short_ok lib n hp hr
    obtain ⟨sh, hsh⟩ : ∃ sh, lib.short res.cddl = .ok sh := by
      cases hx : lib.short res.cddl with
      | ok s => exact ⟨s, rfl⟩
      | panic w => rw [hx] at hsh; cases hsh
      | hang => rw [hx] at hsh; cases hsh
    have hok : ∃ o, lib.source n st l = .ok (o, some { st with env := res.final.env }) := by
      rw [source_def, htk, hp]
      cases lib.lexFlag <;> cases st.verbose <;> simp [Out.bind, hsh]
    obtain ⟨o, ho⟩ := hok
    refine ⟨o, _, h1.trans ho, fun s2 h2 => ?_⟩
    cases h2
    have snoc : ∀ {env env' : Env} {xs}, Entered n env xs env' → parseSource n l env' = .ok res →
        Entered n env (xs ++ [(l, res)]) res.final.env := by
      intro env env' xs h
      induction h with
      | nil => exact fun hp => .cons hp .nil
      | cons h1 _ ih => exact fun hp => .cons h1 (ih hp)
    exact ⟨xs ++ [(l, res)], snoc hx hp, henv hcmp⟩

end

/-- A library for the examples. -/
def demoRepl : ReplLib := ⟨id, fun _ => [], fun _ => [], fun _ => b!"*ast.T", id, true⟩

/-- **C77** is false as stated: with the flag on, an unclosed string crashes the REPL. -/
theorem C77_refuted : letI := asciiOnly; ∀ n, 30 ≤ n → ∀ lib : ReplLib, lib.trim = id →
    (repl lib n [b!":pv", b!"\"x"]).isPanic = true := by
  let := asciiOnly
  intro n hn lib ht
  obtain ⟨res, h1, h2⟩ := Out.of_check (o := parseSource 30 b!"\"x") (f := fun res => res.cddl.isNone) (by decide_cbv)
  obtain ⟨⟨k, tk⟩, h3, _⟩ := Out.of_check (o := loopOut lexStep 30 (Lexer.new b!"\"x", 0, [])) (f := fun _ => true) (by decide_cbv)
  have hp : parseSource n b!"\"x" = .ok res := by
    rcases parseSource_le (src := b!"\"x") (env := .new) hn with he | he
    · rw [h1] at he; cases he
    · exact he.symm.trans h1
  have htk : ReplLib.tokens n b!"\"x" = .ok tk := by
    obtain ⟨ts, t, l, h4, h5, h6, h7, h8⟩ := (lexLoop ..).mp h3
    unfold ReplLib.tokens
    rw [(lexLoop n ..).mpr ⟨ts, t, l, h4, h5, h6, by omega, h8⟩]
    rfl
  have hpv : lib.line n {} b!":pv" = .ok ([], some { verbose := true }) := by
    unfold ReplLib.line
    rw [ht]
    rfl
  have hln : lib.line n { verbose := true } b!"\"x" = lib.source n { verbose := true } b!"\"x" := by
    unfold ReplLib.line
    rw [ht]
    rfl
  have hbad : lib.source n { verbose := true } b!"\"x" = .panic .nilDeref := by
    rw [source_def, htk]
    have : res.cddl = none := Option.isNone_iff_eq_none.1 h2
    cases lib.lexFlag <;> simp [Out.bind, hp, this, ReplLib.short]
  unfold repl ReplLib.session
  rw [hpv]
  simp only [Out.bind_def, Out.bind]
  unfold ReplLib.session
  rw [hln, hbad]
  rfl

section
local instance : Unicode := asciiOnly

/-- A session. -/
example : (repl demoRepl 30 [b!"a = int", b!":pv", b!"a = b", b!":pv", b!":pv", b!":tree a b", b!":exit", b!":pv"]).check
    (fun r => decide (r.2.1 = .exit) && r.2.2.verbose && r.2.2.env.exists? b!"a" && !r.2.2.env.exists? b!"b") = true := by
  decide_cbv

/-- What it prints for the names, of which only the first is declared. -/
example : ∃ xs shown : List _, ∃ o1 o2 e st, repl demoRepl 30 [b!"a = int", b!":tree a b", b!":exit"] =
      .ok (o1 ++ b!">>> " :: shown.flatten ++ b!">>> " :: o2, e, st) ∧
    List.Forall₂ (Shows demoRepl.float xs) [b!"a", b!"b"] shown := by
  obtain ⟨⟨out, e, st⟩, h1, _⟩ := Out.of_check (o := repl demoRepl 30 [b!"a = int", b!":tree a b", b!":exit"])
    (f := fun _ => true) (by decide_cbv)
  obtain ⟨xs, _, _, _, names, h2, shown, h3, o1, o2, rfl⟩ := C76_session demoRepl 30 (pre := [b!"a = int"])
    (l := b!":tree a b") (post := [b!":exit"]) (by decide) (by decide) h1
  refine ⟨xs, shown, o1, o2, e, st, h1, ?_⟩
  have : names = [b!":tree", b!"a", b!"b"] := between_unique h2 (splitSpace_between _)
  subst this
  exact h3

/-- Its output and what is asked for. -/
example : Asks b!":tree a b" .tree ∧ Asks b!":pvx" .pv ∧ Asks b!"a = int" .source ∧ ¬ Asks b!" :exit" .exit := by
  refine ⟨?_, ?_, ?_, ?_⟩ <;> decide

example : splitSpace b!":tree a  b" = [b!":tree", b!"a", [], b!"b"] := by decide

/-- A harmless line. -/
theorem demo_harmless : Harmless demoRepl b!"a = [* int] ; c" := by
  intro _
  refine ⟨⟨['a', ' ', '=', ' ', '[', '*', ' ', 'i', 'n', 't', ']', ' ', ';', ' ', 'c'], by decide, by decide +kernel⟩, ?_, ?_, ?_⟩
  · exact (safe_of_check (n := 60) (by decide_cbv)).1
  · exact comparable_of_check (n := 60) (by decide_cbv)
  · intro a b l h
    cases h with
    | cons h1 h =>
    cases h with
    | cons h2 h =>
    cases h
    have h3 : ((Lexer.new b!"a = [* int] ; c").scan.bind fun x => x.2.2.2.scan.bind fun y => .ok y.2.2.2.errors).check (fun e => decide (e = [])) = true := by
      decide_cbv
    rw [h1] at h3
    simp only [Out.bind] at h3
    rw [h2] at h3
    simpa [Out.check] using h3

example : ∃ out e st, repl demoRepl 30 [b!"a = [* int] ; c", b!":tree a", b!":pv", b!"a = [* int] ; c"] = .ok (out, e, st) := by
  have hcmd : ∀ l r, Asks (demoRepl.trim l) r → r ≠ .source → Harmless demoRepl l := fun l r h1 h2 h3 => absurd (asks_unique h1 h3) h2
  refine C77_returns_partial demoRepl 30 fun l hl => ?_
  simp only [List.mem_cons, List.not_mem_nil, or_false] at hl
  rcases hl with rfl | rfl | rfl | rfl
  · exact ⟨demo_harmless, by decide⟩
  · exact ⟨hcmd _ .tree (by decide) nofun, by decide⟩
  · exact ⟨hcmd _ .pv (by decide) nofun, by decide⟩
  · exact ⟨demo_harmless, by decide⟩

end
end Cddlc
