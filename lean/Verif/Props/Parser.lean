import Verif.Lemmas.FileFacts
import Verif.Lemmas.Check

/-! Properties of `ParseFile` that hold of every source: no tree for malformed sources (C02), the
references (C17), the environment (C18, C19, C34), the order of the rules (C57), and what the
returned tree is made of (C31, C32, C59). -/

namespace Cddlc
open Spec

variable [Unicode]

/-- The source of the examples: two declarations, an extension, a duplicate, and references to a
declared and to an undeclared name. -/
def demoP : Bytes := b!"a = int\n;n\nc /= a\na = [x: a, * c]"

omit [Unicode] in
/-- Its parse: four rules and a comment, a duplicate and a reference to an undeclared name. -/
theorem demoP_parse : letI := asciiOnly; ∃ res rules, parseSource 30 demoP = .ok res ∧
    res.cddl = some rules ∧
    (rules.map Node.kind = [.rule, .comment, .rule, .rule] ∧
     (rules.flatMap refs).map (·.name) = [b!"a", b!"a", b!"c"] ∧
     res.errs = [⟨.existing b!"a" 1 5, ⟨18, 4, 1, []⟩, ⟨18, 4, 1, []⟩⟩,
      ⟨.noSuchIdent b!"c", ⟨31, 4, 14, []⟩, ⟨31, 4, 14, []⟩⟩]) :=
  letI := asciiOnly
  have ⟨res, rules, h1, h2, h3⟩ := of_parses (n := 30) (src := demoP) (f := fun rules errs =>
    decide (rules.map Node.kind = [.rule, .comment, .rule, .rule] ∧
     (rules.flatMap refs).map (·.name) = [b!"a", b!"a", b!"c"] ∧
     errs = [⟨.existing b!"a" 1 5, ⟨18, 4, 1, []⟩, ⟨18, 4, 1, []⟩⟩,
      ⟨.noSuchIdent b!"c", ⟨31, 4, 14, []⟩, ⟨31, 4, 14, []⟩⟩])) (by decide_cbv)
  ⟨res, rules, h1, h2, of_decide_eq_true h3⟩

/-! ### C02 -/

/-- **C02** (second half): `ParseFile` never returns a tree for a source that is not clean. -/
theorem C02_no_tree {n : Nat} {src : Bytes} {env : Env} {res : PState.FileResult} {rules}
    (h : parseSource n src env = .ok res) (ht : res.cddl = some rules) : Clean src := by
  obtain ⟨p, q, hp, _, _, _, hr, _⟩ := tree_run h ht
  exact on_clean (run_end hr ⟨_, hp⟩).1 (run_end hr ⟨_, hp⟩).2

omit [Unicode] in
/-- It can return at all: `(nil, nil)` on an unterminated string followed by a bad byte. -/
theorem C02_nil_nil : letI := asciiOnly; ¬ Clean (b!"a \"x\n" ++ [255]) ∧
    ∃ res, parseSource 10 (b!"a \"x\n" ++ [255]) = .ok res ∧ res.cddl = none ∧ res.errs = [] := by
  refine ⟨not_clean_ff (by decide), ?_⟩
  letI := asciiOnly
  obtain ⟨res, h1, h2⟩ := Out.of_check (o := parseSource 10 (b!"a \"x\n" ++ [255]))
    (f := fun res => res.cddl.isNone && decide (res.errs = [])) (by decide_cbv)
  simp only [Bool.and_eq_true, Option.isNone_iff_eq_none, decide_eq_true_eq] at h2
  exact ⟨res, h1, h2⟩

/-! ### C17 -/

/-- **C17**: every identifier used as a type or value in a returned rule starts with `$`, or is
bound when `ParseFile` returns, or is reported as undeclared at its position. -/
theorem C17_references {n : Nat} {src : Bytes} {env : Env} {res : PState.FileResult} {rules}
    (h : parseSource n src env = .ok res) (ht : res.cddl = some rules) :
    ∀ e ∈ rules, ∀ i ∈ refs e, (∃ s, i.name = 36 :: s) ∨ res.final.env.exists? i.name = true ∨
      ⟨.noSuchIdent i.name, i.pos, i.pos⟩ ∈ res.errs := by
  obtain ⟨p, q, hp, _, _, _, hr, hf, he⟩ := tree_run h ht
  intro e hm i hi
  rw [mem_refs] at hi
  rcases run_nodes hr ⟨_, hp⟩ e hm with ⟨cs, _, rfl, _⟩ | ⟨name, v, tc, a, rfl, _, _, _, hv⟩
  · unfold PState.commentNode at hi
    split at hi <;> simp [subs] at hi
  · simp only [subs, List.mem_cons, reduceCtorEq, false_or] at hi
    rcases hv with rfl | hv
    · simp [subs] at hi
    · rcases (hv.2 _ hi).2 i rfl with h | h
      · exact Or.inl h
      · right
        rw [hf, he]
        by_cases hex : q.env.exists? i.name = true
        · exact Or.inl hex
        · right
          unfold PState.runTasks
          refine List.mem_append_right _ (List.mem_filterMap.mpr ⟨_, h, ?_⟩)
          simp [PState.runTask, hex]

/-- **C17**, as a user relies on it: no errors, no dangling references. -/
theorem C17_no_dangling {n : Nat} {src : Bytes} {env : Env} {res : PState.FileResult} {rules}
    (h : parseSource n src env = .ok res) (ht : res.cddl = some rules) (he : res.errs = []) :
    ∀ e ∈ rules, ∀ i ∈ refs e, (∃ s, i.name = 36 :: s) ∨ res.final.env.exists? i.name = true := by
  intro e hm i hi
  rcases C17_references h ht e hm i hi with h | h | h
  · exact Or.inl h
  · exact Or.inr h
  · rw [he] at h; cases h

example : letI := asciiOnly; ∃ res rules, parseSource 30 b!"a = {x: b, y: $s}\nb = a / 1" = .ok res ∧
    res.cddl = some rules ∧ res.errs = [] ∧
    (rules.flatMap refs).map (·.name) = [b!"b", b!"$s", b!"a"] :=
  letI := asciiOnly
  have ⟨res, rules, h1, h2, h3⟩ := of_parses (n := 30) (src := b!"a = {x: b, y: $s}\nb = a / 1")
    (f := fun rules errs => decide (errs = [] ∧
      (rules.flatMap refs).map (·.name) = [b!"b", b!"$s", b!"a"])) (by decide_cbv)
  ⟨res, rules, h1, h2, of_decide_eq_true h3⟩

/-! ### C18, C19, C34 -/

/-- **C19**: names bound before keep their value, a name not bound before is bound afterwards exactly if some
returned rule declares it with `=`, namely to the value of the first such rule. If no tree is
returned, nothing is bound. -/
theorem C19_environment {n : Nat} {src : Bytes} {env : Env} {res : PState.FileResult}
    (h : parseSource n src env = .ok res) (k : Bytes) :
    (res.cddl = none → res.final.env = env) ∧
    (env.exists? k = true → res.final.env.exists? k = true ∧ res.final.env.get k = env.get k) ∧
    (∀ rules, res.cddl = some rules → env.exists? k = false →
      (∃ v, FirstDecl (Lexer.new src) rules k v ∧ res.final.env.exists? k = true ∧
        res.final.env.get k = v) ∨
      ((∀ e ∈ rules, ∀ v, ¬ Declares (Lexer.new src) e k v) ∧ res.final.env.exists? k = false)) := by
  obtain ⟨p, hon, hp, h2, _, _, _, hc⟩ := parseSource_run res h
  rcases hc with ⟨_, rfl⟩ | ⟨_, rules', q, hr, rfl⟩
  · refine ⟨fun _ => h2, fun hk => ?_, nofun⟩
    rw [h2]; exact ⟨hk, rfl⟩
  · refine ⟨nofun, ?_, ?_⟩
    · intro hk
      unfold Env.exists? Env.get at *
      rcases run_env hr hon k with ⟨v, h1, h3⟩ | ⟨h1, _⟩
      · rw [h2] at h1
        show (assocFind k q.env.symbols).isSome = true ∧ (match assocFind k q.env.symbols with
          | some n => n
          | none => Node.nil) = _
        rw [h3, h1]; exact ⟨rfl, rfl⟩
      · rw [h2] at h1; rw [h1] at hk; cases hk
    · intro rules hrs hk
      cases hrs
      show (∃ v, _ ∧ q.env.exists? k = true ∧ q.env.get k = v) ∨ (_ ∧ q.env.exists? k = false)
      unfold Env.exists? Env.get at *
      rcases run_env hr hon k with ⟨v, h1, h3⟩ | ⟨h1, h3⟩
      · rw [h2] at h1; rw [h1] at hk; cases hk
      · rcases h3 with ⟨v, h4, h5⟩ | ⟨h4, h5⟩
        · exact Or.inl ⟨v, h4, by rw [h5]; rfl, by rw [h5]⟩
        · exact Or.inr ⟨h4, by rw [h5]; rfl⟩

/-- **C18**: a rule that declares with `=` a name bound before, or declared by an earlier rule, is
reported at its position. -/
theorem C18_duplicates {n : Nat} {src : Bytes} {env : Env} {res : PState.FileResult}
    (h : parseSource n src env = .ok res) {pre post : List Node} {e : Node} {k : Bytes} {v : Node}
    (ht : res.cddl = some (pre ++ e :: post)) (hd : Declares (Lexer.new src) e k v)
    (hb : env.exists? k = true ∨ ∃ e' ∈ pre, ∃ v', Declares (Lexer.new src) e' k v') :
    ∃ d ∈ res.errs, e.start = .ok d.start ∧ ∃ line col, d.msg = .existing k line col := by
  obtain ⟨p, q, hp, h2, _, _, hr, hf, he⟩ := tree_run h ht
  obtain ⟨d, h3, h4⟩ := run_dup hr ⟨_, hp⟩ rfl hd (by rw [h2]; exact hb)
  exact ⟨d, by rw [he]; exact List.mem_append_left _ h3, h4⟩

/-- **C18**, as a user relies on it: without errors, the names declared with `=` are pairwise
distinct and were not bound before. -/
theorem C18_distinct {n : Nat} {src : Bytes} {env : Env} {res : PState.FileResult} {rules}
    (h : parseSource n src env = .ok res) (ht : res.cddl = some rules) (he : res.errs = []) :
    rules.Pairwise (fun a b => ∀ k v w, Declares (Lexer.new src) a k v → ¬ Declares (Lexer.new src) b k w) ∧
    ∀ e ∈ rules, ∀ k v, Declares (Lexer.new src) e k v → env.exists? k = false := by
  constructor
  · rw [List.pairwise_iff_forall_sublist]
    intro a b hab k v w ha hb
    obtain ⟨pre, post, hpp, hpre⟩ : ∃ pre post, rules = pre ++ b :: post ∧ a ∈ pre := by
      clear h ht
      induction rules with
      | nil => cases hab
      | cons x xs ih =>
        cases hab with
        | cons _ hab =>
          obtain ⟨pre, post, h1, h2⟩ := ih hab
          exact ⟨x :: pre, post, by rw [h1]; rfl, by simp [h2]⟩
        | cons_cons _ hab =>
          have : b ∈ xs := hab.subset (by simp)
          obtain ⟨s, t, rfl⟩ := List.append_of_mem this
          exact ⟨a :: s, t, rfl, by simp⟩
    rw [hpp] at ht
    obtain ⟨d, hd, _⟩ := C18_duplicates h ht hb (Or.inr ⟨a, hpre, v, ha⟩)
    rw [he] at hd; cases hd
  · intro e hm k v hd
    cases hx : env.exists? k with
    | false => rfl
    | true =>
      obtain ⟨s, t, rfl⟩ := List.append_of_mem hm
      obtain ⟨d, hd', _⟩ := C18_duplicates h ht hd (Or.inl hx)
      rw [he] at hd'; cases hd'

/-- **C34**: a name that no rule declares with `=` and that was not bound before is not bound
afterwards, whatever `/=` and `//=` rules there are, and every use of it as a type or value (without
a leading `$`) is reported. -/
theorem C34_only_assign {n : Nat} {src : Bytes} {env : Env} {res : PState.FileResult} {rules}
    (h : parseSource n src env = .ok res) (ht : res.cddl = some rules) {k : Bytes}
    (hk : env.exists? k = false)
    (hno : ∀ e ∈ rules, ∀ p name v tc, e = .rule p name v tc → name.name = k →
      ¬ TkThen (Lexer.new src) name .ASSIGN) :
    res.final.env.exists? k = false ∧
    ∀ e ∈ rules, ∀ i ∈ refs e, i.name = k → (¬ ∃ s, k = 36 :: s) →
      ⟨.noSuchIdent k, i.pos, i.pos⟩ ∈ res.errs := by
  have hnot : res.final.env.exists? k = false := by
    rcases (C19_environment h k).2.2 rules ht hk with ⟨v, ⟨pre, e, post, h1, h2, _⟩, _⟩ | ⟨_, h1⟩
    · obtain ⟨pos, tc, h3, _, h4⟩ := h2
      exact absurd h4 (hno e (by rw [h1]; simp) _ _ _ _ h3 rfl)
    · exact h1
  refine ⟨hnot, ?_⟩
  intro e he i hi hik hs
  rcases C17_references h ht e he i hi with h1 | h1 | h1
  · rw [hik] at h1; exact absurd h1 hs
  · rw [hik, hnot] at h1; cases h1
  · rw [hik] at h1; exact h1

/-! ### C57 -/

/-- **C57**: rules and comments are returned in the order they stand in the source, with strictly
increasing start offsets. -/
theorem C57_order {n : Nat} {src : Bytes} {env : Env} {res : PState.FileResult} {rules}
    (h : parseSource n src env = .ok res) (ht : res.cddl = some rules) :
    rules.Pairwise (fun a b => ∃ i j, a.start = .ok i ∧ b.start = .ok j ∧ i.offset < j.offset) := by
  obtain ⟨p, q, hp, _, _, _, hr, _⟩ := tree_run h ht
  exact (run_order hr hp).1

/-! ### C31, C32, C59 -/

/-- **C59**: the list of rules consists of comments standing in the source, and of rules whose name
stands in the source before one of the three assignment signs and whose value is nil (if it could not
be parsed) or a tree every node of which is made of tokens of the source as described by
`FromTokens`: leaves and identifiers have the position, kind and spelling of a token, numbers the
value of its spelling, operators the position of the operator token, comments behind rules and entries
are comments of the source, and no operand is missing. -/
theorem C59_made_of_tokens {n : Nat} {src : Bytes} {env : Env} {res : PState.FileResult} {rules}
    (h : parseSource n src env = .ok res) (ht : res.cddl = some rules) : ∀ e ∈ rules,
    (∃ c, e = .comment c ∧ Tk (Lexer.new src) ⟨.COMMENT, c.pos, c.text⟩) ∨
    (∃ cs, e = .commentGroup cs ∧ ∀ c ∈ cs, Tk (Lexer.new src) ⟨.COMMENT, c.pos, c.text⟩) ∨
    (∃ name v tc a, e = .rule {} name v tc ∧ TkThen (Lexer.new src) name a ∧
      (a = .ASSIGN ∨ a = .TYPE_CHOICE_ASSIGN ∨ a = .GROUP_CHOICE_ASSIGN) ∧
      (∀ c ∈ tc, Tk (Lexer.new src) ⟨.COMMENT, c.pos, c.text⟩) ∧
      ∀ y ∈ subs v, FromTokens (Lexer.new src) y) := by
  obtain ⟨p, q, hp, _, _, _, hr, _⟩ := tree_run h ht
  intro e he
  rcases run_nodes hr ⟨_, hp⟩ e he with ⟨cs, _, rfl, hcs⟩ | ⟨name, v, tc, a, rfl, h1, h2, h3, hv⟩
  · unfold PState.commentNode
    split
    · exact Or.inl ⟨_, rfl, hcs _ (by simp)⟩
    · exact Or.inr (Or.inl ⟨_, rfl, hcs⟩)
  · refine Or.inr (Or.inr ⟨name, v, tc, a, rfl, h1, h2, h3, ?_⟩)
    rcases hv with rfl | hv
    · simp [subs]
    · exact fun y hy => (hv.2 y hy).1

/-- The nodes of the returned rules, below the rules themselves, are made of tokens. -/
theorem below_rule {n : Nat} {src : Bytes} {env : Env} {res : PState.FileResult} {rules}
    (h : parseSource n src env = .ok res) (ht : res.cddl = some rules) {e y} (he : e ∈ rules)
    (hy : y ∈ subs e) (hk : y.kind ≠ .rule) (hk' : y.kind ≠ .comment) (hk'' : y.kind ≠ .commentGroup) :
    FromTokens (Lexer.new src) y := by
  rcases C59_made_of_tokens h ht e he with ⟨c, rfl, _⟩ | ⟨cs, rfl, _⟩ | ⟨name, v, tc, a, rfl, _, _, _, h⟩
  · simp only [subs, List.mem_singleton] at hy; subst hy; exact absurd rfl hk'
  · simp only [subs, List.mem_singleton] at hy; subst hy; exact absurd rfl hk''
  · simp only [subs, List.mem_cons] at hy
    rcases hy with rfl | hy
    · exact absurd rfl hk
    · exact h y hy

/-- **C31**: a size control in a returned tree is on tstr/text, bstr or uint, and its size is there. (That
base and size are the operands as written: `C31_operands_kept`.) -/
theorem C31_size_base {n : Nat} {src : Bytes} {env : Env} {res : PState.FileResult} {rules}
    (h : parseSource n src env = .ok res) (ht : res.cddl = some rules) {e} (he : e ∈ rules)
    {pos tok size type} (hy : Node.size pos tok size type ∈ subs e) :
    (type.kind = .bstr ∨ type.kind = .uintType ∨ type.kind = .tstr) ∧ size.isNil = false := by
  have := below_rule h ht he hy nofun nofun nofun
  exact ⟨this.2.2.2, this.2.2.1⟩

/-- **C32**, refuted: the left operand of a comparison in a returned tree is never the operand
written but a nil pointer. -/
theorem C32_refuted {n : Nat} {src : Bytes} {env : Env} {res : PState.FileResult} {rules}
    (h : parseSource n src env = .ok res) (ht : res.cddl = some rules) {e} (he : e ∈ rules)
    {pos tok op left right} (hy : Node.comparator pos tok op left right ∈ subs e) :
    left = .typedNil .intType :=
  (below_rule h ht he hy nofun nofun nofun).2.2.1

/-- **C32**, what holds: the operator is the one written, and the right operand is there. -/
theorem C32_right_partial {n : Nat} {src : Bytes} {env : Env} {res : PState.FileResult} {rules}
    (h : parseSource n src env = .ok res) (ht : res.cddl = some rules) {e} (he : e ∈ rules)
    {pos tok op left right} (hy : Node.comparator pos tok op left right ∈ subs e) :
    tok ∈ [Tok.LT, .LE, .GT, .GE, .EQ, .NE] ∧ Tk (Lexer.new src) ⟨tok, pos, op⟩ ∧
      right.isNil = false :=
  have := below_rule h ht he hy nofun nofun nofun
  ⟨this.1, this.2.1, this.2.2.2⟩

example : letI := asciiOnly; ∃ res rules, parseSource 30 b!"a = uint .size 3\nb = uint .lt 5" = .ok res ∧
    res.cddl = some rules ∧ res.errs = [] ∧
    (rules.flatMap subs).map Node.kind =
      [.rule, .size, .uintType, .intLit, .rule, .comparator, .intType, .intLit] :=
  letI := asciiOnly
  have ⟨res, rules, h1, h2, h3⟩ := of_parses (n := 30) (src := b!"a = uint .size 3\nb = uint .lt 5")
    (f := fun rules errs => decide (errs = [] ∧ (rules.flatMap subs).map Node.kind =
      [.rule, .size, .uintType, .intLit, .rule, .comparator, .intType, .intLit])) (by decide_cbv)
  ⟨res, rules, h1, h2, of_decide_eq_true h3⟩

end Cddlc
