import Verif.Lemmas.Spans
import Verif.Lemmas.Spelled
import Verif.Props.Parser

/-! C85: where nodes start and end. -/

namespace Cddlc
open Spec

theorem to_inj {p : Pos} {a b : Int} : (Out.ok (p.to a) = Out.ok (p.to b)) ↔ a = b := by
  constructor
  · intro h
    have := congrArg Pos.offset (Out.ok.inj h)
    simp only [Pos.to] at this
    omega
  · rintro rfl; rfl

variable [Unicode]

/-- **C85** (nodes made of one token): in a source without U+FFFD, every node of the tree that is made
of one token starts where the token starts. Its `End` is where the text of the token ends exactly for
`bool`, `tstr`, `text`, `uint`, `int`, `nint`, `bytes`, `null`, `float` and identifiers, for integers
whose text is as long as their decimal digits, and for the reserved word `text_literal`. It is
somewhere else for `true`, `false`, floating-point literals, `bstr`, `nil`, `float16`, `float32`,
`float64` and all strings. (`Exact`) The full claim, that every node ends where its text ends, is
false: see `C85_refuted`. -/
theorem C85_leaves_partial {n : Nat} {src : Bytes} {env : Env} {res : PState.FileResult} {rules}
    (hc : Clean src) (h : parseSource n src env = .ok res) (ht : res.cddl = some rules)
    {e y} (he : e ∈ rules) (hy : y ∈ subs e) (h1 : oneToken y) :
    ∃ (t : Token) (o : Nat) (raw suf : Bytes), Tk (Lexer.new src) t ∧ y.start = .ok t.pos ∧
      t.pos.offset = o ∧ src.drop o = raw ++ suf ∧ RawOf t.tok t.lit raw ∧
      (y.stop = .ok (t.pos.to raw.length) ↔ Exact raw y) := by
  have hf : FromTokens (Lexer.new src) y := by
    refine below_rule h ht he hy ?_ ?_ ?_ <;> (intro hk; cases y <;> first | exact h1 | (cases hk; done) | (cases hk; exact h1))
  have key : ∀ t : Token, Tk (Lexer.new src) t → y.start = .ok t.pos →
      (∀ raw, RawOf t.tok t.lit raw → (y.stop = .ok (t.pos.to raw.length) ↔ Exact raw y)) →
      ∃ (t : Token) (o : Nat) (raw suf : Bytes), Tk (Lexer.new src) t ∧ y.start = .ok t.pos ∧
      t.pos.offset = o ∧ src.drop o = raw ++ suf ∧ RawOf t.tok t.lit raw ∧
      (y.stop = .ok (t.pos.to raw.length) ↔ Exact raw y) := by
    intro t htk hs hr
    obtain ⟨ts, l, hsc⟩ := htk
    obtain ⟨o, raw, suf, g1, g2, _, g3⟩ := C06_literal hc hsc t (by simp)
    exact ⟨t, o, raw, suf, ⟨ts, l, hsc⟩, hs, g1, g2, g3, hr raw g3⟩
  have sp : ∀ {tok pos lit}, Tk (Lexer.new src) ⟨tok, pos, lit⟩ → Spelled tok lit :=
    fun hk => new_spells src _ hk
  cases y <;> first | exact h1.elim | skip
  case boolType p t =>
    obtain ⟨rfl, lit, hk⟩ := hf
    have := (sp hk).1 (by simp)
    subst this
    refine key _ hk rfl fun raw hr => ?_
    simp only [RawOf] at hr; subst hr
    simp [Node.stop, Exact, Tok.text]
  case boolLit r b =>
    obtain ⟨t, htt, hk, hst⟩ := hf
    refine key _ hk rfl fun raw hr => ?_
    have : raw = if b then b!"true" else b!"false" := by rcases htt with rfl | rfl <;> exact hr
    subst this
    rw [Node.stop, hst, to_inj]
    cases b <;> simp [Exact]
  case tstr x =>
    obtain ⟨htt, lit, hk⟩ := hf
    have hl := (sp hk).1 (by rcases htt with h | h <;> simp [h])
    refine key _ hk rfl fun raw hr => ?_
    have : raw = lit := by rcases htt with h | h <;> (rw [h] at hr; exact hr)
    rw [this, hl, Node.stop, to_inj]
    rcases htt with h | h <;> simp [h, Exact, Tok.text]
  case textLit p t lit =>
    obtain ⟨rfl, hk⟩ := hf
    refine key _ hk rfl fun raw hr => ?_
    rw [Node.stop, to_inj]
    rcases hr with ⟨rfl, _⟩ | ⟨x, rfl, _⟩ | ⟨rfl, _⟩
    · simp only [Exact]
      constructor
      · intro h; simp at h; omega
      · intro h; have := congrArg List.length h; simp at this; omega
    · simp only [Exact]
      constructor
      · intro h; simp at h; omega
      · intro h; have := congrArg List.length h; simp at this; omega
    · simp [Exact]
  case floatLit r t v =>
    obtain ⟨lit, hk, _, htt, hst⟩ := hf
    refine key _ hk rfl fun raw hr => ?_
    have : raw = lit := by
      simp only [List.mem_cons, List.not_mem_nil, or_false] at htt
      rcases htt with rfl | rfl | rfl | rfl <;> exact hr
    subst this
    rw [Node.stop, hst, to_inj]
    simp only [Exact, iff_false]
    omega
  case floatType p t =>
    obtain ⟨htt, hk⟩ := hf
    refine key _ hk rfl fun raw hr => ?_
    rw [Node.stop, to_inj]
    simp only [List.mem_cons, List.not_mem_nil, or_false] at htt
    rcases htt with rfl | rfl | rfl | rfl <;> (simp only [RawOf] at hr; subst hr; simp [Exact, Tok.text])
  case uintLit u =>
    obtain ⟨lit, hk, hv⟩ := hf
    have := (sp hk).1 (by simp)
    rw [this] at hv
    cases hv
  case uintType r t =>
    obtain ⟨rfl, hk, hst⟩ := hf
    refine key _ hk rfl fun raw hr => ?_
    rw [Node.stop, hst, to_inj]
    simp only [RawOf] at hr; subst hr; simp [Exact]
  case intLit p t v =>
    obtain ⟨rfl, lit, hk, _⟩ := hf
    refine key _ hk rfl fun raw hr => ?_
    rw [Node.stop, to_inj]
    simp only [Exact]
    omega
  case intType p t =>
    obtain ⟨rfl, hk⟩ := hf
    refine key _ hk rfl fun raw hr => ?_
    rw [Node.stop, to_inj]
    simp only [RawOf] at hr; subst hr; simp [Exact]
  case nintType p t =>
    obtain ⟨rfl, lit, hk⟩ := hf
    have := (sp hk).1 (by simp)
    subst this
    refine key _ hk rfl fun raw hr => ?_
    simp only [RawOf] at hr; subst hr
    simp [Node.stop, Exact, Tok.text]
  case bstr p t =>
    obtain ⟨rfl, lit, hk⟩ := hf
    have := (sp hk).1 (by simp)
    subst this
    refine key _ hk rfl fun raw hr => ?_
    simp only [RawOf] at hr; subst hr
    rw [Node.stop, to_inj]
    simp [Exact, Tok.text]
  case bytes p t =>
    obtain ⟨rfl, lit, hk⟩ := hf
    have := (sp hk).1 (by simp)
    subst this
    refine key _ hk rfl fun raw hr => ?_
    simp only [RawOf] at hr; subst hr
    simp [Node.stop, Exact, Tok.text]
  case null p t =>
    obtain ⟨htt, lit, hk⟩ := hf
    have := (sp hk).1 (by rcases htt with h | h <;> simp [h])
    subst this
    refine key _ hk rfl fun raw hr => ?_
    rw [Node.stop, to_inj]
    rcases htt with rfl | rfl <;> (simp only [RawOf] at hr; subst hr; simp [Exact, Tok.text])
  case ident i =>
    refine key _ hf rfl fun raw hr => ?_
    simp only [RawOf] at hr; subst hr
    simp [Node.stop, Ident.stop, Exact]

/-- **C85** (panics): `End` of a node of the tree panics exactly if the node ends with an occurrence
that has no upper bound, a range without an upper bound, a tag without a type or a rule whose value
could not be read; `Start` panics exactly if it starts with a comparison or with a range without a
lower bound. The left side of a comparison, a nil pointer, is not counted as a node. -/
theorem C85_panics {n : Nat} {src : Bytes} {env : Env} {res : PState.FileResult} {rules}
    (h : parseSource n src env = .ok res) (ht : res.cddl = some rules)
    {e y} (he : e ∈ rules) (hy : y ∈ subs e) (hk : ∀ k, y ≠ .typedNil k) :
    (y.stop.isPanic = true ↔ ∃ z, EndsWith y z ∧ NoEnd z) ∧
    (y.start.isPanic = true ↔ ∃ z, StartsWith y z ∧ NoStart z) := by
  obtain ⟨p, q, _, _, _, _, hr, _⟩ := tree_run h ht
  exact (run_firm hr e he).2.2 y hy hk

/-- What the first rule of a source without errors looks like from outside: the offsets of its value's
start and end, `none` for a panic. -/
def valueSpan (rules : List Node) : Option (Option Int × Option Int) :=
  match rules with
  | .rule _ _ v _ :: _ =>
    let off (o : Out Pos) := match o with
      | .ok p => some p.offset
      | _ => none
    some (off v.start, off v.stop)
  | _ => none

/-- The full claim is false. Of sources without a diagnostic: the value `bstr` of `a = bstr` ends one
byte behind its text, the string `"xy"` three bytes before the end of its text, `true` and `0x10` one
and two bytes before, and the empty array at offset -1; `End` panics on `[* int]` and on `1.."x"`,
and `Start` on `int .lt 5`. -/
theorem C85_refuted : letI := asciiOnly
    ∀ c ∈ [(b!"a = bstr", some (some 4, some 9)), (b!"a = \"xy\"", some (some 4, some 6)),
        (b!"a = true", some (some 4, some 7)), (b!"a = 0x10", some (some 4, some 6)),
        (b!"a = []", some (some 4, some (-1))), (b!"a = [* int]", some (some 4, none)),
        (b!"a = 1..\"x\"", some (some 4, none)), (b!"a = int .lt 5", some (none, some 13))],
      ∃ res rules, parseSource 20 c.1 = .ok res ∧ res.cddl = some rules ∧ res.errs = [] ∧
        valueSpan rules = c.2 := by
  letI := asciiOnly
  intro c hc
  have key : ∀ src sp, parses 20 src (fun rules errs => decide (errs = []) && decide (valueSpan rules = sp)) = true →
      ∃ res rules, parseSource 20 src = .ok res ∧ res.cddl = some rules ∧ res.errs = [] ∧
        valueSpan rules = sp := by
    intro src sp h
    obtain ⟨res, rules, h1, h2, h3⟩ := of_parses h
    have h3 := Bool.and_eq_true_iff.1 h3
    exact ⟨res, rules, h1, h2, of_decide_eq_true h3.1, of_decide_eq_true h3.2⟩
  simp only [List.mem_cons, List.not_mem_nil, or_false] at hc
  rcases hc with rfl | rfl | rfl | rfl | rfl | rfl | rfl | rfl <;> exact key _ _ (by decide_cbv)

/-- A source whose nodes meet the hypotheses: one that ends where its text ends, one that does not,
one whose end panics. -/
example : letI := asciiOnly; Clean b!"a = [b: nint, * bstr]" ∧
    ∃ res rules, parseSource 30 b!"a = [b: nint, * bstr]" = .ok res ∧ res.cddl = some rules ∧
      ∃ e ∈ rules, (∃ y ∈ subs e, oneToken y ∧ Exact b!"nint" y) ∧
        (∃ y ∈ subs e, oneToken y ∧ ¬ Exact b!"bstr" y) ∧
        ∃ y ∈ subs e, y.stop.isPanic = true ∧ y.kind = .array := by
  letI := asciiOnly
  refine ⟨⟨"a = [b: nint, * bstr]".toList, by decide, by decide⟩, ?_⟩
  obtain ⟨res, rules, h1, h2, h3⟩ := of_parses (n := 30) (src := b!"a = [b: nint, * bstr]")
    (f := fun rules _ => match rules with
      | [.rule _ _ (.array _ [.entry _ _ (.nintType _ _) _, .nm _ _ _ none (.bstr _ _)]) _] => true
      | _ => false) (by decide_cbv)
  refine ⟨res, rules, h1, h2, ?_⟩
  split at h3
  · exact ⟨_, List.mem_singleton.mpr rfl,
      ⟨_, List.mem_cons_of_mem _ (List.mem_cons_of_mem _ (List.mem_cons_of_mem _ List.mem_cons_self)), trivial, trivial⟩,
      ⟨_, List.mem_cons_of_mem _ (List.mem_cons_of_mem _ (List.mem_cons_of_mem _ (List.mem_cons_of_mem _
        (List.mem_cons_of_mem _ List.mem_cons_self)))), trivial, id⟩,
      ⟨_, List.mem_cons_of_mem _ List.mem_cons_self, rfl, rfl⟩⟩
  · cases h3

end Cddlc
