import Verif.Lemmas.GoCode

/-! Properties of the Go code generator (C39 to C46, C62 to C69). -/

namespace Cddlc
open Spec

/-! ### What the examples use -/

/-- The camel case of the examples: hyphens, underscores, dots and spaces are dropped, and the
letter after them is a capital, as is the first one. -/
def demoCamel : Bool → Bytes → Bytes
  | _, [] => []
  | up, c :: s =>
    if c = 45 ∨ c = 95 ∨ c = 46 ∨ c = 32 then demoCamel true s
    else (if up ∧ 97 ≤ c ∧ c ≤ 122 then c - 32 else c) :: demoCamel false s

/-- The library of the examples. -/
def demoLib : GoLib := { toCamel := demoCamel true, lowerHi := id, float := fun _ => b!"0" }

/-- What generate.go:130-139 does with a source: it is parsed without diagnostics, and `Visit` of
the tree by a new generator returns and leaves it as `g`. -/
def Generated [Unicode] (lib : GoLib) (n : Nat) (src pkg : Bytes) (rules : List Node) (g : Generator) : Prop :=
  ∃ res, parseSource n src = .ok res ∧ res.cddl = some rules ∧ res.errs = [] ∧
    visit lib (.cddl {} rules) (.new pkg) = (g, .ok ())

/-- The code generated for a source passes the test. -/
def generates (src : Bytes) (f : List GoDecl → Bool) : Bool :=
  letI := asciiOnly
  parses 30 src fun rules errs => errs.isEmpty &&
    match visitList demoLib rules (.new b!"p") with
    | (g, .ok _) => f g.file.decls
    | _ => false

theorem of_generates {src : Bytes} {f : List GoDecl → Bool} (h : generates src f = true) :
    letI := asciiOnly
    ∃ rules g, Generated demoLib 30 src b!"p" rules g ∧ f g.file.decls = true := by
  letI := asciiOnly
  obtain ⟨res, rules, h1, h2, h3⟩ := of_parses h
  simp only [Bool.and_eq_true, List.isEmpty_iff] at h3
  obtain ⟨h3, h4⟩ := h3
  split at h4
  · rename_i g u hv
    exact ⟨rules, g, ⟨res, h1, h2, h3, by cases u; rw [visit]; exact hv⟩, h4⟩
  · cases h4

theorem asciiOnly_noReplacement : @NoReplacement asciiOnly := ⟨rfl, rfl⟩

/-- The source of the examples: a comment, an array, a size control and a literal. -/
def demoSource : Bytes := b!"; t\na = [x: int, ? y: tstr]\nb = tstr .size 4\nc = 1\n"

/-- What is generated for it. -/
def demoDecls (ds : List GoDecl) : Bool :=
  match ds with
  | [.type _ n1 (.struct [.mk m0 (.struct []) _, .mk m1 (.ident t1) none, .mk m2 (.ident t2) (some _)]),
      .method _ r1 o1 _ _ [.ret _], .type _ n2 (.ident t3), .method _ r2 o2 _ _ [.expr call, .ret _],
      .var _ n3 (.basic .int v), .method ..] =>
    decide (n1 = b!"A" ∧ m0 = [b!"_"] ∧ m1 = [b!"X"] ∧ t1 = b!"int" ∧ m2 = [b!"Y"] ∧ t2 = b!"string" ∧
      r1 = b!"a" ∧ o1 = b!"A" ∧ n2 = b!"B" ∧ t3 = b!"string" ∧ r2 = b!"b" ∧ o2 = b!"B" ∧
      call.args = [b!"self", b!"4"] ∧ n3 = b!"C" ∧ v = b!"1")
  | _ => false

set_option maxRecDepth 10000 in
theorem demo_generated : letI := asciiOnly
    ∃ rules g, Generated demoLib 30 demoSource b!"p" rules g ∧ demoDecls g.file.decls = true :=
  of_generates (by decide_cbv)

/-- The method of the second rule in what is generated. -/
theorem demo_method {ds : List GoDecl} (h : demoDecls ds = true) : ∃ doc type name results body,
    GoDecl.method doc b!"b" type name results body ∈ ds ∧ ∃ c, GoStmt.expr c ∈ body := by
  unfold demoDecls at h
  split at h
  · rename_i r2 o2 _ _ _ _ _ _ _ _ _
    rename_i r2 _ _ _ _ _ _
    simp only [decide_eq_true_eq] at h
    obtain ⟨_, _, _, _, _, _, _, _, _, _, h, _⟩ := h
    subst h
    exact ⟨_, _, _, _, _, .tail _ (.tail _ (.tail _ (.head _))), _, .head _⟩
  · cases h

section
variable [Unicode] (hU : NoReplacement) {lib : GoLib}

/-! ### C39: declarations -/

include hU in
/-- **C39**: `Visit` of a file appends the declarations of its rules, in order: for each rule a
declaration with its Go name and the Go expression of its value, then a method `Valid` on that
name; nothing for comments. -/
theorem C39_declarations {p : Pos} {rules : List Node} {g g' : Generator} (ht : TopLevel rules)
    (h : visit lib (.cddl p rules) g = (g', .ok ())) :
    ∃ ds, FileDecls lib rules ds ∧ g'.file.decls = g.file.decls ++ ds ∧ g'.file.name = g.file.name ∧
      g'.pkg = g.pkg := by
  rw [visit] at h
  rcases visitList_cases hU lib rules ht with ⟨ds, h1, h2⟩ | ⟨_, _, h1⟩
  · rw [h2] at h; cases h
    exact ⟨ds, h1, rfl, rfl, rfl⟩
  · have := h1 g; rw [h] at this; cases this

include hU in
/-- **C39**: the declarations generated for a parsed source are those of its rules. -/
theorem C39_generated {n : Nat} {src pkg : Bytes} {rules : List Node} {g : Generator}
    (h : Generated lib n src pkg rules g) : FileDecls lib rules g.file.decls := by
  obtain ⟨res, h1, h2, _, h4⟩ := h
  obtain ⟨ds, h5, h6, _⟩ := C39_declarations hU (parsed_topLevel h1 h2) h4
  rw [h6]; exact h5

example : letI := asciiOnly
    ∃ rules g, Generated demoLib 30 demoSource b!"p" rules g ∧ demoDecls g.file.decls = true ∧
      FileDecls demoLib rules g.file.decls :=
  letI := asciiOnly
  have ⟨rules, g, h1, h2⟩ := demo_generated
  ⟨rules, g, h1, h2, C39_generated asciiOnly_noReplacement h1⟩

/-! ### C40: what can be generated -/

include hU in
/-- **C40**: `Visit` of a file panics iff the name of some rule has no Go name or its value no Go
expression; otherwise it returns. -/
theorem C40_panics_iff {p : Pos} {rules : List Node} (ht : TopLevel rules) (g : Generator) :
    ((visit lib (.cddl p rules) g).2.isPanic = true ↔ ∃ p i v c, Node.rule p i v c ∈ rules ∧
      ¬ ∃ n e, Named lib i n ∧ Denotes lib v e) ∧
    ((visit lib (.cddl p rules) g).2.isOk = true ↔ ∀ p i v c, Node.rule p i v c ∈ rules →
      ∃ n e, Named lib i n ∧ Denotes lib v e) := by
  rw [visit]
  rcases visitList_cases hU lib rules ht with ⟨ds, h1, h2⟩ | ⟨_, h0, h1⟩
  · have : ∀ p i v c, Node.rule p i v c ∈ rules → ∃ n e, Named lib i n ∧ Denotes lib v e := by
      intro p i v c hr
      obtain ⟨_, _, ⟨h3, h4, _⟩, _⟩ := fileDecls_rule h1 hr
      exact ⟨_, _, h3, h4⟩
    rw [h2]
    exact ⟨⟨nofun, fun ⟨p, i, v, c, hr, hn⟩ => absurd (this p i v c hr) hn⟩, ⟨fun _ => this, fun _ => rfl⟩⟩
  · have h2 := h1 g
    refine ⟨⟨fun _ => h0, fun _ => h2⟩, ⟨fun h => ?_, fun h => ?_⟩⟩
    · cases hh : (visitList lib rules g).2 <;> rw [hh] at h h2 <;>
        first | (cases h2; done) | (cases h; done)
    · obtain ⟨p, i, v, c, hr, hn⟩ := h0
      exact absurd (h p i v c hr) hn

include hU in
/-- **C40**: a rule whose value has a node of any other kind, at any depth, makes `Visit` panic. -/
theorem C40_unsupported {p : Pos} {rules : List Node} (ht : TopLevel rules) {q i v c x}
    (hr : Node.rule q i v c ∈ rules) (hx : x ∈ subs v) (hk : ¬ hasGo x.kind) (g : Generator) :
    (visit lib (.cddl p rules) g).2.isPanic = true :=
  (C40_panics_iff hU ht g).1.2 ⟨q, i, v, c, hr, fun ⟨_, _, _, h⟩ => hk (denotes_kinds h x hx)⟩

/-- `a = {x: int}`, which is parsed without diagnostics, makes the generator panic. -/
example : letI := asciiOnly
    ∃ res rules p i v c x, parseSource 30 b!"a = {x: int}" = .ok res ∧ res.cddl = some rules ∧ res.errs = [] ∧
      Node.rule p i v c ∈ rules ∧ x ∈ subs v ∧ ¬ hasGo x.kind := by
  letI := asciiOnly
  obtain ⟨res, rules, h1, h2, h3⟩ := of_parses (n := 30) (src := b!"a = {x: int}")
    (f := fun rules errs => errs.isEmpty && match rules with
      | [.rule _ _ (.map ..) _] => true
      | _ => false) (by decide_cbv)
  simp only [Bool.and_eq_true, List.isEmpty_iff] at h3
  obtain ⟨h3, h4⟩ := h3
  split at h4
  · exact ⟨res, _, _, _, _, _, _, h1, h2, h3, .head _, .head _, by simp [hasGo, Node.kind]⟩
  · cases h4

/-! ### C41, C42: methods -/

include hU in
/-- **C41**: every generated method is a `Valid` without parameters that returns nil, whatever the
checks it makes return, if they return. -/
theorem C41_valid_returns_nil {n : Nat} {src pkg : Bytes} {rules : List Node} {g : Generator}
    (h : Generated lib n src pkg rules g) {doc recv type name : Bytes} {results body}
    (hm : GoDecl.method doc recv type name results body ∈ g.file.decls)
    {R : Type} (call : GoCall → Out R) (hc : ∀ c, (call c).isOk = true) :
    name = b!"Valid" ∧ results = [b!"error"] ∧ runBody call body = .ok (some [b!"nil"]) := by
  obtain ⟨_, _, v, _, _, _, _, h1, h2⟩ := fileDecls_mem (C39_generated hU h) hm
  cases h1 with
  | mk _ _ h3 =>
    rcases h2 with rfl | h2
    · rcases h3 with ⟨h3, _⟩ | ⟨h3, _⟩ <;> cases h3
    · cases h2
      refine ⟨rfl, rfl, ?_⟩
      generalize checks v = cs
      induction cs with
      | nil => rfl
      | cons c cs ih =>
        show (call c).bind _ = _
        cases h5 : call c with
        | ok a => exact ih
        | panic w => have := hc c; rw [h5] at this; cases this
        | hang => have := hc c; rw [h5] at this; cases this

/-- The hypotheses hold for the method of the second rule of `demoSource`, which makes a check, if
all checks fail. -/
example : letI := asciiOnly
    ∃ rules g, Generated demoLib 30 demoSource b!"p" rules g ∧ ∃ doc type name results body,
      GoDecl.method doc b!"b" type name results body ∈ g.file.decls ∧ (∃ c, GoStmt.expr c ∈ body) ∧
      runBody (fun _ => .ok false) body = .ok (some [b!"nil"]) :=
  letI := asciiOnly
  have ⟨rules, g, h1, h2⟩ := demo_generated
  have ⟨doc, type, name, results, body, h3, h4⟩ := demo_method h2
  ⟨rules, g, h1, doc, type, name, results, body, h3, h4,
    (C41_valid_returns_nil asciiOnly_noReplacement h1 h3 (fun _ => .ok false) fun _ => rfl).2.2⟩

omit [Unicode] in
theorem checks_size {v : Node} (h : v.kind ≠ .size) : checks v = [] := by
  cases v <;> first | (exact absurd rfl h) | rfl

theorem checks_cases {v : Node} {e : GoExpr} (h : Denotes lib v e) : (v.kind ≠ .size ∧ checks v = []) ∨
    (∃ q t r u s ty, v = .size q t (.intLit r u s) ty ∧
      checks v = [⟨b!"validators", b!"CheckSize", [b!"self", decInt s]⟩]) := by
  by_cases hk : v.kind = .size
  · rcases h with (h | h | h | h | h | h | _ | _ | _ | _ | _ | _ | _ | _ | _ | _)
    case size => exact Or.inr ⟨_, _, _, _, _, _, rfl, rfl⟩
    all_goals first | (rw [h] at hk; cases hk; done) | (cases hk; done)
  · exact Or.inl ⟨hk, checks_size hk⟩

include hU in
/-- **C42**: a generated method makes at most one check before it returns, and it makes one exactly
if the value of its rule is a size control with a literal: it passes the literal. -/
theorem C42_checks {n : Nat} {src pkg : Bytes} {rules : List Node} {g : Generator}
    (h : Generated lib n src pkg rules g) {doc recv type name : Bytes} {results body}
    (hm : GoDecl.method doc recv type name results body ∈ g.file.decls) :
    ∃ p i v c, Node.rule p i v c ∈ rules ∧ Named lib i type ∧
      ((v.kind ≠ .size ∧ body = [.ret [b!"nil"]]) ∨
       (∃ q t r u s ty, v = .size q t (.intLit r u s) ty ∧
          body = [.expr ⟨b!"validators", b!"CheckSize", [b!"self", decInt s]⟩, .ret [b!"nil"]])) := by
  obtain ⟨p, i, v, c, _, _, h0, h1, h2⟩ := fileDecls_mem (C39_generated hU h) hm
  cases h1 with
  | mk h4 h5 h3 =>
    rcases h2 with rfl | h2
    · rcases h3 with ⟨h3, _⟩ | ⟨h3, _⟩ <;> cases h3
    · cases h2
      refine ⟨p, i, v, c, h0, h4, ?_⟩
      rcases checks_cases h5 with ⟨h6, h7⟩ | ⟨q, t, r, u, x, ty, h6, h7⟩
      · rw [h7]; exact Or.inl ⟨h6, rfl⟩
      · rw [h7]; exact Or.inr ⟨q, t, r, u, x, ty, h6, rfl⟩

example : letI := asciiOnly
    ∃ rules g, Generated demoLib 30 demoSource b!"p" rules g ∧ ∃ doc type name results body,
      GoDecl.method doc b!"b" type name results body ∈ g.file.decls ∧ ∃ c, GoStmt.expr c ∈ body :=
  letI := asciiOnly
  have ⟨rules, g, h1, h2⟩ := demo_generated
  ⟨rules, g, h1, demo_method h2⟩

/-! ### C43: structs -/

/-- The fields of a list of entries follow them. -/
theorem follow_of_denotes {es : List Node} {fs : List GoField} (h : DenotesFields lib es fs) : Follow lib es fs := by
  unfold Follow
  induction es generalizing fs with
  | nil => cases h; exact ⟨rfl, nofun⟩
  | cons e es ih =>
    cases h with
    | cons h hs =>
      obtain ⟨h1, h2⟩ := ih hs
      refine ⟨by simp [h1], fun k x hk => ?_⟩
      cases k with
      | zero =>
        cases hk
        cases h with
        | entry h3 h4 => exact ⟨_, _, _, rfl, fun i hi => (by cases hi; exact ⟨_, h3, rfl⟩), nofun, nofun, fun _ => rfl⟩
        | optional h3 h4 =>
          exact ⟨_, _, _, rfl, fun i hi => (by cases hi; exact ⟨_, h3, rfl⟩), nofun, fun _ => rfl, fun h => absurd rfl h⟩
        | ident h3 => exact ⟨_, _, _, rfl, nofun, fun _ => rfl, nofun, fun _ => rfl⟩
        | nm h3 => exact ⟨_, _, _, rfl, nofun, fun _ => rfl, nofun, fun _ => rfl⟩
      | succ k => exact h2 k x hk

/-- The type of a field is that of what the field is for. -/
theorem denotes_fieldOf {x : Node} {ns : List Bytes} {t : GoExpr} {tag : Option Bytes}
    (h : DenotesField lib x (.mk ns t tag)) : Denotes lib (fieldOf x) t := by
  cases h with
  | entry _ h => exact h
  | optional _ h => exact h
  | ident h => exact .ident h
  | nm h => exact .nm h

/-- The field at the place of an entry is its field. -/
theorem denotesFields_at {es : List Node} {fs : List GoField} (h : DenotesFields lib es fs) {k : Nat} :
    ∀ {x f}, es[k]? = some x → fs[k]? = some f → DenotesField lib x f := by
  induction es generalizing fs k with
  | nil => intro x f hx; cases hx
  | cons e es ih =>
    cases h with
    | cons h hs =>
      intro x f hx hf
      cases k with
      | zero => cases hx; cases hf; exact h
      | succ k => exact ih hs hx hf

/-- The Go type of a group is a struct with the fields of its entries, that of an array has one more
field in front. -/
theorem denotes_struct {p : Pos} {es : List Node} {e : GoExpr} :
    (Denotes lib (.group p es) e → ∃ fs, e = .struct fs ∧ DenotesFields lib es fs) ∧
    (Denotes lib (.array p es) e → ∃ fs, DenotesFields lib es fs ∧
      e = .struct (.mk [b!"_"] (.struct []) (some b!"`cbor:\",toarray\"`") :: fs)) := by
  constructor
  · intro h
    rcases h with (h | h | h | h | h | h | _ | _ | _ | _ | _ | _ | _ | _ | h | _) <;>
      first | (cases h; done) | exact ⟨_, rfl, h⟩
  · intro h
    rcases h with (h | h | h | h | h | h | _ | _ | _ | _ | _ | _ | _ | _ | _ | h) <;>
      first | (cases h; done) | exact ⟨_, h, rfl⟩

/-- What one gets to by taking apart a tree and its Go expression in step is a tree and its Go
expression. -/
theorem denotes_within {v w : Node} {e f : GoExpr} (hw : Within v e w f) : Denotes lib v e → Denotes lib w f := by
  induction hw with
  | here => exact id
  | group hx hf _ ih =>
    intro h
    obtain ⟨fs, h1, h2⟩ := denotes_struct.1 h
    cases h1
    exact ih (denotes_fieldOf (denotesFields_at h2 hx hf))
  | array hx hf _ ih =>
    intro h
    obtain ⟨fs, h1, h2⟩ := denotes_struct.2 h
    cases h2
    exact ih (denotes_fieldOf (denotesFields_at h1 hx hf))
  | nm _ ih =>
    intro h
    rcases h with (h | h | h | h | h | h | _ | _ | _ | _ | _ | _ | h | _ | _ | _) <;>
      first | (cases h; done) | exact ih h

mutual
/-- Every group and array of a tree is met when the tree and its Go expression are taken apart. -/
theorem within_reaches {v w : Node} {e : GoExpr} : Denotes lib v e → w ∈ subs v →
    w.kind = .group ∨ w.kind = .array → ∃ f, Within v e w f
  | .bool h, hx, hk | .tstr h, hx, hk | .bytes h, hx, hk | .null h, hx, hk | .int h, hx, hk
  | .uint h, hx, hk => by
    cases leaf_subs (by rw [h]; decide) hx
    rw [h] at hk; rcases hk with hk | hk <;> cases hk
  | .intLit, hx, hk | .true, hx, hk | .false, hx, hk | .textLit, hx, hk | .floatLit, hx, hk
  | .ident _, hx, hk => by
    simp only [subs, List.mem_singleton] at hx
    subst hx; exact ⟨_, .here⟩
  | .nm h, hx, hk => by
    rcases List.mem_cons.1 hx with rfl | hx
    · exact ⟨_, .here⟩
    · obtain ⟨f, hf⟩ := within_reaches h hx hk
      exact ⟨f, .nm hf⟩
  | .size hs h, hx, hk => by
    simp only [subs, List.mem_cons, List.mem_append, List.not_mem_nil, or_false] at hx
    rcases hx with rfl | hx | rfl
    · exact ⟨_, .here⟩
    · cases leaf_subs (by simp only [List.mem_cons, List.not_mem_nil, or_false] at hs; rcases hs with h | h | h <;> rw [h] <;> decide) hx
      simp only [List.mem_cons, List.not_mem_nil, or_false] at hs
      rcases hs with h | h | h <;> rw [h] at hk <;> rcases hk with hk | hk <;> cases hk
    · rcases hk with hk | hk <;> cases hk
  | .group (fs := fs) h, hx, hk => by
    rcases List.mem_cons.1 hx with rfl | hx
    · exact ⟨_, .here⟩
    · obtain ⟨k, x, ns, t, tag, f, h1, h2, h3⟩ := within_reachesFields h hx hk
      exact ⟨f, .group h1 h2 h3⟩
  | .array (fs := fs) h, hx, hk => by
    rcases List.mem_cons.1 hx with rfl | hx
    · exact ⟨_, .here⟩
    · obtain ⟨k, x, ns, t, tag, f, h1, h2, h3⟩ := within_reachesFields h hx hk
      exact ⟨f, .array h1 h2 h3⟩
@[inherit_doc within_reaches] theorem within_reachesFields {es : List Node} {w : Node} {fs : List GoField} :
    DenotesFields lib es fs → w ∈ subsList es → w.kind = .group ∨ w.kind = .array →
    ∃ (k : Nat) (x : Node) (ns : _) (t : _) (tag : _) (f : GoExpr), es[k]? = some x ∧ fs[k]? = some (.mk ns t tag) ∧ Within (fieldOf x) t w f
  | .nil, hx, _ => by cases hx
  | .cons h hs, hx, hk => by
    rcases List.mem_append.1 hx with hx | hx
    · obtain ⟨ns, t, tag, f, h1, h2⟩ := within_reachesField h hx hk
      exact ⟨0, _, ns, t, tag, f, rfl, congrArg some h1, h2⟩
    · obtain ⟨k, x, ns, t, tag, f, h1, h2, h3⟩ := within_reachesFields hs hx hk
      exact ⟨k + 1, x, ns, t, tag, f, h1, h2, h3⟩
@[inherit_doc within_reaches] theorem within_reachesField {x w : Node} {g : GoField} :
    DenotesField lib x g → w ∈ subs x → w.kind = .group ∨ w.kind = .array →
    ∃ ns t tag f, g = .mk ns t tag ∧ Within (fieldOf x) t w f
  | .entry _ h, hx, hk => by
    rcases List.mem_cons.1 hx with rfl | hx
    · rcases hk with hk | hk <;> cases hk
    · obtain ⟨f, hf⟩ := within_reaches h hx hk
      exact ⟨_, _, _, f, rfl, hf⟩
  | .optional _ h, hx, hk => by
    simp only [subs, List.mem_cons] at hx
    rcases hx with rfl | rfl | hx
    · rcases hk with hk | hk <;> cases hk
    · rcases hk with hk | hk <;> cases hk
    · obtain ⟨f, hf⟩ := within_reaches h hx hk
      exact ⟨_, _, _, f, rfl, hf⟩
  | .ident _, hx, hk => by
    simp only [subs, List.mem_singleton] at hx
    subst hx; rcases hk with hk | hk <;> cases hk
  | .nm h, hx, hk => by
    rcases List.mem_cons.1 hx with rfl | hx
    · exact ⟨_, _, _, _, rfl, .here⟩
    · obtain ⟨f, hf⟩ := within_reaches h hx hk
      exact ⟨_, _, _, f, rfl, .nm hf⟩
end

include hU in
/-- **C43**: a rule is declared with an expression in which every group and every array, at any
depth, is met at its place, and there stands a struct whose fields follow the entries; that of an
array has one more field in front, the marker `toarray`. -/
theorem C43_structs {n : Nat} {src pkg : Bytes} {rules : List Node} {g : Generator}
    (h : Generated lib n src pkg rules g) {p i v c} (hr : Node.rule p i v c ∈ rules) :
    ∃ doc m e, Named lib i m ∧ (GoDecl.var doc m e ∈ g.file.decls ∨ GoDecl.type doc m e ∈ g.file.decls) ∧
      (∀ w ∈ subs v, w.kind = .group ∨ w.kind = .array → ∃ f, Within v e w f) ∧
      (∀ q es f, Within v e (.group q es) f → ∃ fs, f = .struct fs ∧ Follow lib es fs) ∧
      (∀ q es f, Within v e (.array q es) f → ∃ fs, Follow lib es fs ∧
        f = .struct (.mk [b!"_"] (.struct []) (some b!"`cbor:\",toarray\"`") :: fs)) := by
  obtain ⟨a, b, h1, h2, _⟩ := fileDecls_rule (C39_generated hU h) hr
  cases h1 with
  | @mk doc _ m e h3 h4 h5 =>
    refine ⟨doc, m, e, h3, ?_, fun w hw hk => within_reaches h4 hw hk, fun q es f hw => ?_, fun q es f hw => ?_⟩
    · rcases h5 with ⟨rfl, _⟩ | ⟨rfl, _⟩
      · exact Or.inl h2
      · exact Or.inr h2
    · obtain ⟨fs, h6, h7⟩ := denotes_struct.1 (denotes_within hw h4)
      exact ⟨fs, h6, follow_of_denotes h7⟩
    · obtain ⟨fs, h6, h7⟩ := denotes_struct.2 (denotes_within hw h4)
      exact ⟨fs, follow_of_denotes h6, h7⟩

example : letI := asciiOnly
    ∃ g : Generator, ∃ rules doc fs, Generated demoLib 30 demoSource b!"p" rules g ∧
      GoDecl.type doc b!"A" (.struct fs) ∈ g.file.decls ∧ fs.length = 3 := by
  letI := asciiOnly
  obtain ⟨rules, g, h1, h2⟩ := demo_generated
  unfold demoDecls at h2
  split at h2
  · rename_i hd
    simp only [decide_eq_true_eq] at h2
    obtain ⟨rfl, _⟩ := h2
    exact ⟨g, rules, _, _, h1, by rw [hd]; exact .head _, rfl⟩
  · cases h2

/-! ### C44: imports -/

include hU in
/-- **C44**: the validators are imported once for each size control in the values of the rules; there
is no other import. -/
theorem C44_imports {n : Nat} {src pkg : Bytes} {rules : List Node} {g : Generator}
    (h : Generated lib n src pkg rules g) : g.file.imports = [] ∧
    g.imports = .replicate ((rules.filterMap valueOf).map sizeControls).sum
      ⟨none, b!"\"github.com/HannesKimara/cddlc/runtime/validators\""⟩ := by
  obtain ⟨res, h1, h2, _, h4⟩ := h
  rw [visit] at h4
  rcases visitList_cases hU lib rules (parsed_topLevel h1 h2) with ⟨ds, h5, h6⟩ | ⟨_, _, h5⟩
  · rw [h6] at h4; cases h4; exact ⟨rfl, rfl⟩
  · have := h5 (.new pkg); rw [h4] at this; cases this

/-- Two size controls, one of them in a group: the package is imported twice. -/
example : letI := asciiOnly
    ∃ rules g, Generated demoLib 30 b!"a = (x: uint .size 2)\nb = tstr .size 4" b!"p" rules g ∧
      g.imports.length = 2 := by
  letI := asciiOnly
  obtain ⟨res, rules, h1, h2, h3⟩ := of_parses (n := 30) (src := b!"a = (x: uint .size 2)\nb = tstr .size 4")
    (f := fun rules errs => errs.isEmpty && match visitList demoLib rules (.new b!"p") with
      | (g, .ok _) => g.imports.length = 2
      | _ => false) (by decide_cbv)
  simp only [Bool.and_eq_true, List.isEmpty_iff] at h3
  obtain ⟨h3, h4⟩ := h3
  split at h4
  · rename_i g u hv
    exact ⟨rules, g, ⟨res, h1, h2, h3, by cases u; rw [visit]; exact hv⟩, of_decide_eq_true h4⟩
  · cases h4

/-! ### C45: names -/

include hU in
/-- **C45**, what holds: the Go name of a name is a Go identifier, unless what is left of the name
without its dollars, or its camel case, begins with a sign. -/
theorem C45_identifier_partial {i : Ident} {m : Bytes} (h : transpileIdentifier lib i = .ok m)
    (hs : ∀ f, Formatted lib i f → f.head? ≠ some 43 ∧ f.head? ≠ some 45) : GoIdent m := by
  rcases transpile_cases hU lib i with ⟨m', h1, h2⟩ | ⟨h1, _⟩
  · rw [h] at h1; cases h1
    cases (h2 m).2 rfl with
    | asIs _ h3 => exact h3
    | @key f v h3 h4 h5 =>
      have := hs f h3
      have hw : ∀ c ∈ f, wordByte c = true := by
        rcases parseInt_word h5 with h6 | h6 | h6
        · exact absurd h6 this.1
        · exact absurd h6 this.2
        · exact h6
      refine goIdent_word (c := 73) hU (by decide) (fun x hx => ?_) ?_
      · rcases List.mem_append.1 (show x ∈ b!"IntKey_" ++ f from hx) with hx | hx
        · have : ∀ x ∈ b!"IntKey_", wordByte x = true := by decide
          exact this x hx
        · exact hw x hx
      · intro hk
        have : ∀ k ∈ goKeywords, k.head? ≠ some 73 := by decide
        exact this _ hk rfl
  · rw [h] at h1; cases h1

/-- The name `12`, which is not an identifier, and `foo-bar`. -/
example : letI := asciiOnly
    transpileIdentifier demoLib ⟨{}, b!"$12"⟩ = .ok b!"IntKey_12" ∧
    transpileIdentifier demoLib ⟨{}, b!"foo-bar"⟩ = .ok b!"FooBar" := ⟨rfl, rfl⟩

/-- **C45**, refuted: the name `$-1`, a name of CDDL, becomes `IntKey_-1`, which is not a Go
identifier. -/
theorem C45_refuted (hU : NoReplacement) (lib : GoLib) (p : Pos) :
    transpileIdentifier lib ⟨p, b!"$-1"⟩ = .ok b!"IntKey_-1" ∧ ¬ GoIdent b!"IntKey_-1" := by
  have hn : ¬ GoIdent b!"IntKey_-1" := by
    rw [goIdent_ascii hU (by decide)]
    rintro ⟨_, h, _⟩
    revert h; decide
  refine ⟨?_, hn⟩
  have hn' : ¬ GoIdent b!"-1" := by
    rw [goIdent_ascii hU (by decide)]
    rintro ⟨_, h, _⟩
    revert h; decide
  have hi : isGoIdentifier b!"-1" = false := by
    rw [← Bool.not_eq_true, isGoIdentifier_iff hU]; exact hn'
  unfold transpileIdentifier
  simp only [show (Ident.isSocket ⟨p, b!"$-1"⟩ || Ident.isPlug ⟨p, b!"$-1"⟩) = true from rfl,
    show trimDollars b!"$-1" = b!"-1" from rfl, hi, if_true]
  rfl

omit [Unicode] in
/-- The source `$-1 = int` generates a declaration with that name. -/
theorem C45_refuted_source : letI := asciiOnly
    ∃ rules g, Generated demoLib 30 b!"$-1 = int" b!"p" rules g ∧
      ∃ doc e, GoDecl.type doc b!"IntKey_-1" e ∈ g.file.decls := by
  letI := asciiOnly
  obtain ⟨rules, g, h1, h2⟩ := of_generates (src := b!"$-1 = int") (f := fun ds => match ds with
    | [.type _ n _, .method ..] => n = b!"IntKey_-1"
    | _ => false) (by decide_cbv)
  refine ⟨rules, g, h1, ?_⟩
  split at h2
  · rename_i hd; rw [hd, ← of_decide_eq_true h2]; exact ⟨_, _, .head _⟩
  · cases h2

/-- **C45**: the names `$a` and `$$a`, which are different names in CDDL, have the same Go name;
so have all names that are different only in the dollars in front. -/
theorem C45_sockets_collide (lib : GoLib) (p q : Pos) (s : Bytes) :
    transpileIdentifier lib ⟨p, 36 :: s⟩ = transpileIdentifier lib ⟨q, 36 :: 36 :: s⟩ := by
  have h : formattedName lib ⟨p, 36 :: s⟩ = formattedName lib ⟨q, 36 :: 36 :: s⟩ := by
    unfold formattedName
    rw [if_pos ((socket_or_plug _).2 rfl), if_pos ((socket_or_plug _).2 rfl)]
    rfl
  have e : ∀ i, transpileIdentifier lib i = if isGoIdentifier (formattedName lib i) then .ok (formattedName lib i)
      else match parseInt (formattedName lib i) with
        | .error _ => .panic .explicit
        | .ok _ => .ok (b!"IntKey_" ++ formattedName lib i) := fun _ => rfl
  rw [e, e, h]

example : letI := asciiOnly
    transpileIdentifier demoLib ⟨{}, b!"$a"⟩ = .ok b!"a" ∧ transpileIdentifier demoLib ⟨{}, b!"$$a"⟩ = .ok b!"a" :=
  ⟨rfl, rfl⟩

end

/-! ### C46: printing twice -/

theorem sortImports_none (f : GoFile) (h : ∀ specs, GoDecl.imports specs ∉ f.decls) :
    sortImports true f = { f with imports := [] } := by
  unfold sortImports
  simp only [if_true]
  congr 1
  rw [List.flatMap_eq_nil_iff]
  intro d hd
  cases d with
  | imports specs => exact absurd hd (h specs)
  | _ => rfl

theorem string_true (g : Generator) (h : ∀ specs, GoDecl.imports specs ∉ g.file.decls) :
    g.string true = { g with file := { g.file with imports := [] } } := by
  have := sortImports_none { g.file with imports := g.file.imports ++ g.imports } h
  unfold Generator.string
  simp only [this]
  rfl

theorem string_false (g : Generator) (h : g.imports ≠ []) : g.string false =
    { g with file := { g.file with
        imports := g.file.imports ++ g.imports
        decls := .imports (g.file.imports ++ g.imports) :: g.file.decls } } := by
  have : (g.file.imports ++ g.imports).length > 0 := by
    rw [List.length_append]
    have := List.length_pos_iff.2 h
    omega
  unfold Generator.string sortImports
  simp only [Bool.false_eq_true, if_false]
  rw [if_pos this]

/-- **C46**, what holds: if no import was recorded, `String` changes nothing, so that it writes the
same file each time, provided the file has no import declaration. -/
theorem C46_repeatable_partial (resets : Bool) (g : Generator) (h1 : g.imports = [])
    (h2 : g.file.imports = []) (h3 : ∀ specs, GoDecl.imports specs ∉ g.file.decls) :
    g.string resets = g := by
  obtain ⟨pkg, imports, ⟨name, fimports, decls⟩⟩ := g
  cases h1; cases h2
  cases resets
  · rfl
  · exact string_true _ h3

example : (Generator.new b!"p").string true = .new b!"p" :=
  C46_repeatable_partial true _ rfl rfl nofun

/-- **C46**, refuted: with the older `SortImports`, each call of `String` puts another import
declaration in front, longer than the one before, if an import was recorded. -/
theorem C46_refuted (g : Generator) (h : g.imports ≠ []) :
    (g.string false).file.decls = .imports (g.file.imports ++ g.imports) :: g.file.decls ∧
    ((g.string false).string false).file.decls =
      .imports (g.file.imports ++ g.imports ++ g.imports) :: .imports (g.file.imports ++ g.imports) ::
        g.file.decls := by
  have h1 := string_false g h
  have h2 := string_false (g.string false) (by rw [h1]; exact h)
  rw [h2, h1]
  exact ⟨rfl, rfl⟩

example : ((Generator.new b!"p").addImport validatorPkg []).imports ≠ [] := nofun

/-- **C46**: with the newer `SortImports`, which recomputes the imports of the file, `String` drops
the imports recorded: a file without import declaration gets none. -/
theorem C46_imports_lost (g : Generator) (h3 : ∀ specs, GoDecl.imports specs ∉ g.file.decls) :
    (g.string true).file.decls = g.file.decls ∧ (g.string true).file.imports = [] := by
  rw [string_true g h3]
  exact ⟨rfl, rfl⟩

section
variable [Unicode] (hU : NoReplacement) {lib : GoLib}

/-- A method of the declarations of a file belongs to a rule. -/
theorem method_rule {rules : List Node} {ds : List GoDecl} (h : FileDecls lib rules ds)
    {doc recv type name : Bytes} {results body} (hm : GoDecl.method doc recv type name results body ∈ ds) :
    ∃ p i v c d e, Node.rule p i v c ∈ rules ∧ Named lib i type ∧ Denotes lib v e ∧ d ∈ ds ∧
      recv = lib.toLower i.name ∧ body = (checks v).map .expr ++ [.ret [b!"nil"]] ∧
      (declared d = some (type, false) ∧ IsLiteral v ∨ declared d = some (type, true) ∧ ¬ IsLiteral v) := by
  induction h with
  | nil => cases hm
  | @rule p i v c rest a b ds hr hs ih =>
    cases hr with
    | mk h1 h2 h3 =>
      rcases List.mem_cons.1 hm with h4 | hm
      · subst h4; rcases h3 with ⟨h3, _⟩ | ⟨h3, _⟩ <;> cases h3
      rcases List.mem_cons.1 hm with h4 | hm
      · cases h4
        refine ⟨p, i, v, c, a, _, List.mem_cons_self .., h1, h2, List.mem_cons_self .., rfl, rfl, ?_⟩
        rcases h3 with ⟨rfl, h3⟩ | ⟨rfl, h3⟩
        · exact Or.inl ⟨rfl, h3⟩
        · exact Or.inr ⟨rfl, h3⟩
      · obtain ⟨p, i, v, c, d, e, h4, h5, h6, h7, h8⟩ := ih hm
        exact ⟨p, i, v, c, d, e, List.mem_cons_of_mem _ h4, h5, h6,
          List.mem_cons_of_mem _ (List.mem_cons_of_mem _ h7), h8⟩
  | skip _ _ ih =>
    obtain ⟨p, i, v, c, d, e, h4, h5⟩ := ih hm
    exact ⟨p, i, v, c, d, e, List.mem_cons_of_mem _ h4, h5⟩

/-! ### C62: receivers -/

omit [Unicode] in
theorem toLower_word {s : Bytes} (hs : ∀ c ∈ s, c.toNat < 128) :
    (∀ c ∈ lib.toLower s, c.toNat < 128) ∧
    ((∀ c ∈ lib.toLower s, wordByte c = true) ↔ ∀ c ∈ s, wordByte c = true) ∧
    ((∃ c t, lib.toLower s = c :: t ∧ (c.toNat < 48 ∨ 57 < c.toNat)) ↔
      ∃ c t, s = c :: t ∧ (c.toNat < 48 ∨ 57 < c.toNat)) := by
  have ha : s.all (· < 128) = true := by
    rw [List.all_eq_true]; intro c hc
    have := hs c hc
    exact decide_eq_true (UInt8.lt_iff_toNat_lt.2 (by simpa using this))
  let f : UInt8 → UInt8 := fun c => if 65 ≤ c ∧ c ≤ 90 then c + 32 else c
  have hf : ∀ c : UInt8, c.toNat < 128 → (f c).toNat < 128 ∧ (wordByte (f c) = wordByte c) ∧
      (((f c).toNat < 48 ∨ 57 < (f c).toNat) ↔ (c.toNat < 48 ∨ 57 < c.toNat)) := by
    have : ∀ c : Fin 128, (f (UInt8.ofNat c.val)).toNat < 128 ∧
        (wordByte (f (UInt8.ofNat c.val)) = wordByte (UInt8.ofNat c.val)) ∧
        (((f (UInt8.ofNat c.val)).toNat < 48 ∨ 57 < (f (UInt8.ofNat c.val)).toNat) ↔
          ((UInt8.ofNat c.val).toNat < 48 ∨ 57 < (UInt8.ofNat c.val).toNat)) := by decide +kernel
    intro c hc
    simpa using this ⟨c.toNat, hc⟩
  have he : lib.toLower s = s.map f := by
    unfold GoLib.toLower; rw [if_pos ha]
  rw [he]
  refine ⟨?_, ?_, ?_⟩
  · intro c hc
    obtain ⟨x, hx, rfl⟩ := List.mem_map.1 hc
    exact (hf x (hs x hx)).1
  · constructor
    · intro h c hc
      rw [← (hf c (hs c hc)).2.1]
      exact h _ (List.mem_map_of_mem hc)
    · intro h c hc
      obtain ⟨x, hx, rfl⟩ := List.mem_map.1 hc
      rw [(hf x (hs x hx)).2.1]; exact h x hx
  · cases s with
    | nil => simp
    | cons c s =>
      have := (hf c (hs c (List.mem_cons_self ..))).2.2
      simp only [List.map_cons, List.cons.injEq]
      constructor
      · rintro ⟨_, _, ⟨rfl, _⟩, h⟩
        exact ⟨_, _, ⟨rfl, rfl⟩, this.1 h⟩
      · rintro ⟨_, _, ⟨rfl, _⟩, h⟩
        exact ⟨_, _, ⟨rfl, rfl⟩, this.2 h⟩

include hU in
/-- **C62**, what holds: the receiver of a method is the name of its rule in small letters. For a
name in ASCII it is a Go identifier exactly if the name has no bytes but letters, digits and
underscores, does not begin with a digit, and is no keyword in small letters. -/
theorem C62_receiver_partial {n : Nat} {src pkg : Bytes} {rules : List Node} {g : Generator}
    (h : Generated lib n src pkg rules g) {doc recv type name : Bytes} {results body}
    (hm : GoDecl.method doc recv type name results body ∈ g.file.decls) :
    ∃ p i v c, Node.rule p i v c ∈ rules ∧ Named lib i type ∧ ((∀ c ∈ i.name, c.toNat < 128) →
      (GoIdent recv ↔ (∀ c ∈ i.name, wordByte c = true) ∧
        (∃ c t, i.name = c :: t ∧ (c.toNat < 48 ∨ 57 < c.toNat)) ∧ recv ∉ goKeywords)) := by
  obtain ⟨p, i, v, c, d, e, h1, h2, _, _, h3, _⟩ := method_rule (C39_generated hU h) hm
  refine ⟨p, i, v, c, h1, h2, fun ha => ?_⟩
  obtain ⟨h4, h5, h6⟩ := toLower_word (lib := lib) ha
  rw [h3, goIdent_ascii hU h4, h5, h6]
  exact ⟨fun ⟨a, b, c⟩ => ⟨b, c, a⟩, fun ⟨b, c, a⟩ => ⟨a, b, c⟩⟩

example : letI := asciiOnly
    ∃ rules g, Generated demoLib 30 demoSource b!"p" rules g ∧ ∃ doc type name results body,
      GoDecl.method doc b!"b" type name results body ∈ g.file.decls ∧ GoIdent b!"b" :=
  letI := asciiOnly
  have ⟨rules, g, h1, h2⟩ := demo_generated
  have ⟨doc, type, name, results, body, h3, _⟩ := demo_method h2
  ⟨rules, g, h1, doc, type, name, results, body, h3,
    goIdent_word asciiOnly_noReplacement (by decide) (by decide) (by decide)⟩

omit [Unicode] in
/-- **C62**, refuted: the method generated for `foo-bar = int` has the receiver `foo-bar`, and that
for `type = int` the receiver `type`. -/
theorem C62_refuted : letI := asciiOnly
    (∃ rules g, Generated demoLib 30 b!"foo-bar = int" b!"p" rules g ∧ ∃ doc type name results body,
      GoDecl.method doc b!"foo-bar" type name results body ∈ g.file.decls ∧ ¬ GoIdent b!"foo-bar") ∧
    (∃ rules g, Generated demoLib 30 b!"type = int" b!"p" rules g ∧ ∃ doc type name results body,
      GoDecl.method doc b!"type" type name results body ∈ g.file.decls ∧ ¬ GoIdent b!"type") := by
  letI := asciiOnly
  constructor
  · obtain ⟨rules, g, h1, h2⟩ := of_generates (src := b!"foo-bar = int") (f := fun ds => match ds with
      | [_, .method _ r _ _ _ _] => r = b!"foo-bar"
      | _ => false) (by decide_cbv)
    refine ⟨rules, g, h1, ?_⟩
    split at h2
    · rename_i hd
      rw [hd, ← of_decide_eq_true h2]
      refine ⟨_, _, _, _, _, .tail _ (.head _), ?_⟩
      rw [of_decide_eq_true h2, goIdent_ascii asciiOnly_noReplacement (by decide)]
      rintro ⟨_, h, _⟩
      revert h; decide
    · cases h2
  · obtain ⟨rules, g, h1, h2⟩ := of_generates (src := b!"type = int") (f := fun ds => match ds with
      | [_, .method _ r _ _ _ _] => r = b!"type"
      | _ => false) (by decide_cbv)
    refine ⟨rules, g, h1, ?_⟩
    split at h2
    · rename_i hd
      rw [hd, ← of_decide_eq_true h2]
      refine ⟨_, _, _, _, _, .tail _ (.head _), ?_⟩
      rw [of_decide_eq_true h2]
      exact fun h => h.1 (by decide)
    · cases h2

/-! ### C63: text literals -/

include hU in
/-- **C63**, refuted: the text of a text literal is written to the Go file as it is; it is never a
Go string literal for that text. -/
theorem C63_refuted {n : Nat} {src pkg : Bytes} {rules : List Node} {g : Generator}
    (h : Generated lib n src pkg rules g) {p i q t s c}
    (hr : Node.rule p i (.textLit q t s) c ∈ rules) :
    (∃ doc name, Named lib i name ∧ GoDecl.var doc name (.basic .string s) ∈ g.file.decls) ∧
    ¬ GoString s s := by
  obtain ⟨a, b, h1, h2, _⟩ := fileDecls_rule (C39_generated hU h) hr
  refine ⟨?_, fun h => Nat.lt_irrefl _ (goString_length h)⟩
  cases h1 with
  | mk h3 h4 h5 =>
    have : ∀ e, Denotes lib (.textLit q t s) e → e = .basic .string s := by
      intro e h
      rcases h with (h | h | h | h | h | h | _ | _ | _ | _ | _ | _ | _ | _ | _ | _) <;>
        first | (cases h; done) | rfl
    rw [this _ h4] at h5
    rcases h5 with ⟨rfl, _⟩ | ⟨_, h5⟩
    · exact ⟨_, _, h3, h2⟩
    · exact absurd (by simp [IsLiteral, Node.kind]) h5

/-- `a = "x"` becomes a variable with the value `x`; the text may as well be other Go code. -/
example : letI := asciiOnly
    ∃ rules g, Generated demoLib 30 b!"a = \"1; func init() {}\"" b!"p" rules g ∧
      ∃ doc, GoDecl.var doc b!"A" (.basic .string b!"1; func init() {}") ∈ g.file.decls := by
  letI := asciiOnly
  obtain ⟨rules, g, h1, h2⟩ := of_generates (src := b!"a = \"1; func init() {}\"") (f := fun ds => match ds with
    | [.var _ n (.basic .string s), .method ..] => decide (n = b!"A" ∧ s = b!"1; func init() {}")
    | _ => false) (by decide_cbv)
  refine ⟨rules, g, h1, ?_⟩
  split at h2
  · rename_i hd
    obtain ⟨rfl, rfl⟩ := of_decide_eq_true h2
    rw [hd]; exact ⟨_, .head _⟩
  · cases h2

/-! ### C64: references -/

include hU in
/-- **C64**, what holds: every identifier a generated declaration uses as its type or value is a
predeclared one, the name of a generated declaration, or the Go name of a name used in the source
that begins with a dollar. -/
theorem C64_closed_partial {n : Nat} {src pkg : Bytes} {rules : List Node} {g : Generator}
    (h : Generated lib n src pkg rules g) {d : GoDecl} (hd : d ∈ g.file.decls) :
    ∀ m ∈ declUses d, m ∈ goTypes ∨ m ∈ goConsts ∨ (∃ d' ∈ g.file.decls, ∃ ty, declared d' = some (m, ty)) ∨
      ∃ r ∈ rules, ∃ i ∈ refs r, (∃ s, i.name = 36 :: s) ∧ Named lib i m := by
  intro m hm
  have hf := C39_generated hU h
  obtain ⟨res, h1, h2, h3, _⟩ := h
  obtain ⟨p, i, v, c, a, b, hr, hd1, hd2⟩ := fileDecls_mem hf hd
  have named : ∀ {j : Ident} {v c} {p : Pos}, Node.rule p j v c ∈ rules → Named lib j m →
      ∃ d' ∈ g.file.decls, ∃ ty, declared d' = some (m, ty) := by
    intro j v c p hr hn
    obtain ⟨a, b, hd, ha, _⟩ := fileDecls_rule hf hr
    cases hd with
    | mk h4 _ h5 =>
      cases named_unique hU h4 hn
      rcases h5 with ⟨rfl, _⟩ | ⟨rfl, _⟩
      · exact ⟨_, ha, _, rfl⟩
      · exact ⟨_, ha, _, rfl⟩
  cases hd1 with
  | @mk doc doc' nm e h4 h5 h6 =>
    rcases hd2 with rfl | rfl
    · have hm : m ∈ uses e := by
        rcases h6 with ⟨rfl, _⟩ | ⟨rfl, _⟩ <;> exact hm
      rcases denotes_uses h5 m hm with h7 | h7 | ⟨j, hj, hn⟩
      · exact Or.inl h7
      · exact Or.inr (Or.inl h7)
      · have hj' : j ∈ refs (.rule p i v c) := by
          rw [mem_refs] at *
          exact List.mem_cons_of_mem _ hj
        rcases C17_no_dangling h1 h2 h3 _ hr j hj' with h8 | h8
        · exact Or.inr (Or.inr (Or.inr ⟨_, hr, j, hj', h8, hn⟩))
        · refine Or.inr (Or.inr (Or.inl ?_))
          rcases (C19_environment h1 j.name).2.2 rules h2 rfl with ⟨w, ⟨pre, e, post, h9, ⟨q, tc, h10, _⟩, _⟩, _⟩ | ⟨_, h9⟩
          · refine named (j := ⟨q, j.name⟩) (p := {}) (v := w) (c := tc) ?_ (named_pos hn)
            rw [h9, ← h10]; simp
          · rw [h9] at h8; cases h8
    · rcases List.mem_cons.1 hm with rfl | hm
      · exact Or.inr (Or.inr (Or.inl (named hr h4)))
      · simp only [List.mem_singleton] at hm
        subst hm
        exact Or.inl (by decide)

example : letI := asciiOnly
    ∃ rules g, Generated demoLib 30 b!"a = (x: b)\nb = int" b!"p" rules g ∧
      (g.file.decls.flatMap declUses).contains b!"B" = true ∧
      (g.file.decls.filterMap declared).contains (b!"B", true) = true := by
  letI := asciiOnly
  obtain ⟨rules, g, h1, h2⟩ := of_generates (src := b!"a = (x: b)\nb = int") (f := fun ds =>
    (ds.flatMap declUses).contains b!"B" && (ds.filterMap declared).contains (b!"B", true)) (by decide_cbv)
  rw [Bool.and_eq_true] at h2
  exact ⟨rules, g, h1, h2⟩

omit [Unicode] in
/-- **C64**, refuted: what is generated for `a = $b`, which is parsed without diagnostics, uses `b`,
which nothing declares. -/
theorem C64_refuted : letI := asciiOnly
    ∃ rules g, Generated demoLib 30 b!"a = $b" b!"p" rules g ∧ (∃ d ∈ g.file.decls, b!"b" ∈ declUses d) ∧
      b!"b" ∉ goTypes ∧ b!"b" ∉ goConsts ∧ ∀ d ∈ g.file.decls, ∀ ty, declared d ≠ some (b!"b", ty) := by
  letI := asciiOnly
  obtain ⟨rules, g, h1, h2⟩ := of_generates (src := b!"a = $b") (f := fun ds =>
    ds.any (fun d => (declUses d).contains b!"b") &&
      ds.all fun d => decide (declared d ≠ some (b!"b", false) ∧ declared d ≠ some (b!"b", true))) (by decide_cbv)
  simp only [Bool.and_eq_true, List.any_eq_true, List.contains_eq_mem, decide_eq_true_eq, List.all_eq_true] at h2
  refine ⟨rules, g, h1, h2.1, by decide, by decide, fun d hd ty => ?_⟩
  cases ty
  · exact (h2.2 d hd).1
  · exact (h2.2 d hd).2

/-! ### C65: receivers are types -/

include hU in
/-- **C65**, what holds: the receiver type of a method is declared in the file: as a type if the
value of its rule is not a literal, but as a variable if it is one. -/
theorem C65_receiver_type_partial {n : Nat} {src pkg : Bytes} {rules : List Node} {g : Generator}
    (h : Generated lib n src pkg rules g) {doc recv type name : Bytes} {results body}
    (hm : GoDecl.method doc recv type name results body ∈ g.file.decls) :
    ∃ p i v c, Node.rule p i v c ∈ rules ∧ Named lib i type ∧
      ∃ d ∈ g.file.decls, (declared d = some (type, false) ∧ IsLiteral v) ∨
        (declared d = some (type, true) ∧ ¬ IsLiteral v) := by
  obtain ⟨p, i, v, c, d, e, h1, h2, _, h3, _, _, h4⟩ := method_rule (C39_generated hU h) hm
  exact ⟨p, i, v, c, h1, h2, d, h3, h4⟩

example : letI := asciiOnly
    ∃ rules g, Generated demoLib 30 demoSource b!"p" rules g ∧ ∃ doc type name results body,
      GoDecl.method doc b!"b" type name results body ∈ g.file.decls :=
  letI := asciiOnly
  have ⟨rules, g, h1, h2⟩ := demo_generated
  have ⟨doc, type, name, results, body, h3, _⟩ := demo_method h2
  ⟨rules, g, h1, doc, type, name, results, body, h3⟩

omit [Unicode] in
/-- **C65**, refuted: the method generated for `a = 1` is a method of `A`, which is declared as a
variable and not as a type. -/
theorem C65_refuted : letI := asciiOnly
    ∃ rules g, Generated demoLib 30 b!"a = 1" b!"p" rules g ∧
      (∃ doc recv name results body, GoDecl.method doc recv b!"A" name results body ∈ g.file.decls) ∧
      ∀ d ∈ g.file.decls, declared d ≠ some (b!"A", true) := by
  letI := asciiOnly
  obtain ⟨rules, g, h1, h2⟩ := of_generates (src := b!"a = 1") (f := fun ds => match ds with
    | [.var _ _ _, .method _ _ t _ _ _] => t = b!"A"
    | _ => false) (by decide_cbv)
  refine ⟨rules, g, h1, ?_⟩
  split at h2
  · rename_i hd
    rw [hd, ← of_decide_eq_true h2]
    refine ⟨⟨_, _, _, _, _, .tail _ (.head _)⟩, ?_⟩
    simp [declared]
  · cases h2

/-! ### C66: types -/

include hU in
/-- **C66**, what holds: the right side of a generated type declaration is a Go type exactly if the
value of its rule has no null and no literal where a type is needed and no occurrence directly in a
group or array, provided none of the names it uses has `nil`, `true` or `false` as its Go name. -/
theorem C66_types_partial {n : Nat} {src pkg : Bytes} {rules : List Node} {g : Generator}
    (h : Generated lib n src pkg rules g) {doc name : Bytes} {e : GoExpr}
    (hm : GoDecl.type doc name e ∈ g.file.decls) :
    ∃ p i v c, Node.rule p i v c ∈ rules ∧ Named lib i name ∧
      ((∀ j ∈ refs v, ∀ m, Named lib j m → m ∉ goConsts) → (IsType e ↔ typeLike v = true)) := by
  obtain ⟨p, i, v, c, a, b, hr, hd1, hd2⟩ := fileDecls_mem (C39_generated hU h) hm
  cases hd1 with
  | mk h4 h5 h6 =>
    rcases hd2 with rfl | h7
    · rcases h6 with ⟨h6, _⟩ | ⟨h6, _⟩ <;> cases h6
      exact ⟨p, i, v, c, hr, h4, fun hj => (denotes_isType h5 hj).symm⟩
    · cases h7

example : typeLike (.array {} [.entry {} ⟨{}, b!"x"⟩ (.nm {} .INT none none (.intType {} .INT)) none]) = true := rfl

omit [Unicode] in
/-- **C66**, refuted: for `a = null` the type `nil` is generated, for `a = [* int]` a struct with the
embedded field `[]int`, and for `a = (x: 1)` a field with the type `1`. -/
theorem C66_refuted : letI := asciiOnly
    ∀ src ∈ [b!"a = null", b!"a = [* int]", b!"a = (x: 1)"],
      ∃ rules g, Generated demoLib 30 src b!"p" rules g ∧
        ∃ doc e, GoDecl.type doc b!"A" e ∈ g.file.decls ∧ ¬ IsType e := by
  letI := asciiOnly
  intro src hs
  simp only [List.mem_cons, List.not_mem_nil, or_false] at hs
  rcases hs with rfl | rfl | rfl
  · obtain ⟨rules, g, h1, h2⟩ := of_generates (src := b!"a = null") (f := fun ds => match ds with
      | [.type _ n (.ident m), .method ..] => decide (n = b!"A" ∧ m = b!"nil")
      | _ => false) (by decide_cbv)
    refine ⟨rules, g, h1, ?_⟩
    split at h2
    · rename_i hd
      obtain ⟨rfl, rfl⟩ := of_decide_eq_true h2
      rw [hd]
      refine ⟨_, _, .head _, fun h => ?_⟩
      cases h with
      | ident h => exact h (by decide)
    · cases h2
  · obtain ⟨rules, g, h1, h2⟩ := of_generates (src := b!"a = [* int]") (f := fun ds => match ds with
      | [.type _ n (.struct [_, .mk [] (.array _) _]), .method ..] => n = b!"A"
      | _ => false) (by decide_cbv)
    refine ⟨rules, g, h1, ?_⟩
    split at h2
    · rename_i hd
      rw [hd, ← of_decide_eq_true h2]
      refine ⟨_, _, .head _, fun h => ?_⟩
      cases h with
      | struct h => cases h with
        | named _ h => cases h
        | embedded _ h => cases h
    · cases h2
  · obtain ⟨rules, g, h1, h2⟩ := of_generates (src := b!"a = (x: 1)") (f := fun ds => match ds with
      | [.type _ n (.struct [.mk (_ :: _) (.basic ..) _]), .method ..] => n = b!"A"
      | _ => false) (by decide_cbv)
    refine ⟨rules, g, h1, ?_⟩
    split at h2
    · rename_i hd
      rw [hd, ← of_decide_eq_true h2]
      refine ⟨_, _, .head _, fun h => ?_⟩
      cases h with
      | struct h => cases h with
        | named h => cases h
    · cases h2

/-! ### C67: distinct names -/

theorem fileDecls_distinct {l0 : Lexer} {rules : List Node} {ds : List GoDecl} (h : FileDecls lib rules ds)
    (hp : rules.Pairwise (fun a b => ∀ k v w, Declares l0 a k v → ¬ Declares l0 b k w))
    (ha : ∀ p i v c, Node.rule p i v c ∈ rules → Declares l0 (.rule p i v c) i.name v)
    (hi : ∀ p i v c q j w d, Node.rule p i v c ∈ rules → Node.rule q j w d ∈ rules →
      ∀ m, Named lib i m → Named lib j m → i.name = j.name) :
    ((ds.filterMap declared).map (·.1)).Pairwise (· ≠ ·) := by
  induction h with
  | nil => exact .nil
  | @rule p i v c rest a b ds hr hs ih =>
    have ih := ih hp.of_cons (fun p i v c h => ha p i v c (List.mem_cons_of_mem _ h))
      (fun p i v c q j w d h1 h2 => hi p i v c q j w d (List.mem_cons_of_mem _ h1) (List.mem_cons_of_mem _ h2))
    cases hr with
    | @mk doc doc' n e h1 h2 h3 =>
      have hd : ∃ ty, declared a = some (n, ty) := by
        rcases h3 with ⟨rfl, _⟩ | ⟨rfl, _⟩ <;> exact ⟨_, rfl⟩
      obtain ⟨ty, hd⟩ := hd
      rw [List.filterMap_cons_some hd, List.filterMap_cons_none rfl, List.map_cons, List.pairwise_cons]
      refine ⟨fun m hm hnm => ?_, ih⟩
      obtain ⟨⟨m', ty'⟩, hx, hm'⟩ := List.mem_map.1 hm
      have hnm : n = m' := hnm.trans hm'.symm
      clear hm hm'
      obtain ⟨d, hd', h4⟩ := List.mem_filterMap.1 hx
      obtain ⟨q, j, w, c', a', b', hr', hdecl, h5⟩ := fileDecls_mem hs hd'
      cases hdecl with
      | @mk _ _ n' _ h6 _ h7 =>
        rcases h5 with rfl | rfl
        · have : m' = n' := by
            rcases h7 with ⟨rfl, _⟩ | ⟨rfl, _⟩ <;> (cases h4; rfl)
          rw [← this, ← hnm] at h6
          have hij := hi p i v c q j w c' (List.mem_cons_self ..) (List.mem_cons_of_mem _ hr') _ h1 h6
          have hj := ha q j w c' (List.mem_cons_of_mem _ hr')
          rw [← hij] at hj
          exact (List.pairwise_cons.1 hp).1 _ hr' _ _ _ (ha p i v c (List.mem_cons_self ..)) hj
        · cases h4
  | skip _ _ ih =>
    exact ih hp.of_cons (fun p i v c h => ha p i v c (List.mem_cons_of_mem _ h))
      (fun p i v c q j w d h1 h2 => hi p i v c q j w d (List.mem_cons_of_mem _ h1) (List.mem_cons_of_mem _ h2))

include hU in
/-- **C67**, what holds: if every rule is written with `=` and different names of rules have
different Go names, then the names declared by the generated file are pairwise different. -/
theorem C67_distinct_partial {n : Nat} {src pkg : Bytes} {rules : List Node} {g : Generator}
    (h : Generated lib n src pkg rules g)
    (ha : ∀ p i v c, Node.rule p i v c ∈ rules → Declares (Lexer.new src) (.rule p i v c) i.name v)
    (hi : ∀ p i v c q j w d, Node.rule p i v c ∈ rules → Node.rule q j w d ∈ rules →
      ∀ m, Named lib i m → Named lib j m → i.name = j.name) :
    ((g.file.decls.filterMap declared).map (·.1)).Pairwise (· ≠ ·) := by
  have hf := C39_generated hU h
  obtain ⟨res, h1, h2, h3, _⟩ := h
  exact fileDecls_distinct hf (C18_distinct h1 h2 h3).1 ha hi

/-- Two rules that meet the hypotheses. -/
example : letI := asciiOnly
    ∃ rules g, Generated demoLib 30 b!"a = int\nb = tstr" b!"p" rules g ∧ rules.length = 2 ∧
    (∀ p i v c, Node.rule p i v c ∈ rules →
      Declares (Lexer.new b!"a = int\nb = tstr") (.rule p i v c) i.name v) ∧
    (∀ p i v c q j w d, Node.rule p i v c ∈ rules → Node.rule q j w d ∈ rules →
      ∀ m, Named demoLib i m → Named demoLib j m → i.name = j.name) := by
  letI := asciiOnly
  obtain ⟨res, h1, h2⟩ := Out.of_check (o := parseSource 30 b!"a = int\nb = tstr") (f := fun res =>
    res.errs.isEmpty && res.final.env.exists? b!"a" && res.final.env.exists? b!"b" && match res.cddl with
      | some [.rule p ⟨q, x⟩ v c, .rule p' ⟨q', y⟩ w c'] => decide (x = b!"a" ∧ y = b!"b") &&
        match visitList demoLib [.rule p ⟨q, x⟩ v c, .rule p' ⟨q', y⟩ w c'] (.new b!"p") with
        | (_, .ok _) => true
        | _ => false
      | _ => false) (by decide_cbv)
  simp only [Bool.and_eq_true, List.isEmpty_iff] at h2
  obtain ⟨⟨⟨h2, h3⟩, h4⟩, h5⟩ := h2
  split at h5
  · rename_i p q x v c p' q' y w c' hr
    simp only [Bool.and_eq_true, decide_eq_true_eq] at h5
    obtain ⟨⟨rfl, rfl⟩, h5⟩ := h5
    split at h5
    · rename_i g u hv
      have key : ∀ k, res.final.env.exists? k = true → ∃ e ∈ [Node.rule p ⟨q, b!"a"⟩ v c, .rule p' ⟨q', b!"b"⟩ w c'],
          ∃ v, Declares (Lexer.new b!"a = int\nb = tstr") e k v := by
        intro k hk
        rcases (C19_environment h1 k).2.2 _ hr rfl with ⟨v, ⟨pre, e, post, h6, h7, _⟩, _⟩ | ⟨_, h6⟩
        · exact ⟨e, by rw [h6]; simp, v, h7⟩
        · rw [h6] at hk; cases hk
      have hA : Named demoLib ⟨q, b!"a"⟩ b!"A" :=
        .asIs rfl (goIdent_word asciiOnly_noReplacement (by decide) (by decide) (by decide))
      have hB : Named demoLib ⟨q', b!"b"⟩ b!"B" :=
        .asIs rfl (goIdent_word asciiOnly_noReplacement (by decide) (by decide) (by decide))
      refine ⟨_, g, ⟨res, h1, hr, h2, by cases u; rw [visit]; exact hv⟩, rfl, ?_, ?_⟩
      · intro p i v c hm
        simp only [List.mem_cons, List.not_mem_nil, or_false, Node.rule.injEq] at hm
        rcases hm with ⟨rfl, rfl, rfl, rfl⟩ | ⟨rfl, rfl, rfl, rfl⟩
        · obtain ⟨e, h6, v', h7⟩ := key _ h3
          simp only [List.mem_cons, List.not_mem_nil, or_false] at h6
          rcases h6 with rfl | rfl
          · obtain ⟨_, _, h8, _⟩ := id h7
            cases h8; exact h7
          · obtain ⟨_, _, h8, _⟩ := h7
            cases h8
        · obtain ⟨e, h6, v', h7⟩ := key _ h4
          simp only [List.mem_cons, List.not_mem_nil, or_false] at h6
          rcases h6 with rfl | rfl
          · obtain ⟨_, _, h8, _⟩ := h7
            cases h8
          · obtain ⟨_, _, h8, _⟩ := id h7
            cases h8; exact h7
      · intro p i v c q j w d hm hm' m hi hj
        simp only [List.mem_cons, List.not_mem_nil, or_false, Node.rule.injEq] at hm hm'
        rcases hm with ⟨rfl, rfl, rfl, rfl⟩ | ⟨rfl, rfl, rfl, rfl⟩ <;>
          rcases hm' with ⟨rfl, rfl, rfl, rfl⟩ | ⟨rfl, rfl, rfl, rfl⟩
        · rfl
        · cases (named_unique asciiOnly_noReplacement hA hi).trans (named_unique asciiOnly_noReplacement hB hj).symm
        · cases (named_unique asciiOnly_noReplacement hA hj).trans (named_unique asciiOnly_noReplacement hB hi).symm
        · rfl
    · cases h5
  · cases h5

omit [Unicode] in
/-- **C67**, refuted: what is generated for two rules written with `/=`, or for a socket and a plug
of the same name, declares a name twice. -/
theorem C67_refuted : letI := asciiOnly
    (∃ rules g, Generated demoLib 30 b!"a /= int\na /= tstr" b!"p" rules g ∧
      (g.file.decls.filterMap declared).map (·.1) = [b!"A", b!"A"]) ∧
    (∃ rules g, Generated demoLib 30 b!"$a = int\n$$a = tstr" b!"p" rules g ∧
      (g.file.decls.filterMap declared).map (·.1) = [b!"a", b!"a"]) := by
  letI := asciiOnly
  constructor
  · obtain ⟨rules, g, h1, h2⟩ := of_generates (src := b!"a /= int\na /= tstr") (f := fun ds =>
      (ds.filterMap declared).map (·.1) = [b!"A", b!"A"]) (by decide_cbv)
    exact ⟨rules, g, h1, of_decide_eq_true h2⟩
  · obtain ⟨rules, g, h1, h2⟩ := of_generates (src := b!"$a = int\n$$a = tstr") (f := fun ds =>
      (ds.filterMap declared).map (·.1) = [b!"a", b!"a"]) (by decide_cbv)
    exact ⟨rules, g, h1, of_decide_eq_true h2⟩

/-! ### C68: method bodies -/

include hU in
/-- **C68**, what holds: a generated method uses no identifier but `nil` in its body, unless the value
of its rule is a size control; then it uses `self`. -/
theorem C68_self_partial {n : Nat} {src pkg : Bytes} {rules : List Node} {g : Generator}
    (h : Generated lib n src pkg rules g) {doc recv type name : Bytes} {results body}
    (hm : GoDecl.method doc recv type name results body ∈ g.file.decls) :
    ∃ p i v c, Node.rule p i v c ∈ rules ∧ recv = lib.toLower i.name ∧
      ((v.kind ≠ .size ∧ ∀ call, GoStmt.expr call ∉ body) ∨
       (v.kind = .size ∧ ∃ call, GoStmt.expr call ∈ body ∧ b!"self" ∈ call.args)) := by
  obtain ⟨p, i, v, c, d, e, h1, h2, h3, _, h4, h5, _⟩ := method_rule (C39_generated hU h) hm
  refine ⟨p, i, v, c, h1, h4, ?_⟩
  rcases checks_cases h3 with ⟨h6, h7⟩ | ⟨q, t, r, u, x, ty, h6, h7⟩
  · rw [h5, h7]
    exact Or.inl ⟨h6, fun call hc => by simp at hc⟩
  · rw [h5, h7, h6]
    exact Or.inr ⟨rfl, _, List.mem_cons_self .., List.mem_cons_self ..⟩

omit [Unicode] in
/-- **C68**, refuted: the method generated for `a = tstr .size 4` uses `self`, which is neither its
receiver nor declared. -/
theorem C68_refuted : letI := asciiOnly
    ∃ rules g, Generated demoLib 30 b!"a = tstr .size 4" b!"p" rules g ∧
      (∃ doc type name results body call, GoDecl.method doc b!"a" type name results body ∈ g.file.decls ∧
        GoStmt.expr call ∈ body ∧ b!"self" ∈ call.args) ∧
      ∀ d ∈ g.file.decls, ∀ ty, declared d ≠ some (b!"self", ty) := by
  letI := asciiOnly
  obtain ⟨rules, g, h1, h2⟩ := of_generates (src := b!"a = tstr .size 4") (f := fun ds => match ds with
    | [.type _ n _, .method _ r _ _ _ [.expr call, _]] =>
      decide (n = b!"A" ∧ r = b!"a" ∧ b!"self" ∈ call.args)
    | _ => false) (by decide_cbv)
  refine ⟨rules, g, h1, ?_⟩
  split at h2
  · rename_i hd
    obtain ⟨rfl, rfl, h3⟩ := of_decide_eq_true h2
    rw [hd]
    refine ⟨⟨_, _, _, _, _, _, .tail _ (.head _), .head _, h3⟩, fun d hd ty => ?_⟩
    simp only [List.mem_cons, List.not_mem_nil, or_false] at hd
    rcases hd with rfl | rfl <;> simp [declared]
  · cases h2

end

/-- **C69**, refuted: `Options.Valid` accepts no options, not even the case conversions the package
knows. -/
theorem C69_refuted (o : GenOptions) : o.valid = false := rfl

end Cddlc
