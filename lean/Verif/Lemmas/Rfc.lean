import Verif.Spec.Rfc
import Verif.Lemmas.LangRun

/-! What the RFC and the parser have in common is read. -/

namespace Cddlc
open Spec

/-- Tokens an entry can begin with. -/
def rfcStarters : List Tok :=
  [.IDENT, .INT, .UINT, .NINT, .FLOAT, .FLOAT16, .FLOAT32, .FLOAT64, .TSTR, .TEXT, .TEXT_LITERAL, .BYTES, .BSTR, .BOOL, .TRUE, .FALSE,
   .NIL, .NULL, .ANY, .LPAREN, .LBRACE, .LBRACK, .UNWRAP, .AMPERSAND, .HASH, .OPTIONAL, .ZERO_OR_MORE, .ONE_OR_MORE]

theorem id_starts {t : Token} (h : IsId t) : t.tok ∈ rfcStarters := by
  rcases h with h | h | h
  · simp only [List.mem_cons, List.not_mem_nil, or_false] at h
    rcases h with h | h | h | h | h | h | h | h | h | h | h | h | h | h | h | h <;> simp [h, rfcStarters]
  · simp [h.1, rfcStarters]
  · simp [h.1, rfcStarters]

theorem value_starts {t : Token} (h : IsValue t) : t.tok ∈ rfcStarters := by
  rcases h with h | h | h
  · simp [h.1, rfcStarters]
  · simp [h.1, rfcStarters]
  · simp [h, rfcStarters]

/-- Sentences of the RFC do not begin with operators. -/
theorem rfc_head {strict s ts} (h : Rfc strict s ts) :
    (s ≠ .grpchoice → s ≠ .group → ts ≠ []) ∧
    ∀ f, ts.head? = some f → f.tok ∈ rfcStarters ∨ s = .group ∧ f.tok = .GROUP_CHOICE := by
  induction h with
  | value h => exact ⟨fun _ _ => by simp, fun f hf => .inl (by cases hf; exact value_starts h)⟩
  | name h => exact ⟨fun _ _ => by simp, fun f hf => .inl (by cases hf; exact id_starts h)⟩
  | paren h | map h | array h | enumGroup h | unwrap h | enumName h | tagged h | tag h | hash h | inline h | optional h | oneOrMore h =>
    exact ⟨fun _ _ => by simp, fun f hf => .inl (by cases hf; rw [h]; decide)⟩
  | generic h => exact ⟨fun _ _ => by simp, fun f hf => .inl (by cases hf; exact id_starts h)⟩
  | lastArg _ ih | plain _ ih | last _ ih | keyless _ ih | once _ ih =>
    exact ⟨fun _ _ => ih.1 (by simp) (by simp), fun f hf => .inl ((ih.2 f hf).resolve_right (by simp))⟩
  | moreArgs _ _ _ ih | operator _ _ _ _ ih | choice _ _ _ ih | arrow _ _ _ _ ih =>
    refine ⟨fun _ _ => by simp, fun f hf => .inl ((ih.2 f ?_).resolve_right (by simp))⟩
    obtain ⟨t, us, e⟩ := List.exists_cons_of_ne_nil (ih.1 (by simp) (by simp))
    subst e
    exact hf
  | colon h => exact ⟨fun _ _ => by simp, fun f hf => .inl (by cases hf; exact h.elim id_starts value_starts)⟩
  | @between lo hi m ts h _ _ hm =>
    refine ⟨fun _ _ => by simp, fun f hf => .inl ?_⟩
    cases lo with
    | nil => cases hf; rw [hm]; decide
    | cons t lo => cases hf; rw [(h _ (by simp)).1.1]; decide
  | noMore => exact ⟨fun h => absurd rfl h, nofun⟩
  | more _ _ _ _ ih =>
    refine ⟨fun h => absurd rfl h, fun f hf => .inl ((ih.2 f ?_).resolve_right (by simp))⟩
    obtain ⟨t, us, e⟩ := List.exists_cons_of_ne_nil (ih.1 (by simp) (by simp))
    subst e
    exact hf
  | lastGroup _ ih => exact ⟨fun _ h => absurd rfl h, fun f hf => .inl ((ih.2 f hf).resolve_right (by simp))⟩
  | @groupChoice ts us op _ ho _ _ ih =>
    refine ⟨fun _ h => absurd rfl h, fun f hf => ?_⟩
    cases ts with
    | nil => cases hf; exact .inr ⟨rfl, ho⟩
    | cons t ts => exact .inl ((ih.2 f hf).resolve_right (by simp))

theorem rfcStarters_ok : ∀ t ∈ rfcStarters, t ≠ .COMMENT ∧ t ≠ .COMMA ∧ (t ≠ .ZERO_OR_MORE → t ≠ .ONE_OR_MORE → t ∉ infixes) := by decide

/-- There are no comments in sentences of the RFC. -/
theorem rfc_comments {strict s ts} (h : Rfc strict s ts) : ∀ t ∈ ts, t.tok ≠ .COMMENT := by
  have id : ∀ {t}, IsId t → t.tok ≠ .COMMENT := fun h => (rfcStarters_ok _ (id_starts h)).1
  have val : ∀ {t}, IsValue t → t.tok ≠ .COMMENT := fun h => (rfcStarters_ok _ (value_starts h)).1
  have num : ∀ {t}, IsTagNumber t → t.tok ≠ .COMMENT := fun h => by rcases h.1 with h | h <;> rw [h] <;> decide
  induction h with
  | value h => simpa using val h
  | name h => simpa using id h
  | paren h1 h2 _ ih | map h1 h2 _ ih | array h1 h2 _ ih | inline h1 h2 _ ih =>
    intro t ht
    simp only [List.mem_append, List.mem_cons, List.not_mem_nil, or_false] at ht
    rcases ht with (rfl | ht) | rfl
    · rw [h1]; decide
    · exact ih t ht
    · rw [h2]; decide
  | unwrap h1 h2 | enumName h1 h2 =>
    intro t ht
    simp only [List.mem_cons, List.not_mem_nil, or_false] at ht
    rcases ht with rfl | rfl
    · rw [h1]; decide
    · exact id h2
  | enumGroup h1 h2 h3 _ ih =>
    intro t ht
    simp only [List.mem_append, List.mem_cons, List.not_mem_nil, or_false] at ht
    rcases ht with (rfl | rfl | ht) | rfl
    · rw [h1]; decide
    · rw [h2]; decide
    · exact ih t ht
    · rw [h3]; decide
  | tagged h1 h2 _ h3 h4 _ _ ih =>
    intro t ht
    simp only [List.mem_append, List.mem_cons, List.not_mem_nil, or_false] at ht
    rcases ht with (rfl | rfl | rfl | ht) | rfl
    · rw [h1]; decide
    · exact num h2
    · rw [h3]; decide
    · exact ih t ht
    · rw [h4]; decide
  | tag h1 h2 =>
    intro t ht
    simp only [List.mem_cons, List.not_mem_nil, or_false] at ht
    rcases ht with rfl | rfl
    · rw [h1]; decide
    · exact num h2
  | hash h => simp [h]
  | generic h1 h2 h3 _ _ ih =>
    intro t ht
    simp only [List.mem_append, List.mem_cons, List.not_mem_nil, or_false] at ht
    rcases ht with (rfl | rfl | ht) | rfl
    · exact id h1
    · rw [h2]; decide
    · exact ih t ht
    · rw [h3]; decide
  | lastArg _ ih | plain _ ih | last _ ih | keyless _ ih | once _ ih | lastGroup _ ih => exact ih
  | moreArgs _ h _ ih1 ih2 | choice _ h _ ih1 ih2 | groupChoice _ h _ _ ih1 ih2 | arrow _ h _ _ ih1 ih2 =>
    intro t ht
    simp only [List.mem_append, List.mem_cons] at ht
    rcases ht with ht | rfl | ht
    · exact ih1 t ht
    · rw [h]; decide
    · exact ih2 t ht
  | operator _ h _ _ ih1 ih2 =>
    intro t ht
    simp only [List.mem_append, List.mem_cons] at ht
    rcases ht with ht | rfl | ht
    · exact ih1 t ht
    · intro e; rw [e] at h; revert h; decide
    · exact ih2 t ht
  | colon h1 h2 _ _ ih =>
    intro t ht
    simp only [List.mem_cons] at ht
    rcases ht with rfl | rfl | ht
    · exact h1.elim id val
    · rw [h2]; decide
    · exact ih t ht
  | optional h _ ih =>
    intro t ht
    rcases List.mem_cons.mp ht with rfl | ht
    · rw [h]; decide
    · exact ih t ht
  | oneOrMore h _ _ ih =>
    intro t ht
    rcases List.mem_cons.mp ht with rfl | ht
    · rw [h]; decide
    · exact ih t ht
  | between h _ _ hm _ _ ih =>
    intro t ht
    simp only [List.mem_append, List.mem_cons] at ht
    rcases ht with ht | rfl | ht | ht
    · rw [(h t (by simp [ht])).1.1]; decide
    · rw [hm]; decide
    · rw [(h t (by simp [ht])).1.1]; decide
    · exact ih t ht
  | noMore => nofun
  | more _ hs _ _ ih1 ih2 =>
    intro t ht
    simp only [List.mem_append] at ht
    rcases ht with ht | ht | ht
    · exact ih1 t ht
    · rcases hs with rfl | ⟨c, rfl, hc⟩
      · cases ht
      · obtain rfl := List.mem_singleton.mp ht
        rw [hc]; decide
    · exact ih2 t ht

/-! ### What follows -/

/-- An operand in front of `tail` and `nx` is an entry together with `tail`. -/
def Cont (tail : List Token) (nx : Token) : Prop :=
  ∀ a ts cs, Lang (.operand a) ts (firstTok tail nx) cs → ∃ y cs', Lang (.entry y) (ts ++ tail) nx cs'

theorem cont_stop {nx : Token} (h1 : nx.tok ∉ infixes) (h2 : nx.tok ≠ .COMMA) : Cont [] nx :=
  fun _ _ cs h => ⟨_, cs, by rw [List.append_nil]; exact .only h h1 h2⟩

theorem cont_comma {c nx : Token} (h : c.tok = .COMMA) : Cont [c] nx :=
  fun _ _ cs hl => ⟨_, cs, .comma h hl⟩

theorem cont_op {op f us nx b cs} (hb : Lang (.entry b) (f :: us) nx cs)
    (hj : ∀ a, ∃ y es, Joined op f a b y es) (ho : op.tok ≠ .COLON ∧ op.tok ≠ .ARROW_MAP) : Cont (op :: f :: us) nx := by
  intro a ts cs h
  obtain ⟨y, es, hj⟩ := hj a
  exact ⟨y, _, .joined h hb hj fun h => h.elim (absurd · ho.1) (absurd · ho.2)⟩

/-- The token does not continue a tag that ends with `l`. -/
def TagSafe (l nx : Token) : Prop :=
  ¬ (nx.tok = .LPAREN ∧ l.tok ∈ [Tok.HASH, .INT, .FLOAT] ∨ l.tok = .HASH ∧ nx.tok ∈ [Tok.INT, .FLOAT])

theorem tagSafe_of {l nx : Token} (h : nx.tok ∉ [Tok.LPAREN, .INT, .FLOAT]) : TagSafe l nx := by
  rintro (⟨h1, _⟩ | ⟨_, h1⟩)
  · simp [h1] at h
  · simp only [List.mem_cons, List.not_mem_nil, or_false] at h h1
    exact h (.inr h1)

/-- The tokens are an entry, or the beginning of one. -/
def EForm (ts : List Token) : Prop :=
  ∀ tail nx, Cont tail nx → nx.tok ≠ .COMMENT → (∀ l, ts.getLast? = some l → TagSafe l (firstTok tail nx)) →
    ∃ y cs, Lang (.entry y) (ts ++ tail) nx cs

theorem eform_operand {ts} (h : ∀ nx, (∀ l, ts.getLast? = some l → TagSafe l nx) → ∃ x cs, Lang (.operand x) ts nx cs) : EForm ts := by
  intro tail nx hc _ hl
  obtain ⟨x, cs, hx⟩ := h _ hl
  exact hc _ _ _ hx

theorem known_operand {t : Token} (h : KnownTok t) (nx) : ∃ x cs, Lang (.operand x) [t] nx cs := by
  rcases h with h | ⟨x, h⟩
  · exact ⟨_, _, .name h⟩
  · exact ⟨x, _, .single h⟩

theorem known_int {t : Token} (h : KnownTok t) (hi : IsInt t) : ∃ v, parseInt t.lit = .ok v ∧ Single t (.intLit t.pos t.tok v) := by
  rcases h with h | ⟨x, h⟩
  · rw [hi.1] at h; cases h
  · cases h with
    | number h1 h2 h3 => exact ⟨_, h3, .number h1 h2 h3⟩
    | int _ h => exact absurd h hi.2
    | text h => rcases h with h | h <;> rw [hi.1] at h <;> cases h
    | null h => rcases h with h | h <;> rw [hi.1] at h <;> cases h
    | float h =>
      rw [hi.1] at h
      simp at h
    | _ h => rw [hi.1] at h; cases h

theorem known_fraction {t : Token} (h : KnownTok t) (hi : IsFraction t) :
    ∃ v, Single t (.floatLit ⟨t.pos, t.pos.to ((t.lit.length : Int) - 1)⟩ t.tok v) := by
  rcases h with h | ⟨x, h⟩
  · rw [hi.1] at h; cases h
  · cases h with
    | fraction h1 h2 h3 => exact ⟨_, .fraction h1 h2 h3⟩
    | text h => rcases h with h | h <;> rw [hi.1] at h <;> cases h
    | null h => rcases h with h | h <;> rw [hi.1] at h <;> cases h
    | float h =>
      rw [hi.1] at h
      exact absurd (h.resolve_left (by simp)).2 hi.2
    | _ h => rw [hi.1] at h; cases h

theorem uint_nonneg {t : Token} (h : IsUint t) {v} (hv : parseInt t.lit = .ok v) : 0 ≤ v := by
  unfold parseInt at hv
  split at hv
  · cases hv
  · rename_i c rest e
    have hc := h.2 c (by simp [e])
    have : c ≠ 45 := by rintro rfl; exact absurd hc.1 (by decide)
    simp only [this, decide_false, Bool.not_false, Bool.true_and, Bool.false_and, Bool.false_eq_true, if_false] at hv
    split at hv
    · cases hv
    · cases hv
    · split at hv
      · cases hv
      · cases hv
        exact Int.natCast_nonneg _

/-- An entry that is a number is a token. -/
theorem lang_number {part ts nx cs} (h : Lang part ts nx cs) : ∀ x, part = .operand x ∨ part = .entry x →
    (x.kind = .intLit → ∀ f, ts.head? = some f → f.tok = .INT ∨ f.tok = .COMMENT) ∧
    (x.kind = .floatLit → ∀ f, ts.head? = some f → f.tok = .FLOAT ∨ f.tok = .COMMENT) := by
  induction h with
  | name => rintro x (h | h) <;> cases h; exact ⟨nofun, nofun⟩
  | single h =>
    rintro x (e | e) <;> cases e
    cases h with
    | number h => exact ⟨fun _ f hf => by cases hf; exact .inl h, nofun⟩
    | fraction h => exact ⟨nofun, fun _ f hf => by cases hf; exact .inl h⟩
    | _ => exact ⟨nofun, nofun⟩
  | group | array | map | tag | tagged | noRange | noted => rintro x (h | h) <;> cases h; exact ⟨nofun, nofun⟩
  | only _ _ _ ih => rintro x (h | h) <;> cases h; exact ih _ (.inl rfl)
  | comma _ h ih =>
    rintro x (e | e) <;> cases e
    obtain ⟨t, us, rfl, -⟩ := lang_first h _ rfl
    exact ih _ (.inl rfl)
  | marked h => rintro x (e | e) <;> cases e; cases h <;> exact ⟨nofun, nofun⟩
  | unclosed => rintro x (e | e) <;> cases e; exact ⟨nofun, nofun⟩
  | joined _ _ h => rintro x (e | e) <;> cases e; cases h <;> exact ⟨nofun, nofun⟩
  | skip h _ ih =>
    intro x _
    exact ⟨fun _ f hf => by cases hf; exact .inr h, fun _ f hf => by cases hf; exact .inr h⟩
  | nil | cons => rintro x (e | e) <;> cases e

theorem last_tail {ts us : List Token} {op l : Token} (h : us.getLast? = some l) : (ts ++ op :: us).getLast? = some l := by
  obtain ⟨vs, rfl⟩ := List.getLast?_eq_some_iff.mp h
  rw [← List.cons_append, ← List.append_assoc, List.getLast?_concat]

/-! ### The sentences -/

/-- Tokens that close brackets. -/
def Closer (t : Token) : Prop := t.tok = .RPAREN ∨ t.tok = .RBRACK ∨ t.tok = .RBRACE

theorem closer_ok {t : Token} (h : Closer t) : t.tok ∉ infixes ∧ t.tok ≠ .COMMA ∧ t.tok ≠ .COMMENT ∧ t.tok ∉ [Tok.LPAREN, .INT, .FLOAT] := by
  rcases h with h | h | h <;> rw [h] <;> decide

theorem member_key {k c f : Token} {us b nx cs} (hk : IsKey k) (hn : KnownTok k) (hc : c.tok = .COLON ∨ c.tok = .ARROW_MAP)
    (hb : Lang (.entry b) (f :: us) nx cs) (hx : nx.tok ≠ .COMMENT) :
    ∃ y cs, Lang (.entry y) ([k] ++ c :: (f :: us)) nx cs := by
  have ht : c.tok = .COLON ∨ c.tok = .ARROW_MAP → ¬ Trails (f :: us) nx := fun _ h => hx h.1
  rcases hk with hk | hk
  · exact ⟨_, _, .joined (.name hk) hb (.field hc) ht⟩
  · obtain ⟨v, -, hv⟩ := known_int hn hk
    exact ⟨_, _, .joined (.single hv) hb (.keyed hc) ht⟩

/-- What the parser makes of the nonterminals. -/
def Meaning : Sym → List Token → Prop
  | .args, _ => True
  | .group, ts => ∀ nx, Closer nx → ∃ xs cs, Lang (.entries xs) ts nx cs
  | .grpchoice, ts => (∀ nx, Closer nx → ∃ xs cs, Lang (.entries xs) ts nx cs) ∧
      ∀ op x vs xs ws nx cs ds, op.tok = .GROUP_CHOICE → (∃ l, ts.getLast? = some l ∧ l.tok ≠ .COMMA) →
        (firstTok ws nx).tok ≠ .COMMENT → Lang (.entry x) vs (firstTok ws nx) cs → Lang (.entries xs) ws nx ds →
        ∃ ys es, Lang (.entries ys) (ts ++ op :: (vs ++ ws)) nx es
  | _, ts => EForm ts

theorem rfc_meaning {s ts} (h : Rfc true s ts) : Meaning s ts := by
  induction h with
  | value _ h | name _ h => exact eform_operand fun nx _ => known_operand (h rfl) nx
  | paren h1 h2 h ih =>
    refine eform_operand fun nx _ => ?_
    have hc := closer_ok (.inl h2)
    obtain ⟨y, cs, hy⟩ := ih [] _ (cont_stop hc.1 hc.2.1) hc.2.2.1 fun l _ => tagSafe_of hc.2.2.2
    rw [List.append_nil] at hy
    exact ⟨_, _, .group h1 h2 (by simpa using Lang.cons (us := []) hy .nil)⟩
  | map h1 h2 _ ih =>
    refine eform_operand fun nx _ => ?_
    obtain ⟨xs, cs, hx⟩ := ih _ (.inr (.inr h2))
    exact ⟨_, _, .map h1 h2 hx⟩
  | array h1 h2 _ ih =>
    refine eform_operand fun nx _ => ?_
    obtain ⟨xs, cs, hx⟩ := ih _ (.inr (.inl h2))
    exact ⟨_, _, .array h1 h2 hx⟩
  | inline h1 h2 _ ih =>
    refine eform_operand fun nx _ => ?_
    obtain ⟨xs, cs, hx⟩ := ih _ (.inl h2)
    exact ⟨_, _, .group h1 h2 hx⟩
  | unwrap h1 _ h2 =>
    intro tail nx hc _ _
    obtain ⟨x, cs, hx⟩ := known_operand (h2 rfl) (firstTok tail nx)
    obtain ⟨y, cs, hy⟩ := hc _ _ _ hx
    exact ⟨_, _, .marked (.unwrap h1) hy⟩
  | enumName h1 _ h2 =>
    intro tail nx hc _ _
    obtain ⟨x, cs, hx⟩ := known_operand (h2 rfl) (firstTok tail nx)
    obtain ⟨y, cs, hy⟩ := hc _ _ _ hx
    exact ⟨_, _, .marked (.enumeration h1) hy⟩
  | enumGroup h1 h2 h3 _ ih =>
    intro tail nx hc _ _
    obtain ⟨xs, cs, hx⟩ := ih _ (.inl h3)
    obtain ⟨y, cs, hy⟩ := hc _ _ _ (.group h2 h3 hx)
    exact ⟨_, _, .marked (.enumeration h1) hy⟩
  | tagged h1 _ _ h2 h3 _ h4 ih =>
    refine eform_operand fun nx _ => ?_
    obtain ⟨a, b, hn⟩ := h4 rfl
    have hc := closer_ok (.inl h3)
    obtain ⟨y, cs, hy⟩ := ih [] _ (cont_stop hc.1 hc.2.1) hc.2.2.1 fun l _ => tagSafe_of hc.2.2.2
    rw [List.append_nil] at hy
    exact ⟨_, _, .tagged h1 hn h2 h3 hy⟩
  | tag h1 h2 h3 =>
    refine eform_operand fun nx hl => ?_
    obtain ⟨a, b, hn⟩ := h3 rfl
    refine ⟨_, _, .tag h1 hn (fun e => hl _ rfl (.inl ⟨e, ?_⟩)) nofun⟩
    rcases h2.1 with h | h <;> simp [h]
  | hash h =>
    refine eform_operand fun nx hl => ⟨_, _, .tag h .none (fun e => hl _ rfl (.inl ⟨e, by simp [h]⟩)) fun _ =>
      ⟨fun e => hl _ rfl (.inr ⟨h, by simp [e]⟩), fun e => hl _ rfl (.inr ⟨h, by simp [e]⟩)⟩⟩
  | generic _ _ _ _ h => cases h
  | lastArg | moreArgs => trivial
  | plain _ ih | last _ ih | keyless _ ih | once _ ih => exact ih
  | @operator ts us op hts ho hus hf ih1 ih2 =>
    have hop : op.tok ∉ [Tok.LPAREN, .INT, .FLOAT] ∧ op.tok ≠ .COLON ∧ op.tok ≠ .ARROW_MAP := by
      revert ho
      generalize op.tok = k
      cases k <;> decide
    intro tail nx hc hn hl
    obtain ⟨u, us', e⟩ := List.exists_cons_of_ne_nil ((rfc_head hus).1 (by simp) (by simp))
    have hu : u.tok ≠ .COMMENT := rfc_comments hus u (by simp [e])
    obtain ⟨b, cs, hb⟩ := ih2 tail nx hc hn fun l h => hl l (last_tail h)
    subst e
    have joins : ∀ {a}, Lang (.operand a) ts op [] ∨ (∃ cs, Lang (.operand a) ts op cs) → ∀ {y es}, Joined op u a b y es →
        ∃ y cs, Lang (.entry y) (ts ++ op :: (u :: us') ++ tail) nx cs := by
      intro a ha y es hj
      obtain ⟨cs', ha⟩ : ∃ cs, Lang (.operand a) ts op cs := by
        rcases ha with h | h
        · exact ⟨[], h⟩
        · exact h
      rw [List.append_assoc]
      exact ⟨y, _, .joined ha hb hj fun h => h.elim (absurd · hop.2.1) (absurd · hop.2.2)⟩
    have num := lang_number hb b (.inr rfl)
    cases hf rfl with
    | @size t _ h1 h2 =>
      simp only [sized, List.mem_cons, List.not_mem_nil, or_false] at h2
      rcases h2 with h2 | h2 | h2 | h2
      · exact joins (.inl (.single (.text (.inl h2)))) (.size h1 (by simp [Node.kind]))
      · exact joins (.inl (.single (.text (.inr h2)))) (.size h1 (by simp [Node.kind]))
      · exact joins (.inl (.single (.bstr h2))) (.size h1 (by simp [Node.kind]))
      · exact joins (.inl (.single (.uint h2))) (.size h1 (by simp [Node.kind]))
    | regexp h1 h2 h3 => exact joins (.inl (.single (.text h2))) (.regexp h1 h3)
    | bits h =>
      rw [List.append_assoc]
      refine ih1 (op :: (u :: us') ++ tail) nx (cont_op hb (fun a => ⟨_, _, .bits h⟩) hop.2) hn fun l _ => tagSafe_of hop.1
    | compare h1 h2 =>
      rcases h2 with h2 | h2 | h2
      · simp only [List.mem_cons, List.not_mem_nil, or_false] at h2
        rcases h2 with h2 | h2 | h2 | h2
        · exact joins (.inl (.single (.uint h2))) (.compare h1 (by simp [Node.kind]))
        · exact joins (.inl (.single (.float (.inl (by simp [h2]))))) (.compare h1 (by simp [Node.kind]))
        · exact joins (.inl (.single (.float (.inl (by simp [h2]))))) (.compare h1 (by simp [Node.kind]))
        · exact joins (.inl (.single (.float (.inl (by simp [h2]))))) (.compare h1 (by simp [Node.kind]))
      · exact joins (.inl (.single (.int h2.1 h2.2))) (.compare h1 (by simp [Node.kind]))
      · exact joins (.inl (.single (.float (.inr h2)))) (.compare h1 (by simp [Node.kind]))
    | fromName h1 h2 => exact joins (.inr ⟨_, .name h2⟩) (.range h1 rfl)
    | fromInt h1 h2 h3 h4 =>
      obtain ⟨v, -, hv⟩ := known_int h3 h2
      have : ∀ p t, ∃ hi, keptEnd (.intLit p t v) b = some hi := by
        intro p t
        cases b <;> simp only [keptEnd, Option.some.injEq, exists_eq']
        exact absurd (num.2 rfl _ rfl) (by simp [h4, hu])
      exact (this _ _).elim fun hi hh => joins (.inl (.single hv)) (.range h1 hh)
    | fromFraction h1 h2 h3 h4 =>
      obtain ⟨v, hv⟩ := known_fraction h3 h2
      have : ∀ p t, ∃ hi, keptEnd (.floatLit p t v) b = some hi := by
        intro p t
        cases b <;> simp only [keptEnd, Option.some.injEq, exists_eq']
        exact absurd (num.1 rfl _ rfl) (by simp [h4, hu])
      exact (this _ _).elim fun hi hh => joins (.inl (.single hv)) (.range h1 hh)
  | @choice ts us op hts ho hus ih1 ih2 =>
    intro tail nx hc hn hl
    obtain ⟨u, us', e⟩ := List.exists_cons_of_ne_nil ((rfc_head hus).1 (by simp) (by simp))
    obtain ⟨b, cs, hb⟩ := ih2 tail nx hc hn fun l h => hl l (last_tail h)
    subst e
    rw [List.append_assoc]
    exact ih1 (op :: (u :: us') ++ tail) nx (cont_op hb (fun a => ⟨_, _, .choice (.inl ho)⟩) (by simp [ho])) hn
      fun l _ => tagSafe_of (by simp [firstTok, ho])
  | @colon k c ts hk hc hts hs ih =>
    intro tail nx ht hn hl
    obtain ⟨u, us', e⟩ := List.exists_cons_of_ne_nil ((rfc_head hts).1 (by simp) (by simp))
    obtain ⟨b, cs, hb⟩ := ih tail nx ht hn fun l h => hl l (last_tail (ts := [k]) h)
    subst e
    exact member_key (hs rfl).1 (hs rfl).2 (.inl hc) hb hn
  | @arrow ks a ts hks ha hts hs _ ih =>
    intro tail nx ht hn hl
    obtain ⟨u, us', e⟩ := List.exists_cons_of_ne_nil ((rfc_head hts).1 (by simp) (by simp))
    obtain ⟨b, cs, hb⟩ := ih tail nx ht hn fun l h => hl l (last_tail h)
    subst e
    obtain ⟨k, rfl, h1, h2⟩ := hs rfl
    exact member_key h1 h2 (.inr ha) hb hn
  | @optional m ts hm hts ih =>
    intro tail nx ht hn hl
    obtain ⟨u, us', e⟩ := List.exists_cons_of_ne_nil ((rfc_head hts).1 (by simp) (by simp))
    obtain ⟨b, cs, hb⟩ := ih tail nx ht hn fun l h => hl l (last_tail (ts := []) h)
    subst e
    exact ⟨_, _, .marked (.optional hm) hb⟩
  | @oneOrMore m ts hm hts hs ih =>
    intro tail nx ht hn hl
    obtain ⟨u, us', e⟩ := List.exists_cons_of_ne_nil ((rfc_head hts).1 (by simp) (by simp))
    obtain ⟨b, cs, hb⟩ := ih tail nx ht hn fun l h => hl l (last_tail (ts := []) h)
    subst e
    exact ⟨_, _, .marked (.some hm (.none (hs rfl _ rfl))) hb⟩
  | @between lo hi m ts hu hlo _ hm hts hs ih =>
    intro tail nx ht hn hl
    obtain ⟨rfl, h1, h2⟩ := hs rfl
    obtain ⟨u, us', e⟩ := List.exists_cons_of_ne_nil ((rfc_head hts).1 (by simp) (by simp))
    obtain ⟨b, cs, hb⟩ := ih tail nx ht hn fun l h => hl l (last_tail h)
    subst e
    match lo with
    | [] => exact ⟨_, _, .marked (.any hm (.none (h2 _ rfl))) hb⟩
    | [t] =>
      obtain ⟨v, hv, hv'⟩ := known_int (h1 t (by simp)) (hu t (by simp)).1
      exact ⟨_, _, .joined (ts := [t]) (.single hv') hb (.occ (.inl hm) (uint_nonneg (hu t (by simp)) hv) (.none (h2 _ rfl)))
        fun h => by simp [hm] at h⟩
    | _ :: _ :: _ => simp at hlo
  | noMore =>
    refine ⟨fun nx _ => ⟨_, _, .nil⟩, ?_⟩
    rintro op x vs xs ws nx cs ds - ⟨l, h, -⟩
    cases h
  | @more ts sep us hts hsep hus hs ih1 ih2 =>
    -- the entry, in front of what follows
    have first : ∀ rest nx, (firstTok rest nx).tok ≠ .COMMENT →
        (sep = [] → (firstTok rest nx).tok ∉ infixes ∧ (firstTok rest nx).tok ≠ .COMMA ∧
          ∀ l, ts.getLast? = some l → TagSafe l (firstTok rest nx)) →
        ∃ y cs, Lang (.entry y) (ts ++ sep) (firstTok rest nx) cs := by
      intro rest nx hn hr
      rcases hsep with rfl | ⟨c, rfl, hc⟩
      · obtain ⟨h1, h2, h3⟩ := hr rfl
        exact ih1 [] _ (cont_stop h1 h2) hn h3
      · exact ih1 [c] _ (cont_comma hc) hn fun l _ => tagSafe_of (by simp [firstTok, hc])
    -- and what follows is not empty
    have next : ∀ u us', us = u :: us' → u.tok ≠ .COMMENT ∧ (sep = [] → u.tok ∉ infixes ∧ u.tok ≠ .COMMA ∧
        ∀ l, ts.getLast? = some l → TagSafe l u) := by
      rintro u us' rfl
      have hu := rfcStarters_ok _ (((rfc_head hus).2 u rfl).resolve_right (by simp))
      obtain ⟨l, hl⟩ := Option.isSome_iff_exists.mp
        (List.getLast?_isSome.mpr ((rfc_head hts).1 (by simp) (by simp)))
      refine ⟨hu.1, fun e => ⟨hu.2.2 ?_ ?_, hu.2.1, fun l hl => ?_⟩⟩
      · exact fun h => hs rfl e l u hl rfl (.inl h)
      · exact fun h => hs rfl e l u hl rfl (.inr (.inl h))
      · exact fun h => hs rfl e l u hl rfl (.inr (.inr h))
    refine ⟨fun nx hx => ?_, fun op x vs xs ws nx cs ds ho hl hn hx hxs => ?_⟩
    · obtain ⟨xs, cs, hxs⟩ := ih2.1 nx hx
      have hc := closer_ok hx
      have : ∃ y cs, Lang (.entry y) (ts ++ sep) (firstTok us nx) cs := by
        cases us with
        | nil => exact first [] nx hc.2.2.1 fun _ => ⟨hc.1, hc.2.1, fun l _ => tagSafe_of hc.2.2.2⟩
        | cons u us' =>
          have := next u us' rfl
          exact first (u :: us') nx this.1 this.2
      obtain ⟨y, cs, hy⟩ := this
      rw [← List.append_assoc]
      exact ⟨_, _, .cons hy hxs⟩
    · cases us with
      | nil =>
        have : sep = [] := by
          rcases hsep with h | ⟨c, rfl, hc⟩
          · exact h
          · obtain ⟨l, h1, h2⟩ := hl
            rw [List.append_nil, List.getLast?_concat] at h1
            cases h1
            exact absurd hc h2
        subst this
        obtain ⟨f, us', rfl, -⟩ := lang_opens hx
        obtain ⟨y, cs, hy⟩ := ih1 (op :: f :: us') _ (cont_op hx (fun a => ⟨_, _, .choice (.inr ho)⟩) (by simp [ho])) hn
          fun l _ => tagSafe_of (by simp [firstTok, ho])
        have := Lang.cons hy hxs
        rw [show ts ++ ([] ++ []) ++ op :: (f :: us' ++ ws) = ts ++ op :: f :: us' ++ ws by simp]
        exact ⟨_, _, this⟩
      | cons u us' =>
        have := next u us' rfl
        obtain ⟨ys, es, hys⟩ := ih2.2 op x vs xs ws nx cs ds ho (by
          obtain ⟨l, h1, h2⟩ := hl
          refine ⟨l, ?_, h2⟩
          rw [← List.append_assoc, List.getLast?_append] at h1
          cases h : (u :: us').getLast? with
          | none => simp at h
          | some l' => rw [h] at h1; exact h1) hn hx hxs
        obtain ⟨y, cs, hy⟩ := first (u :: us' ++ op :: (vs ++ ws)) nx this.1 this.2
        have := Lang.cons hy hys
        rw [show ts ++ (sep ++ u :: us') ++ op :: (vs ++ ws) = ts ++ sep ++ (u :: us' ++ op :: (vs ++ ws)) by simp]
        exact ⟨_, _, this⟩
  | lastGroup _ ih => exact ih.1
  | @groupChoice ts us op hts ho hus hs ih1 ih2 =>
    intro nx hx
    obtain ⟨hl, f, hf, -⟩ := hs rfl
    obtain ⟨xs, cs, hxs⟩ := ih2 nx hx
    have hu := rfc_comments hus
    cases hxs with
    | nil => cases hf
    | cons h1 h2 =>
      refine ih1.2 op _ _ _ _ nx _ _ ho hl ?_ h1 h2
      rename_i ws _ _ _ _
      cases ws with
      | nil => exact (closer_ok hx).2.2.1
      | cons w ws => exact hu w (by simp)

end Cddlc
