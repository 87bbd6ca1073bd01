import Verif.Lemmas.Codegen
import Verif.Lemmas.Walk
import Verif.Lemmas.Check
import Verif.Props.Parser

/-! Consequences of the relations of Spec/Codegen. -/

namespace Cddlc
open Spec

section
variable [Unicode] {lib : GoLib}

omit [Unicode] in
theorem leaf_subs {n x : Node} (h : n.kind ∈ [NodeKind.boolType, .tstr, .bytes, .null, .intType, .uintType])
    (hx : x ∈ subs n) : x = n := by
  cases n
  case typedNil k => simpa [subs] using hx
  all_goals first
    | (simp [Node.kind] at h; done)
    | (simpa [subs] using hx)

mutual
theorem denotes_kinds {n : Node} {e : GoExpr} : Denotes lib n e → ∀ x ∈ subs n, hasGo x.kind
  | .bool h, x, hx | .tstr h, x, hx | .bytes h, x, hx | .null h, x, hx | .int h, x, hx
  | .uint h, x, hx => by
    rw [leaf_subs (by rw [h]; decide) hx, h]; simp [hasGo]
  | .intLit, x, hx | .true, x, hx | .false, x, hx | .textLit, x, hx | .floatLit, x, hx
  | .ident _, x, hx => by
    simp only [subs, List.mem_singleton] at hx
    subst hx; simp [hasGo, Node.kind]
  | .nm h, x, hx => by
    rcases List.mem_cons.1 hx with rfl | hx
    · simp [hasGo, Node.kind]
    · exact denotes_kinds h x hx
  | .size _ h, x, hx => by
    simp only [subs, List.mem_cons, List.mem_append, List.not_mem_nil, or_false] at hx
    rcases hx with rfl | hx | rfl
    · simp [hasGo, Node.kind]
    · exact denotes_kinds h x hx
    · simp [hasGo, Node.kind]
  | .group h, x, hx | .array h, x, hx => by
    rcases List.mem_cons.1 hx with rfl | hx
    · simp [hasGo, Node.kind]
    · exact denotesFields_kinds h x hx
theorem denotesFields_kinds {es : List Node} {fs : List GoField} :
    DenotesFields lib es fs → ∀ x ∈ subsList es, hasGo x.kind
  | .nil, x, hx => by cases hx
  | .cons h hs, x, hx => by
    rcases List.mem_append.1 hx with hx | hx
    · exact denotesField_kinds h x hx
    · exact denotesFields_kinds hs x hx
theorem denotesField_kinds {n : Node} {f : GoField} : DenotesField lib n f → ∀ x ∈ subs n, hasGo x.kind
  | .entry _ h, x, hx => by
    rcases List.mem_cons.1 hx with rfl | hx
    · simp [hasGo, Node.kind]
    · exact denotes_kinds h x hx
  | .optional _ h, x, hx => by
    simp only [subs, List.mem_cons] at hx
    rcases hx with rfl | rfl | hx
    · simp [hasGo, Node.kind]
    · simp [hasGo, Node.kind]
    · exact denotes_kinds h x hx
  | .ident _, x, hx => by
    simp only [subs, List.mem_singleton] at hx
    subst hx; simp [hasGo, Node.kind]
  | .nm h, x, hx => by
    rcases List.mem_cons.1 hx with rfl | hx
    · simp [hasGo, Node.kind]
    · exact denotes_kinds h x hx
end

mutual
theorem denotes_uses {n : Node} {e : GoExpr} : Denotes lib n e → ∀ m ∈ uses e,
    m ∈ goTypes ∨ m ∈ goConsts ∨ ∃ i ∈ refs n, Named lib i m
  | .bool _, m, hm | .tstr _, m, hm | .bytes _, m, hm | .null _, m, hm | .int _, m, hm
  | .uint _, m, hm | .true, m, hm | .false, m, hm => by
    simp only [uses, List.mem_singleton] at hm
    subst hm
    first | exact Or.inl (by decide) | exact Or.inr (Or.inl (by decide))
  | .intLit, m, hm | .textLit, m, hm | .floatLit, m, hm => by cases hm
  | .ident h, m, hm => by
    simp only [uses, List.mem_singleton] at hm
    subst hm
    exact Or.inr (Or.inr ⟨_, by rw [mem_refs]; simp [subs], h⟩)
  | .nm h, m, hm => by
    refine (denotes_uses h m hm).imp_right (Or.imp_right fun ⟨i, hi, h⟩ => ⟨i, ?_, h⟩)
    rw [mem_refs] at *
    exact List.mem_cons_of_mem _ hi
  | .size _ h, m, hm => by
    refine (denotes_uses h m hm).imp_right (Or.imp_right fun ⟨i, hi, h⟩ => ⟨i, ?_, h⟩)
    rw [mem_refs] at *
    exact List.mem_cons_of_mem _ (List.mem_append_left _ hi)
  | .group h, m, hm => by
    refine (denotesFields_uses h m hm).imp_right (Or.imp_right fun ⟨i, hi, h⟩ => ⟨i, ?_, h⟩)
    rw [mem_refs]
    exact List.mem_cons_of_mem _ hi
  | .array h, m, hm => by
    refine (denotesFields_uses h m (by simpa [uses, usesFields] using hm)).imp_right
      (Or.imp_right fun ⟨i, hi, h⟩ => ⟨i, ?_, h⟩)
    rw [mem_refs]
    exact List.mem_cons_of_mem _ hi
theorem denotesFields_uses {es : List Node} {fs : List GoField} : DenotesFields lib es fs →
    ∀ m ∈ usesFields fs, m ∈ goTypes ∨ m ∈ goConsts ∨ ∃ i, Node.ident i ∈ subsList es ∧ Named lib i m
  | .nil, m, hm => by cases hm
  | .cons (f := .mk ns t tag) h hs, m, hm => by
    rcases List.mem_append.1 hm with hm | hm
    · refine (denotesField_uses h m hm).imp_right (Or.imp_right fun ⟨i, hi, h⟩ => ⟨i, ?_, h⟩)
      exact List.mem_append_left _ hi
    · refine (denotesFields_uses hs m hm).imp_right (Or.imp_right fun ⟨i, hi, h⟩ => ⟨i, ?_, h⟩)
      exact List.mem_append_right _ hi
theorem denotesField_uses {n : Node} {ns t tag} : DenotesField lib n (.mk ns t tag) →
    ∀ m ∈ uses t, m ∈ goTypes ∨ m ∈ goConsts ∨ ∃ i, Node.ident i ∈ subs n ∧ Named lib i m
  | .entry _ h, m, hm => by
    refine (denotes_uses h m hm).imp_right (Or.imp_right fun ⟨i, hi, h⟩ => ⟨i, ?_, h⟩)
    exact List.mem_cons_of_mem _ (mem_refs.1 hi)
  | .optional _ h, m, hm => by
    refine (denotes_uses h m hm).imp_right (Or.imp_right fun ⟨i, hi, h⟩ => ⟨i, ?_, h⟩)
    exact List.mem_cons_of_mem _ (List.mem_cons_of_mem _ (mem_refs.1 hi))
  | .ident h, m, hm => by
    simp only [uses, List.mem_singleton] at hm
    subst hm
    exact Or.inr (Or.inr ⟨_, by simp [subs], h⟩)
  | .nm h, m, hm => by
    refine (denotes_uses h m hm).imp_right (Or.imp_right fun ⟨i, hi, h⟩ => ⟨i, ?_, h⟩)
    exact List.mem_cons_of_mem _ (mem_refs.1 hi)
end

mutual
theorem denotes_isType {n : Node} {e : GoExpr} :
    Denotes lib n e → (∀ i ∈ refs n, ∀ m, Named lib i m → m ∉ goConsts) → (typeLike n = true ↔ IsType e)
  | .bool h, _ | .tstr h, _ | .bytes h, _ | .int h, _ | .uint h, _ => by
    refine ⟨fun _ => ?_, fun _ => ?_⟩
    · first | exact .ident (by decide) | exact .array (.ident (by decide))
    · cases n
      case typedNil k => cases h; rfl
      all_goals first | (cases h; done) | rfl
  | .null h, _ => by
    refine ⟨fun ht => ?_, fun ht => by cases ht with | ident h => exact absurd (by decide) h⟩
    cases n
    case typedNil k => cases h; cases ht
    all_goals first | (cases h; done) | (cases ht; done)
  | .true, _ | .false, _ => by
    refine ⟨nofun, fun ht => by cases ht with | ident h => exact absurd (by decide) h⟩
  | .intLit, _ | .textLit, _ | .floatLit, _ => ⟨nofun, nofun⟩
  | .ident h, hr => ⟨fun _ => .ident (hr _ (by rw [mem_refs]; simp [subs]) _ h), fun _ => rfl⟩
  | .nm h, hr => by
    have := denotes_isType h fun i hi => hr i (by
      rw [mem_refs] at *; exact List.mem_cons_of_mem _ hi)
    exact ⟨fun ht => .array (this.1 ht), fun ht => by cases ht with | array ht => exact this.2 ht⟩
  | .size _ h, hr => by
    have := denotes_isType h fun i hi => hr i (by
      rw [mem_refs] at *; exact List.mem_cons_of_mem _ (List.mem_append_left _ hi))
    exact ⟨this.1, this.2⟩
  | .group h, hr => by
    have := denotesFields_areFields h fun i hi => hr i (by
      rw [mem_refs]; exact List.mem_cons_of_mem _ hi)
    exact ⟨fun ht => .struct (this.1 ht), fun ht => by cases ht with | struct ht => exact this.2 ht⟩
  | .array h, hr => by
    have := denotesFields_areFields h fun i hi => hr i (by
      rw [mem_refs]; exact List.mem_cons_of_mem _ hi)
    refine ⟨fun ht => .struct (.named (.struct .nil) (this.1 ht)), fun ht => ?_⟩
    cases ht with
    | struct ht => cases ht with
      | named _ ht => exact this.2 ht
theorem denotesFields_areFields {es : List Node} {fs : List GoField} : DenotesFields lib es fs →
    (∀ i, Node.ident i ∈ subsList es → ∀ m, Named lib i m → m ∉ goConsts) →
    (typesLike es = true ↔ AreFields fs)
  | .nil, _ => ⟨fun _ => .nil, fun _ => rfl⟩
  | .cons h hs, hr => by
    have h1 := denotesFields_areFields hs fun i hi => hr i (List.mem_append_right _ hi)
    have h2 := denotesField_areFields h (fun i hi => hr i (List.mem_append_left _ hi)) h1
    exact h2
theorem denotesField_areFields {n : Node} {f : GoField} {es : List Node} {fs : List GoField} :
    DenotesField lib n f → (∀ i, Node.ident i ∈ subs n → ∀ m, Named lib i m → m ∉ goConsts) →
    (typesLike es = true ↔ AreFields fs) → (typesLike (n :: es) = true ↔ AreFields (f :: fs))
  | .entry _ h, hr, hs => by
    have := denotes_isType h fun i hi => hr i (List.mem_cons_of_mem _ (mem_refs.1 hi))
    rw [show typesLike (_ :: es) = (typeLike _ && typesLike es) from rfl, Bool.and_eq_true, hs]
    refine ⟨fun ⟨h3, h4⟩ => .named (this.1 h3) h4, fun h3 => ?_⟩
    cases h3 with
    | named h3 h4 => exact ⟨this.2 h3, h4⟩
  | .optional _ h, hr, hs => by
    have := denotes_isType h fun i hi => hr i (List.mem_cons_of_mem _ (List.mem_cons_of_mem _ (mem_refs.1 hi)))
    rw [show typesLike (_ :: es) = (typeLike _ && typesLike es) from rfl, Bool.and_eq_true, hs]
    refine ⟨fun ⟨h3, h4⟩ => .named (this.1 h3) h4, fun h3 => ?_⟩
    cases h3 with
    | named h3 h4 => exact ⟨this.2 h3, h4⟩
  | .ident h, hr, hs => by
    rw [show typesLike (.ident _ :: es) = typesLike es from rfl, hs]
    refine ⟨fun h4 => .embedded (hr _ (by simp [subs]) _ h) h4, fun h3 => ?_⟩
    cases h3 with
    | embedded _ h4 => exact h4
  | .nm h, hr, hs => ⟨nofun, nofun⟩
end

/-- The declarations of a file are those of its rules. -/
theorem fileDecls_mem {rules : List Node} {ds : List GoDecl} (h : FileDecls lib rules ds) {d : GoDecl}
    (hd : d ∈ ds) : ∃ p i v c a b, Node.rule p i v c ∈ rules ∧ RuleDecls lib i v a b ∧ (d = a ∨ d = b) := by
  induction h with
  | nil => cases hd
  | rule hr hs ih =>
    rcases List.mem_cons.1 hd with rfl | hd
    · exact ⟨_, _, _, _, _, _, List.mem_cons_self .., hr, Or.inl rfl⟩
    rcases List.mem_cons.1 hd with rfl | hd
    · exact ⟨_, _, _, _, _, _, List.mem_cons_self .., hr, Or.inr rfl⟩
    · obtain ⟨p, i, v, c, a, b, h1, h2, h3⟩ := ih hd
      exact ⟨p, i, v, c, a, b, List.mem_cons_of_mem _ h1, h2, h3⟩
  | skip _ _ ih =>
    obtain ⟨p, i, v, c, a, b, h1, h2, h3⟩ := ih hd
    exact ⟨p, i, v, c, a, b, List.mem_cons_of_mem _ h1, h2, h3⟩

theorem fileDecls_rule {rules : List Node} {ds : List GoDecl} (h : FileDecls lib rules ds) {p i v c}
    (hr : Node.rule p i v c ∈ rules) : ∃ a b, RuleDecls lib i v a b ∧ a ∈ ds ∧ b ∈ ds := by
  induction h with
  | nil => cases hr
  | rule h hs ih =>
    rcases List.mem_cons.1 hr with hr | hr
    · cases hr; exact ⟨_, _, h, List.mem_cons_self .., List.mem_cons_of_mem _ (List.mem_cons_self ..)⟩
    · obtain ⟨a, b, h1, h2, h3⟩ := ih hr
      exact ⟨a, b, h1, List.mem_cons_of_mem _ (List.mem_cons_of_mem _ h2),
        List.mem_cons_of_mem _ (List.mem_cons_of_mem _ h3)⟩
  | skip hk _ ih =>
    rcases List.mem_cons.1 hr with hr | hr
    · subst hr; exact absurd rfl hk
    · exact ih hr

/-- The top-level nodes of a parsed file. -/
theorem parsed_topLevel {n : Nat} {src : Bytes} {env : Env} {res : PState.FileResult} {rules}
    (h : parseSource n src env = .ok res) (ht : res.cddl = some rules) : TopLevel rules := by
  intro r hr
  rcases C59_made_of_tokens h ht r hr with ⟨_, rfl, _⟩ | ⟨_, rfl, _⟩ | ⟨_, _, _, _, rfl, _⟩
  · exact ⟨nofun, nofun⟩
  · exact ⟨nofun, nofun⟩
  · exact ⟨nofun, nofun⟩

/-- The Go name of a name does not depend on where it stands. -/
theorem named_pos {p q : Pos} {k m : Bytes} (h : Named lib ⟨p, k⟩ m) : Named lib ⟨q, k⟩ m := by
  cases h with
  | asIs h1 h2 => exact .asIs h1 h2
  | key h1 h2 h3 => exact .key h1 h2 h3

/-- A Go name is not more than one. -/
theorem named_unique (hU : NoReplacement) {i : Ident} {m n : Bytes} (h1 : Named lib i m) (h2 : Named lib i n) :
    m = n := by
  rcases transpile_cases hU lib i with ⟨k, _, h⟩ | ⟨_, h⟩
  · rw [(h m).1 h1, (h n).1 h2]
  · exact absurd h1 (h m)

end

theorem goText_length {b t : Bytes} (h : GoText b t) : t.length ≤ b.length := by
  have hc : ∀ c : Char, (enc [c]).length ≤ 4 := by
    intro c
    have : (enc [c]).length = (String.utf8EncodeChar c).length := by simp [enc]
    rw [this]
    unfold String.utf8EncodeChar
    simp only
    split <;> (try split) <;> (try split) <;> simp
  induction h with
  | nil => exact Nat.le_refl _
  | plain _ _ ih | escape _ _ ih | octal _ _ _ ih | hex _ _ ih => simp only [List.length_cons]; omega
  | @u4 ds c b t h1 _ _ ih => simp only [List.length_cons, List.length_append]; have := hc c; omega
  | @u8 ds c b t h1 _ _ ih => simp only [List.length_cons, List.length_append]; have := hc c; omega

/-- A Go string literal is longer than the text it means. -/
theorem goString_length {l t : Bytes} (h : GoString l t) : t.length < l.length := by
  cases h with
  | raw => simp only [List.length_cons, List.length_append]; omega
  | interpreted h => have := goText_length h; simp only [List.length_cons, List.length_append]; omega

end Cddlc
