import Verif.Spec.Compile
import Verif.Props.GoTypes
import Verif.Lemmas.Spelled
import Verif.Lemmas.Term

/-! What of the Go compiler's demands on a generated file means for the schema. -/

namespace Cddlc
open Spec

section
variable [Unicode] (hU : NoReplacement) {lib : GoLib}

/-! ### Names -/

omit [Unicode] in
/-- Words that begin with a small letter or an underscore. -/
def lowStart : Bytes → Bool
  | [] => false
  | c :: _ => (97 ≤ c && c ≤ 122) || c = 95

omit [Unicode] in
theorem low_words : ∀ m ∈ universeTypes ++ goTypes ++ goConsts ++
    [b!"_", b!"init", b!"main", b!"validators", b!"self", b!"error", b!"nil"], lowStart m = true := by
  decide

include hU in
theorem capital_named {i : Ident} {m : Bytes} (hc : Capital lib i) (h : Named lib i m) : GoIdent m ∧ lowStart m = false := by
  have hfm : ∀ f, Formatted lib i f → f = lib.toCamel i.name := by
    intro f hf
    unfold Formatted at hf
    rw [if_neg hc.1] at hf
    exact hf
  constructor
  · rcases transpile_cases hU lib i with ⟨m', h1, h2⟩ | ⟨_, h2⟩
    · cases (h2 m).1 h
      refine C45_identifier_partial hU h1 fun f hf => ?_
      rw [hfm f hf]
      cases hl : lib.toCamel i.name with
      | nil => simp
      | cons c t =>
        have := (hc.2 c t hl).2
        simp only [List.mem_cons, List.not_mem_nil, or_false, not_or] at this
        simp only [List.head?_cons, ne_eq, Option.some.injEq]
        exact this.2
    · exact absurd h (h2 m)
  · cases h with
    | asIs h1 h2 =>
      rw [hfm _ h1] at h2 ⊢
      cases hl : lib.toCamel i.name with
      | nil =>
        rw [hl] at h2
        obtain ⟨_, c, cs, h3, _⟩ := h2
        exact absurd h3.symm enc_ne_nil
      | cons c t =>
        obtain ⟨h3, h4⟩ := hc.2 c t hl
        simp only [List.mem_cons, List.not_mem_nil, or_false, not_or] at h4
        simp only [lowStart, Bool.or_eq_false_iff, Bool.and_eq_false_iff, decide_eq_false_iff_not]
        refine ⟨?_, h4.1⟩
        exact Decidable.not_and_iff_or_not.mp h3
    | key => rfl

include hU in
theorem capital_not {i : Ident} {m : Bytes} (hc : Capital lib i) (h : Named lib i m) : m ∉ universeTypes ++ goTypes ++ goConsts ++
    [b!"_", b!"init", b!"main", b!"validators", b!"self", b!"error", b!"nil"] := by
  intro hm
  have := (capital_named hU hc h).2
  rw [low_words m hm] at this
  cases this

/-! ### Types -/

mutual
/-- The names of fields are identifiers. -/
def namesOk : GoExpr → Prop
  | .struct fs => namesOkIn fs
  | .array e => namesOk e
  | _ => True
@[inherit_doc namesOk] def namesOkIn : List GoField → Prop
  | [] => True
  | .mk ns t _ :: rest => (∀ m ∈ ns, GoIdent m) ∧ namesOk t ∧ namesOkIn rest
end

mutual
theorem denotes_namesOk (hblank : GoIdent b!"_") {n : Node} {e : GoExpr} : Denotes lib n e →
    (∀ p i v c, Node.entry p i v c ∈ subs n → ∀ m, Named lib i m → GoIdent m) → namesOk e
  | .bool _, _ | .tstr _, _ | .bytes _, _ | .null _, _ | .int _, _ | .uint _, _ | .intLit, _ | .true, _ | .false, _
  | .textLit, _ | .floatLit, _ | .ident _, _ => trivial
  | .nm (e := e) h, hk => show namesOk e from
    denotes_namesOk hblank h fun p i v c hm => hk p i v c (List.mem_cons_of_mem _ hm)
  | .size _ h, hk => denotes_namesOk hblank h fun p i v c hm =>
      hk p i v c (List.mem_cons_of_mem _ (List.mem_append_left _ hm))
  | .group (fs := fs) h, hk => show namesOkIn fs from
    denotesFields_namesOk hblank h fun p i v c hm => hk p i v c (List.mem_cons_of_mem _ hm)
  | .array h, hk => ⟨by simpa using hblank, trivial,
      denotesFields_namesOk hblank h fun p i v c hm => hk p i v c (List.mem_cons_of_mem _ hm)⟩
theorem denotesFields_namesOk (hblank : GoIdent b!"_") {es : List Node} {fs : List GoField} : DenotesFields lib es fs →
    (∀ p i v c, Node.entry p i v c ∈ subsList es → ∀ m, Named lib i m → GoIdent m) → namesOkIn fs
  | .nil, _ => trivial
  | .cons (f := .mk _ _ _) h hs, hk =>
    have h1 := denotesField_namesOk hblank h fun p i v c hm => hk p i v c (List.mem_append_left _ hm)
    ⟨h1.1, h1.2, denotesFields_namesOk hblank hs fun p i v c hm => hk p i v c (List.mem_append_right _ hm)⟩
theorem denotesField_namesOk (hblank : GoIdent b!"_") {n : Node} {ns t tag} : DenotesField lib n (.mk ns t tag) →
    (∀ p i v c, Node.entry p i v c ∈ subs n → ∀ m, Named lib i m → GoIdent m) → (∀ m ∈ ns, GoIdent m) ∧ namesOk t
  | .entry h1 h, hk => ⟨fun m hm => by
      rw [List.mem_singleton.mp hm]; exact hk _ _ _ _ (List.mem_cons_self ..) _ h1,
      denotes_namesOk hblank h fun p i v c hm => hk p i v c (List.mem_cons_of_mem _ hm)⟩
  | .optional h1 h, hk => ⟨fun m hm => by
      rw [List.mem_singleton.mp hm]
      exact hk _ _ _ _ (List.mem_cons_of_mem _ (List.mem_cons_self ..)) _ h1,
      denotes_namesOk hblank h fun p i v c hm => hk p i v c (List.mem_cons_of_mem _ (List.mem_cons_of_mem _ hm))⟩
  | .ident _, _ => ⟨by simp, trivial⟩
  | .nm (e := e) h, hk => ⟨by simp, show namesOk e from denotes_namesOk hblank h fun p i v c hm => hk p i v c (List.mem_cons_of_mem _ hm)⟩
end

mutual
theorem goType_of {D : List GoDecl} {e : GoExpr} : IsType e → distinctFields e → namesOk e →
    (∀ m ∈ uses e, m ∉ goConsts → TypeName D m) → GoType D e
  | .ident h, _, _, hu => .name (hu _ (by simp [uses]) h)
  | .array h, hd, hn, hu => .slice (goType_of h hd hn hu)
  | .struct h, hd, hn, hu => .struct (goFields_of h hd.2 hn hu) hd.1
theorem goFields_of {D : List GoDecl} {fs : List GoField} : AreFields fs → distinctIn fs → namesOkIn fs →
    (∀ m ∈ usesFields fs, m ∉ goConsts → TypeName D m) → GoFields D fs
  | .nil, _, _, _ => .nil
  | .named h hs, hd, hn, hu => .named hn.1
      (goType_of h hd.1 hn.2.1 fun m hm => hu m (List.mem_append_left _ hm))
      (goFields_of hs hd.2 hn.2.2 fun m hm => hu m (List.mem_append_right _ hm))
  | .embedded h hs, hd, hn, hu => .embedded (hu _ (by simp [usesFields, uses]) h)
      (goFields_of hs hd.2 hn.2.2 fun m hm => hu m (List.mem_append_right _ hm))
end

mutual
theorem of_goType {D : List GoDecl} (hc : ∀ m, TypeName D m → m ∉ goConsts) {e : GoExpr} : GoType D e → IsType e ∧ distinctFields e
  | .name h => ⟨.ident (hc _ h), trivial⟩
  | .slice h => ⟨.array (of_goType hc h).1, (of_goType hc h).2⟩
  | .struct h hd => ⟨.struct (of_goFields hc h).1, hd, (of_goFields hc h).2⟩
theorem of_goFields {D : List GoDecl} (hc : ∀ m, TypeName D m → m ∉ goConsts) {fs : List GoField} : GoFields D fs →
    AreFields fs ∧ distinctIn fs
  | .nil => ⟨.nil, trivial⟩
  | .named _ h hs => ⟨.named (of_goType hc h).1 (of_goFields hc hs).1, (of_goType hc h).2, (of_goFields hc hs).2⟩
  | .embedded h hs => ⟨.embedded (hc _ h) (of_goFields hc hs).1, trivial, (of_goFields hc hs).2⟩
end

/-- The identifiers that are whole types. -/
theorem denotes_ident {v : Node} {n : Bytes} (h : Denotes lib v (.ident n)) :
    n ∈ [b!"bool", b!"string", b!"nil", b!"int", b!"uint", b!"true", b!"false"] ∨ ∃ i ∈ refs v, Named lib i n := by
  have leaf : ∀ {w : Node}, w.kind ∈ [NodeKind.uintType, .bytes, .tstr] → Denotes lib w (.ident n) →
      n ∈ [b!"bool", b!"string", b!"nil", b!"int", b!"uint", b!"true", b!"false"] := by
    intro w hk hw
    cases hw <;> first | decide | (simp [Node.kind] at hk; done)
  cases h with
  | ident h => exact Or.inr ⟨_, by simp [refs, subs], h⟩
  | size hk h => exact Or.inl (leaf hk h)
  | bool | tstr | null | int | uint | true | false => exact Or.inl (by decide)

include hU in
/-- Which names the fields of a struct have. -/
theorem denotes_fieldNames {v : Node} {fs : List GoField} (h : Denotes lib v (.struct fs)) :
    ∀ m, m ≠ b!"_" → (m ∈ fieldNames fs ↔ ∃ x ∈ entriesOf v, ∃ k, key x = some k ∧ Named lib k m) := by
  have leaf : ∀ {w : Node}, w.kind ∈ [NodeKind.uintType, .bytes, .tstr] → ¬ Denotes lib w (.struct fs) := by
    intro w hk hw
    cases hw <;> simp [Node.kind] at hk
  have main : ∀ {es : List Node} {gs : List GoField}, DenotesFields lib es gs → ∀ m,
      (m ∈ fieldNames gs ↔ ∃ x ∈ es, ∃ k, key x = some k ∧ Named lib k m) := by
    intro es gs hd m
    have h1 := fields_named hd
    have : m ∈ fieldNames gs ↔ ∃ k ∈ es.filterMap key, Named lib k m := by
      generalize es.filterMap key = is at h1
      generalize fieldNames gs = ns at h1
      induction h1 with
      | nil => simp
      | @cons i k is ns h2 _ ih =>
        simp only [List.mem_cons, ih, exists_eq_or_imp]
        refine or_congr ⟨fun h => h ▸ h2, fun h => named_unique hU h h2⟩ Iff.rfl
    rw [this]
    constructor
    · rintro ⟨k, hk, hn⟩
      obtain ⟨x, hx, hk⟩ := List.mem_filterMap.mp hk
      exact ⟨x, hx, k, hk, hn⟩
    · rintro ⟨x, hx, k, hk, hn⟩
      exact ⟨k, List.mem_filterMap.mpr ⟨x, hx, hk⟩, hn⟩
  intro m hm
  cases h with
  | group h => exact main h m
  | array h =>
    show m ∈ b!"_" :: fieldNames _ ↔ _
    rw [List.mem_cons, or_iff_right hm]
    exact main h m
  | size hk h => exact absurd h (leaf hk)

mutual
theorem denotes_parts {n : Node} {e : GoExpr} : Denotes lib n e → ∀ j ∈ parts n, Node.ident j ∈ subs n
  | .bool h, _, hj | .tstr h, _, hj | .bytes h, _, hj | .null h, _, hj | .int h, _, hj | .uint h, _, hj => by
    cases n <;> first | (cases hj; done) | cases h
  | .intLit, _, hj | .true, _, hj | .false, _, hj | .textLit, _, hj | .floatLit, _, hj | .nm _, _, hj | .size _ _, _, hj => by
    cases hj
  | .ident _, _, hj => by rw [List.mem_singleton.mp hj]; exact List.mem_cons_self ..
  | .group h, j, hj | .array h, j, hj => List.mem_cons_of_mem _ (denotesFields_parts h j hj)
theorem denotesFields_parts {es : List Node} {fs : List GoField} : DenotesFields lib es fs → ∀ j ∈ partsIn es,
    Node.ident j ∈ subsList es
  | .nil, _, hj => by cases hj
  | .cons h hs, j, hj => (List.mem_append.mp hj).elim (fun hj => List.mem_append_left _ (denotesField_parts h j hj))
      fun hj => List.mem_append_right _ (denotesFields_parts hs j hj)
theorem denotesField_parts {n : Node} {f : GoField} : DenotesField lib n f → ∀ j ∈ parts n, Node.ident j ∈ subs n
  | .entry _ h, j, hj => List.mem_cons_of_mem _ (denotes_parts h j hj)
  | .optional _ h, j, hj => List.mem_cons_of_mem _ (List.mem_cons_of_mem _ (denotes_parts h j hj))
  | .ident _, _, hj => by rw [List.mem_singleton.mp hj]; exact List.mem_cons_self ..
  | .nm _, _, hj => by cases hj
end

/-! ### Declarations -/

theorem top_named {rules : List Node} {ds : List GoDecl} (hf : FileDecls lib rules ds) :
    List.Forall₂ (fun i n => Named lib i n) (ruleIdents rules) (topNames ds) := by
  induction hf with
  | nil => exact .nil
  | @rule p i v c rest a b ds hr _ ih =>
    cases hr with
    | mk h1 _ h3 =>
      rcases h3 with ⟨rfl, _⟩ | ⟨rfl, _⟩ <;> exact .cons h1 ih
  | @skip n rest ds hk _ ih =>
    have : ruleIdents (n :: rest) = ruleIdents rest := by
      unfold ruleIdents
      rw [List.filterMap_cons_none]
      cases n <;> first | rfl | exact absurd rfl hk
    rw [this]
    exact ih

theorem method_keys {rules : List Node} {ds : List GoDecl} (hf : FileDecls lib rules ds) :
    ds.filterMap methodKey = (topNames ds).map fun n => (n, b!"Valid") := by
  induction hf with
  | nil => rfl
  | @rule p i v c rest a b ds hr _ ih =>
    cases hr with
    | mk h1 _ h3 =>
      rcases h3 with ⟨rfl, _⟩ | ⟨rfl, _⟩ <;>
      · show (_, _) :: ds.filterMap methodKey = (_, _) :: (topNames ds).map _
        rw [ih]
  | skip _ _ ih => exact ih

theorem no_imports {rules : List Node} {ds : List GoDecl} (hf : FileDecls lib rules ds) :
    ∀ d ∈ ds, ∀ specs, d ≠ .imports specs := by
  rintro d hd specs rfl
  obtain ⟨p, i, v, c, a, b, _, h1, h2⟩ := fileDecls_mem hf hd
  cases h1 with
  | mk _ _ h3 =>
    rcases h2 with rfl | h2
    · rcases h3 with ⟨h3, _⟩ | ⟨h3, _⟩ <;> cases h3
    · cases h2

omit [Unicode] in
theorem mem_top {D : List GoDecl} {n : Bytes} : n ∈ topNames D ↔ ∃ d ∈ D, ∃ ty, declared d = some (n, ty) := by
  unfold topNames
  simp only [List.mem_map, List.mem_filterMap]
  constructor
  · rintro ⟨⟨a, ty⟩, ⟨d, h1, h2⟩, rfl⟩; exact ⟨d, h1, ty, h2⟩
  · rintro ⟨d, h1, ty, h2⟩; exact ⟨_, ⟨d, h1, h2⟩, rfl⟩

/-- A name that is used is the name of a rule. -/
theorem ref_rule {n : Nat} {src pkg : Bytes} {rules : List Node} {g : Generator}
    (h : Generated lib n src pkg rules g) {p i v c} (hr : Node.rule p i v c ∈ rules) {j : Ident} (hj : j ∈ refs v)
    (hs : j.name.head? ≠ some 36) : ∃ q k w d, Node.rule q k w d ∈ rules ∧ k.name = j.name := by
  obtain ⟨res, h1, h2, h3, _⟩ := h
  have hj' : j ∈ refs (.rule p i v c) := by
    rw [mem_refs] at *
    exact List.mem_cons_of_mem _ hj
  rcases C17_no_dangling h1 h2 h3 _ hr j hj' with ⟨s, h8⟩ | h8
  · rw [h8] at hs; exact absurd rfl hs
  · rcases (C19_environment h1 j.name).2.2 rules h2 rfl with ⟨w, ⟨pre, e, post, h9, ⟨q, tc, h10, _⟩, _⟩, _⟩ | ⟨_, h9⟩
    · exact ⟨_, ⟨q, j.name⟩, w, tc, by rw [h9, ← h10]; simp, rfl⟩
    · rw [h9] at h8; cases h8

include hU in
/-- The underlying type of a generated type. -/
theorem underlying_cases {rules : List Node} {ds D : List GoDecl} (hf : FileDecls lib rules ds)
    (hD : ∀ doc n e, GoDecl.type doc n e ∈ D → GoDecl.type doc n e ∈ ds)
    (hcap : ∀ p i v c, Node.rule p i v c ∈ rules → ∀ j ∈ refs v, Capital lib j) {e u : GoExpr} (h : Underlying D e u) :
    (∃ p i v c, Node.rule p i v c ∈ rules ∧ Denotes lib v e) → ¬ IsInterface u ∧
      ∀ fs, u = .struct fs → ∃ p i v c, Node.rule p i v c ∈ rules ∧ Denotes lib v (.struct fs) := by
  induction h with
  | slice => intro _; exact ⟨by (rintro (h | h) <;> cases h), fun _ h => by cases h⟩
  | struct =>
    intro h
    refine ⟨by (rintro (h | h) <;> cases h), fun fs hu => ?_⟩
    cases hu; exact h
  | @declared doc n e u h1 _ ih =>
    intro _
    obtain ⟨p, i, v, c, hr, _, hd⟩ := type_rule hf (hD _ _ _ h1)
    exact ih ⟨p, i, v, c, hr, hd⟩
  | @predeclared n _ h2 =>
    rintro ⟨p, i, v, c, hr, hd⟩
    refine ⟨fun hi => ?_, fun _ h => by cases h⟩
    rcases denotes_ident hd with h3 | ⟨j, hj, h3⟩
    · rcases hi with hi | hi <;> cases hi <;> revert h3 <;> decide
    · refine capital_not hU (hcap _ _ _ _ hr j hj) h3 ?_
      simp only [List.mem_append]
      exact Or.inl (Or.inl (Or.inl h2))

/-! ### Imports -/

omit [Unicode] in
theorem sum_one {α : Type} (f : α → Nat) : ∀ {l : List α}, (l.map f).sum ≤ 1 → ∀ {a b}, a ∈ l → b ∈ l → 0 < f a → 0 < f b →
    a = b
  | [], _, _, _, h, _, _, _ => by cases h
  | x :: l, hs, a, b, ha, hb, h1, h2 => by
    have le : ∀ {y}, y ∈ l → f y ≤ (l.map f).sum := by
      intro y hy
      clear hs ha hb
      induction l with
      | nil => cases hy
      | cons z l ih =>
        rw [List.map_cons, List.sum_cons]
        rcases List.mem_cons.mp hy with rfl | hy
        · omega
        · have := ih hy; omega
    rw [List.map_cons, List.sum_cons] at hs
    rcases List.mem_cons.mp ha with ea | ha <;> rcases List.mem_cons.mp hb with eb | hb
    · rw [ea, eb]
    · have := le hb; rw [ea] at h1; omega
    · have := le ha; rw [eb] at h2; omega
    · exact sum_one f (by omega) ha hb h1 h2

omit [Unicode] in
/-- The size controls of a rule. -/
def sizesOf (r : Node) : Nat := match valueOf r with
  | some v => sizeControls v
  | none => 0

omit [Unicode] in
theorem sum_sizes (rules : List Node) : ((rules.filterMap valueOf).map sizeControls).sum = (rules.map sizesOf).sum := by
  induction rules with
  | nil => rfl
  | cons r rules ih =>
    rw [List.map_cons, List.sum_cons, ← ih, List.filterMap_cons]
    unfold sizesOf
    cases valueOf r with
    | none => simp
    | some v => simp

omit [Unicode] in
theorem size_pos {v : Node} (h : v.kind = .size) : 0 < sizeControls v := by
  cases v <;> cases h <;> simp [sizeControls, subs, Node.kind]

/-- The number of a size control is not negative and fits. -/
theorem size_bound {n : Nat} {src pkg : Bytes} {rules : List Node} {g : Generator} (h : Generated lib n src pkg rules g)
    {p i v c q t r u ty} {s : Int} (hr : Node.rule p i v c ∈ rules) (hv : v = .size q t (.intLit r u s) ty) :
    0 ≤ s ∧ s < 2 ^ 63 := by
  obtain ⟨res, h1, h2, _, _⟩ := h
  rcases C59_made_of_tokens h1 h2 _ hr with ⟨_, h3, _⟩ | ⟨_, h3, _⟩ | ⟨_, _, _, _, h3, _, _, _, h4⟩
  · cases h3
  · cases h3
  · cases h3
    have := h4 (.intLit r u s) (by rw [hv]; simp [subs])
    obtain ⟨hu, lit, h5, h6⟩ := this
    rw [hu] at h5
    have h7 := (new_spells src _ h5).int_nonneg h6
    refine ⟨h7, ?_⟩
    unfold parseInt at h6
    split at h6
    · cases h6
    · dsimp only at h6
      split at h6
      · cases h6
      · cases h6
      · split at h6
        · cases h6
        · split at h6
          · cases h6
          · rename_i un _ h8 h9
            injection h6 with h6
            split at h6
            · omega
            · rename_i hn
              have : ¬ 2 ^ 63 ≤ un := fun h => h8 (by simp only [hn, Bool.not_false, Bool.true_and, decide_eq_true_eq]; exact h)
              omega

end
end Cddlc
