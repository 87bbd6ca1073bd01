import Verif.Lemmas.Layout

/-! No parse function depends on positions. -/

namespace Cddlc
variable [Unicode]
open Spec PState

variable {ρ : Bytes → Bytes} {rec : Rec} {p q : PState} {left left' : Node}

theorem simR {x y : Node} {p q : PState} (hx : noPos (rename ρ x) = noPos y) (h : Sim ρ p q) : SimR ρ (x, none, p) (y, none, q) :=
  ⟨hx, rfl, h⟩

theorem simE {x y : Node} {d d' : Diag} {p q : PState} (hx : noPos (rename ρ x) = noPos y) (hd : dmr ρ d = dm d') (h : Sim ρ p q) :
    SimR ρ (x, some d, p) (y, some d', q) :=
  ⟨hx, by simp [hd], h⟩

/-! ### Operands -/

omit [Unicode] in
theorem inner_text (h : p.lit = q.lit) : (⟨{}, p.parseInnerComment.text⟩ : Comment) = ⟨{}, q.parseInnerComment.text⟩ := by
  simp [parseInnerComment, h]

theorem S_comment (n : Nat) (hi : p.cur ≠ .IDENT) (h : Sim ρ p q) : Same3 ρ (parseComment n p) (parseComment n q) := by
  unfold parseComment
  refine Out.Same.bind (R := fun x y => x.1.map (fun c => (⟨{}, c.text⟩ : Comment)) =
    y.1.map (fun c => (⟨{}, c.text⟩ : Comment)) ∧ Sim ρ x.2 y.2) ?_ ?_
  · refine same_loop (I := fun x y => x.1.map (fun c => (⟨{}, c.text⟩ : Comment)) =
      y.1.map (fun c => (⟨{}, c.text⟩ : Comment)) ∧ Sim ρ x.2 y.2) ?_ n ⟨?_, h⟩
    · rintro ⟨cs, p⟩ ⟨ds, q⟩ ⟨h1, h2⟩
      simp only at h1 h2
      simp only [commentStep, h2.peek]
      split
      · rename_i hk
        refine Out.Same.bind (sim_nextc h2) fun a b ⟨hab, hc⟩ => ⟨?_, hab⟩
        simp only [List.map_append, h1, List.map_cons,
          inner_text (hab.same (by rw [hc, h2.peek, hk]; simp))]
      · exact ⟨h1, h2⟩
    · simp only [List.map_cons, inner_text (h.same hi)]
  · rintro ⟨cs, p⟩ ⟨ds, q⟩ ⟨h1, h2⟩
    simp only at h1 h2
    rcases cs with _ | ⟨c, _ | ⟨c', cs⟩⟩ <;> rcases ds with _ | ⟨d, _ | ⟨d', ds⟩⟩ <;> simp at h1
    · exact simR rfl h2
    · exact simR (by simp [rename, noPos, h1]) h2
    · exact simR (by simp [rename, noPos, h1]) h2

theorem S_identifier (hi : p.cur = .IDENT) (h : Sim ρ p q) : Same3 ρ p.parseIdentifier q.parseIdentifier :=
  simR (by simp [rename, noPos, h.name hi]) h

theorem S_named (hi : p.cur = .IDENT) (h : Sim ρ p q) :
    Same3 ρ p.parseNamedIdentifier q.parseNamedIdentifier := by
  unfold parseNamedIdentifier
  rw [← h.name hi]
  have hs := h.ok.socket p.lit
  have he := h.ok.empty p.lit
  cases hl : p.lit with
  | nil => rw [← hl, he.mpr hl, hl]; rfl
  | cons c cs =>
    rw [hl] at hs he
    cases hl' : ρ (c :: cs) with
    | nil => exact absurd (he.mp hl') (by simp)
    | cons d ds =>
      rw [hl'] at hs
      simp only [List.head?_cons, Option.some.injEq] at hs
      refine simR (by simp [rename, noPos, hl']) ?_
      simp only [ne_eq, hs]
      split
      · exact sim_addTask h (by simp [renameTask, noPosTask, hl'])
      · exact h

theorem S_boolType (h : Sim ρ p q) : Same3 ρ p.parseBooleanType q.parseBooleanType :=
  simR (by simp [rename, noPos, h.cur]) h

theorem S_boolLit (hi : p.cur ≠ .IDENT) (h : Sim ρ p q) : Same3 ρ p.parseBooleanLiteral q.parseBooleanLiteral := by
  unfold parseBooleanLiteral
  rw [← h.same hi]
  split
  · exact simR rfl h
  · split
    · exact simR rfl h
    · exact simE rfl rfl h

theorem S_tstr (h : Sim ρ p q) : Same3 ρ p.parseTstrType q.parseTstrType :=
  simR (by simp [rename, noPos, h.cur]) h

theorem S_float (hi : p.cur ≠ .IDENT) (h : Sim ρ p q) : Same3 ρ p.parseFloatType q.parseFloatType := by
  unfold parseFloatType parseFloatLiteral
  rw [← h.same hi, ← h.cur]
  split
  · split
    · exact simE rfl rfl h
    · exact simR rfl h
  · exact simR rfl h

theorem S_uint (hi : p.cur ≠ .IDENT) (h : Sim ρ p q) : Same3 ρ p.parseUintType q.parseUintType := by
  unfold parseUintType parseUintLiteral
  rw [← h.same hi, ← h.cur]
  split
  · split
    · exact simE rfl rfl h
    · exact simR rfl h
  · exact simR rfl h

theorem S_int (hi : p.cur ≠ .IDENT) (h : Sim ρ p q) : Same3 ρ p.parseIntegerType q.parseIntegerType := by
  unfold parseIntegerType parseIntegerLiteral
  rw [← h.same hi, ← h.cur]
  split
  · split
    · exact simE rfl rfl h
    · exact simR rfl h
  · exact simR rfl h

theorem S_nint (h : Sim ρ p q) : Same3 ρ p.parseNegativeIntegerType q.parseNegativeIntegerType :=
  simR (by simp [rename, noPos, h.cur]) h

theorem S_bstr (h : Sim ρ p q) : Same3 ρ p.parseBstrType q.parseBstrType :=
  simR (by simp [rename, noPos, h.cur]) h

theorem S_bytes (h : Sim ρ p q) : Same3 ρ p.parseBytesType q.parseBytesType :=
  simR (by simp [rename, noPos, h.cur]) h

theorem S_null (h : Sim ρ p q) : Same3 ρ p.parseNullType q.parseNullType :=
  simR (by simp [rename, noPos, h.cur]) h

theorem S_text (hi : p.cur ≠ .IDENT) (h : Sim ρ p q) : Same3 ρ p.parseTextLiteral q.parseTextLiteral :=
  simR (by simp [rename, noPos, h.cur, h.same hi]) h

/-! ### Operators -/

theorem S_nextEntry (hr : RecS ρ rec) (h : Sim ρ p q) : Same3 ρ (nextEntry rec p) (nextEntry rec q) := by
  unfold nextEntry
  refine Out.Same.bind (sim_next h) fun a b hab => ?_
  rw [hab.cur]
  exact hr _ _ _ hab

theorem S_colon (hr : RecS ρ rec) (hi : p.cur ≠ .IDENT) (hl : noPos (rename ρ left) = noPos left') (h : Sim ρ p q) :
    Same3 ρ (parseColon rec left p) (parseColon rec left' q) := by
  have key : ∀ i j : Ident, ρ i.name = j.name → Same3 ρ
      (do let (val, err, p') ← nextEntry rec p
          match err with
          | some e => .ok (val, some e, p')
          | none =>
            if p'.peek = .COMMENT ∧ sameLine p'.pos p'.peekPos then do
              let p'' ← p'.next
              .ok (.entry p.pos i val (some p''.parseInnerComment), none, p'')
            else .ok (.entry p.pos i val none, none, p'))
      (do let (val, err, p') ← nextEntry rec q
          match err with
          | some e => .ok (val, some e, p')
          | none =>
            if p'.peek = .COMMENT ∧ sameLine p'.pos p'.peekPos then do
              let p'' ← p'.next
              .ok (.entry q.pos j val (some p''.parseInnerComment), none, p'')
            else .ok (.entry q.pos j val none, none, p')) := by
    intro i j hij
    refine Same3.bind (S_nextEntry hr h) (fun x y d d' a b hx hd hab => simE hx hd hab) fun x y a b hx hab => ?_
    have hc : (a.peek = .COMMENT ∧ sameLine a.pos a.peekPos = true) ↔
        (b.peek = .COMMENT ∧ sameLine b.pos b.peekPos = true) := by
      rw [← hab.peek]
      simp only [sameLine, decide_eq_true_eq]
      exact and_congr_right fun hk => hab.line hk
    simp only [hc]
    split
    · rename_i hk
      refine Out.Same.bind (sim_nextc hab) fun a' b' ⟨hab', hc'⟩ => simR ?_ hab'
      simp only [rename, noPos, hx, hij, Option.map_some,
        inner_text (hab'.same (by rw [hc', hab.peek, hk.1]; simp))]
    · exact simR (by simp only [rename, noPos, hx, hij, Option.map_none]) hab
  have bad : Same3 ρ (.ok (.nil, some (errUnsupported p.pos p.lit [.IDENT, .INT]), p))
      (.ok (.nil, some (errUnsupported q.pos q.lit [.IDENT, .INT]), q)) :=
    simE rfl (by simp only [dmr, dm, renameMsg, errUnsupported, noPosMsg, h.same hi]) h
  unfold parseColon
  cases shape hl with
  | ident i j hij => exact key i j hij
  | intLit a b t v => exact key _ _ (h.ok.keys v)
  | floatLit => exact bad
  | uintLit => exact bad
  | tstr => exact bad
  | other a1 a2 a3 a4 a5 b1 b2 b3 b4 b5 =>
    have e1 : ∀ (x : Node) (p : PState), (∀ i, x ≠ .ident i) → (∀ a t v, x ≠ .intLit a t v) →
        parseColon rec x p = .ok (.nil, some (errUnsupported p.pos p.lit [.IDENT, .INT]), p) := by
      intro x p h1 h2
      unfold parseColon
      cases x <;> first | rfl | exact absurd rfl (h1 _) | exact absurd rfl (h2 _ _ _)
    have f1 := e1 left p a1 a2
    have f2 := e1 left' q b1 b2
    unfold parseColon at f1 f2
    rw [f1, f2]
    exact bad

theorem S_comma (hl : noPos (rename ρ left) = noPos left') (h : Sim ρ p q) : Same3 ρ (parseComma left p) (parseComma left' q) :=
  simR hl h

theorem S_typeChoice (hr : RecS ρ rec) (hl : noPos (rename ρ left) = noPos left') (h : Sim ρ p q) :
    Same3 ρ (parseTypeChoice rec left p) (parseTypeChoice rec left' q) := by
  unfold parseTypeChoice
  exact Same3.bind (S_nextEntry hr h) (fun x y d d' a b hx hd hab => simE hx hd hab)
    fun x y a b hx hab => simR (by simp only [rename, noPos, hl, hx, h.cur]) hab

theorem S_unwrap (hr : RecS ρ rec) (h : Sim ρ p q) : Same3 ρ (parseUnwrap rec p) (parseUnwrap rec q) := by
  unfold parseUnwrap
  exact Same3.bind (S_nextEntry hr h) (fun x y d d' a b hx hd hab => simE hx hd hab)
    fun x y a b hx hab => simR (by simp only [rename, noPos, hx, h.cur]) hab

theorem S_optional (hr : RecS ρ rec) (h : Sim ρ p q) : Same3 ρ (parseOptional rec p) (parseOptional rec q) := by
  unfold parseOptional
  exact Same3.bind (S_nextEntry hr h) (fun x y d d' a b hx hd hab => simE hx hd hab)
    fun x y a b hx hab => simR (by simp only [rename, noPos, hx, h.cur]) hab

theorem S_enumeration (hr : RecS ρ rec) (h : Sim ρ p q) : Same3 ρ (parseEnumeration rec p) (parseEnumeration rec q) := by
  unfold parseEnumeration
  exact Same3.bind (S_nextEntry hr h) (fun x y d d' a b hx hd hab => simE (by simp only [rename, noPos, hx, h.cur]) hd hab)
    fun x y a b hx hab => simR (by simp only [rename, noPos, hx, h.cur]) hab

theorem S_expectPeek (t : Tok) (h : Sim ρ p q) : Out.Same (Sim ρ) (p.expectPeek t) (q.expectPeek t) := by
  unfold expectPeek
  rw [h.peek]
  split
  · exact h
  · exact sim_next h

theorem S_tagItem (hr : RecS ρ rec) {a b c d : Option UintLit} (ha : a.map noPosU = c.map noPosU)
    (hb : b.map noPosU = d.map noPosU) {x y : Pos} (t : Tok) (h : Sim ρ p q) :
    Same3 ρ (parseTagItem rec x t a b p) (parseTagItem rec y t c d q) := by
  unfold parseTagItem
  rw [h.peek]
  split
  · refine Out.Same.bind (sim_next h) fun p1 q1 h1 => ?_
    refine Same3.bind (S_nextEntry hr h1) (fun x y d d' a b hx hd hab => simE (by simp only [rename, noPos, hx, ha, hb]) hd hab)
      fun x y a b hx hab => ?_
    exact Out.Same.bind (S_expectPeek _ hab) fun p2 q2 h2 => simR (by simp only [rename, noPos, hx, ha, hb]) h2
  · exact simR (by simp only [rename, noPos, ha, hb]) h

theorem S_tag (hr : RecS ρ rec) (h : Sim ρ p q) : Same3 ρ (parseTag rec p) (parseTag rec q) := by
  unfold parseTag
  rw [h.peek]
  split
  · rename_i hk
    refine Out.Same.bind (sim_nextc h) fun p1 q1 ⟨h1, hc1⟩ => ?_
    rw [h1.same (by rw [hc1, h.peek, hk]; simp)]
    split
    · exact simE rfl rfl h1
    · rw [h.cur]
      exact S_tagItem hr rfl rfl _ h1
  · rename_i hk
    refine Out.Same.bind (sim_nextc h) fun p1 q1 ⟨h1, hc1⟩ => ?_
    have hf : (match p1.parseFloatTag, q1.parseFloatTag with
      | .error d, .error d' => dmr ρ d = dm d'
      | .ok u, .ok v => noPosU u.1 = noPosU v.1 ∧ noPosU u.2 = noPosU v.2
      | _, _ => False) := by
      unfold parseFloatTag
      rw [h1.same (by rw [hc1, h.peek, hk]; simp), h1.cur]
      rcases splitDots q1.lit with _ | ⟨a, _ | ⟨b, _ | _⟩⟩
      · rfl
      · rfl
      · simp only
        cases parseUint a
        · rfl
        · cases parseUint b
          · rfl
          · exact ⟨rfl, rfl⟩
      · rfl
    cases e : p1.parseFloatTag <;> cases e' : q1.parseFloatTag <;> rw [e, e'] at hf
    · exact simE rfl hf h1
    · exact hf.elim
    · exact hf.elim
    · rw [h.cur]
      exact S_tagItem hr (by simp [hf.1]) (by simp [hf.2]) _ h1
  · rw [h.cur]
    exact S_tagItem hr rfl rfl _ h

theorem S_occItem (hr : RecS ρ rec) {a b c d : Option UintLit} (ha : a.map noPosU = c.map noPosU)
    (hb : b.map noPosU = d.map noPosU) {x y : Pos} (t : Tok) (h : Sim ρ p q) :
    Same3 ρ (parseOccItem rec x t a b p) (parseOccItem rec y t c d q) := by
  unfold parseOccItem
  rw [h.cur]
  exact Same3.bind (hr _ _ _ h) (fun x y d d' a b hx hd hab => simE (by simp only [rename, noPos, hab.cur, ha, hb]) hd hab)
    fun x y a b hx hab => simR (by simp only [rename, noPos, hx, ha, hb]) hab

theorem S_occUpper (hr : RecS ρ rec) {u v : UintLit} (hu : noPosU u = noPosU v) (h : Sim ρ p q) :
    Same3 ρ (parseOccUpper rec u p) (parseOccUpper rec v q) := by
  unfold parseOccUpper
  have hw : (p.peek = .INT ∧ p.peek.isLiteral p.peekLit = true) ↔ (q.peek = .INT ∧ q.peek.isLiteral q.peekLit = true) := by
    rw [← h.peek]
    refine and_congr_right fun hk => ?_
    rw [h.peekSame (by rw [hk]; simp)]
  simp only [hw, h.cur]
  split
  · rename_i hk
    refine Out.Same.bind (sim_nextc h) fun p1 q1 ⟨h1, hc1⟩ => ?_
    refine Same3.bind (S_uint (by rw [hc1, h.peek, hk.1]; simp) h1) (fun x y d d' a b hx hd hab => simE rfl hd hab) fun x y a b hx hab => ?_
    refine S_occItem hr (by simp [hu]) ?_ _ hab
    cases shape hx with
    | uintLit u v huv => simpa using huv
    | other a1 a2 a3 a4 a5 b1 b2 b3 b4 b5 =>
      have e1 : ∀ z : Node, (∀ u, z ≠ .uintLit u) →
          (match z with | .uintLit u => some u | _ => none : Option UintLit) = none := by
        intro z hz
        cases z <;> first | rfl | exact absurd rfl (hz _)
      exact congrArg _ ((e1 x a4).trans (e1 y b4).symm)
    | _ => rfl
  · exact Out.Same.bind (sim_next h) fun p1 q1 h1 => S_occItem hr (by simp [hu]) rfl _ h1

theorem S_occBad {x y : Node} {t : Tok} (hl : noPos (rename ρ x) = noPos y) (h : Sim ρ p q) :
    Same3 ρ (do
              let s ← x.start
              let e ← x.stop
              .ok (.nil, some ⟨.lowerType t, s, e⟩, p))
      (do let s ← y.start
          let e ← y.stop
          .ok (.nil, some ⟨.lowerType t, s, e⟩, q)) :=
  Out.Same.bind (sim_start hl) fun _ _ _ => Out.Same.bind (sim_stop hl) fun _ _ _ => simE rfl rfl h

theorem S_occurrence (hr : RecS ρ rec) (hl : noPos (rename ρ left) = noPos left') (h : Sim ρ p q) :
    Same3 ρ (parseOccurrence rec left p) (parseOccurrence rec left' q) := by
  have e1 : ∀ (x : Node) (p : PState), (∀ i, x ≠ .uintLit i) → (∀ a t v, x ≠ .intLit a t v) →
      parseOccurrence rec x p = (do
        let s ← x.start
        let e ← x.stop
        .ok (.nil, some ⟨.lowerType p.cur, s, e⟩, p)) := by
    intro x p h1 h2
    unfold parseOccurrence
    cases x <;> first | rfl | exact absurd rfl (h1 _) | exact absurd rfl (h2 _ _ _)
  have hb := S_occBad (t := p.cur) hl h
  cases hs : shape hl with
  | uintLit u v huv => exact S_occUpper hr huv h
  | intLit a b t v =>
    simp only [parseOccurrence]
    split
    · exact simE rfl (by simp only [dmr, dm, renameMsg, noPosMsg, h.cur]) h
    · exact S_occUpper hr rfl h
  | ident i j hij => rw [e1 _ _ (by simp) (by simp), e1 _ _ (by simp) (by simp), ← h.cur]; exact hb
  | floatLit => rw [e1 _ _ (by simp) (by simp), e1 _ _ (by simp) (by simp), ← h.cur]; exact hb
  | tstr => rw [e1 _ _ (by simp) (by simp), e1 _ _ (by simp) (by simp), ← h.cur]; exact hb
  | other a1 a2 a3 a4 a5 b1 b2 b3 b4 b5 => rw [e1 _ _ a4 a2, e1 _ _ b4 b2, ← h.cur]; exact hb

theorem S_size (hr : RecS ρ rec) (hi : p.cur ≠ .IDENT) (hl : noPos (rename ρ left) = noPos left') (h : Sim ρ p q) :
    Same3 ρ (parseSizeOperator rec left p) (parseSizeOperator rec left' q) := by
  unfold parseSizeOperator
  rw [sim_kind hl]
  have hbad : SimR ρ (.size p.pos p.cur .nil .nil, some (errUnsupported p.pos p.lit [.TSTR, .BSTR, .UINT]), p)
      (.size q.pos q.cur .nil .nil, some (errUnsupported q.pos q.lit [.TSTR, .BSTR, .UINT]), q) :=
    simE (by simp only [rename, noPos, h.cur]) (by simp only [dmr, dm, renameMsg, errUnsupported, noPosMsg, h.same hi]) h
  have hok := Same3.bind (S := SimR ρ) (S_nextEntry hr h)
    (f := fun x => match x with
      | (right, err, p') => match err with
        | some e => Out.ok (Node.size p.pos p.cur .nil left, some e, p')
        | none => .ok (.size p.pos p.cur right left, none, p'))
    (f' := fun x => match x with
      | (right, err, p') => match err with
        | some e => Out.ok (Node.size q.pos q.cur .nil left', some e, p')
        | none => .ok (.size q.pos q.cur right left', none, p'))
    (fun x y d d' a b hx hd hab => simE (by simp only [rename, noPos, hl, h.cur]) hd hab)
    fun x y a b hx hab => simR (by simp only [rename, noPos, hx, hl, h.cur]) hab
  cases left'.kind <;> first | exact hbad | exact hok

theorem S_regexp (hr : RecS ρ rec) (hl : noPos (rename ρ left) = noPos left') (h : Sim ρ p q) :
    Same3 ρ (parseRegexp rec left p) (parseRegexp rec left' q) := by
  have e1 : ∀ (x : Node) (p : PState), (∀ t, x ≠ .tstr t) → parseRegexp rec x p = .panic .nilDeref := by
    intro x p h1
    unfold parseRegexp
    cases x <;> first | rfl | exact absurd rfl (h1 _)
  cases shape hl with
  | tstr a b t =>
    simp only [parseRegexp, h.peek]
    split
    · exact simE (by simp only [rename, noPos, h.cur]) rfl h
    · exact Same3.bind (S_nextEntry hr h) (fun x y d d' a b hx hd hab => simE (by simp only [rename, noPos, h.cur]) hd hab)
        fun x y a b hx hab => simR (by simp only [rename, noPos, hx, h.cur]) hab
  | other a1 a2 a3 a4 a5 b1 b2 b3 b4 b5 => rw [e1 _ _ a5, e1 _ _ b5]; rfl
  | _ => rw [e1 _ _ (by simp), e1 _ _ (by simp)]; rfl

theorem S_wrap {x y : Node} (hl : noPos (rename ρ x) = noPos y) :
    Out.Same (fun a b => noPos (rename ρ a) = noPos b) (wrapBadNode x) (wrapBadNode y) :=
  Out.Same.bind (sim_start hl) fun _ _ _ => Out.Same.bind (sim_stop hl) fun _ _ _ => by
    show noPos (rename ρ _) = noPos _
    simp only [rename, noPos, hl]

theorem S_bits (hr : RecS ρ rec) (hl : noPos (rename ρ left) = noPos left') (h : Sim ρ p q) :
    Same3 ρ (parseBits rec left p) (parseBits rec left' q) := by
  unfold parseBits
  exact Same3.bind (S_nextEntry hr h) (fun x y d d' a b hx hd hab =>
      Out.Same.bind (S_wrap hx) fun u v huv => simE (by simp only [rename, noPos, huv, h.cur]) hd hab)
    fun x y a b hx hab => simR (by simp only [rename, noPos, hl, hx, h.cur]) hab

theorem S_list (hr : RecS ρ rec) (n : Nat) (close : Tok) {keep : Node → Bool}
    (hk : ∀ x y, noPos (rename ρ x) = noPos y → keep x = keep y) (h : Sim ρ p q) :
    Out.Same (fun x y => noPosL (renameL ρ x.1) = noPosL y.1 ∧ x.2.1.map (dmr ρ) = y.2.1.map dm ∧ Sim ρ x.2.2 y.2.2)
      (parseList rec n close keep p) (parseList rec n close keep q) := by
  unfold parseList
  refine Out.Same.bind (sim_next h) fun p1 q1 h1 => ?_
  refine same_loop (I := fun x y => noPosL (renameL ρ x.1) = noPosL y.1 ∧ Sim ρ x.2 y.2) ?_ n ⟨rfl, h1⟩
  rintro ⟨xs, p⟩ ⟨ys, q⟩ ⟨hxs, hs⟩
  unfold listStep
  simp only at hxs hs ⊢
  rw [hs.cur]
  split
  · exact ⟨hxs, rfl, hs⟩
  · refine Same3.bind (hr _ _ _ hs) (fun x y d d' a b hx hd hab => ⟨hxs, by simp [hd], hab⟩) fun x y a b hx hab => ?_
    refine Out.Same.bind (sim_next hab) fun a' b' hab' => ⟨?_, hab'⟩
    rw [renameL_map, noPosL_map, noPosL_map] at hxs ⊢
    simp only [hk x y hx]
    split
    · simp only [List.map_append, List.map_cons, List.map_nil, hxs, hx]
    · exact hxs

theorem keep_entry (x y : Node) (h : noPos (rename ρ x) = noPos y) : x.kind.isGroupEntry = y.kind.isGroupEntry := by
  rw [sim_kind h]

theorem keep_nonnil (x y : Node) (h : noPos (rename ρ x) = noPos y) : (!x.isNil) = !y.isNil := by
  rw [sim_isNil h]

theorem S_group (hr : RecS ρ rec) (n : Nat) (h : Sim ρ p q) : Same3 ρ (parseGroup rec n p) (parseGroup rec n q) := by
  unfold parseGroup
  refine Out.Same.bind (S_list hr n _ keep_entry h) ?_
  rintro ⟨xs, d, p⟩ ⟨ys, d', q⟩ ⟨h1, h2, h3⟩
  exact ⟨by simp only [rename, noPos, h1], h2, h3⟩

theorem S_map (hr : RecS ρ rec) (n : Nat) (h : Sim ρ p q) : Same3 ρ (parseMap rec n p) (parseMap rec n q) := by
  unfold parseMap
  refine Out.Same.bind (S_list hr n _ keep_nonnil h) ?_
  rintro ⟨xs, d, p⟩ ⟨ys, d', q⟩ ⟨h1, h2, h3⟩
  exact ⟨by simp only [rename, noPos, h1], h2, h3⟩

theorem S_array (hr : RecS ρ rec) (n : Nat) (h : Sim ρ p q) : Same3 ρ (parseArray rec n p) (parseArray rec n q) := by
  unfold parseArray
  refine Out.Same.bind (S_list hr n _ keep_entry h) ?_
  rintro ⟨xs, d, p⟩ ⟨ys, d', q⟩ ⟨h1, h2, h3⟩
  exact ⟨by simp only [rename, noPos, h1], h2, h3⟩

theorem S_comparator (hr : RecS ρ rec) (hi : p.cur ≠ .IDENT) (hl : noPos (rename ρ left) = noPos left') (h : Sim ρ p q) :
    Same3 ρ (parseComparatorOp rec left p) (parseComparatorOp rec left' q) := by
  unfold parseComparatorOp
  rw [sim_kind hl]
  have hbad : SimR ρ (.nil, some (errUnsupported p.pos p.lit [.INT, .FLOAT, .UINT]), p)
      (.nil, some (errUnsupported q.pos q.lit [.INT, .FLOAT, .UINT]), q) :=
    simE rfl (by simp only [dmr, dm, renameMsg, errUnsupported, noPosMsg, h.same hi]) h
  have hok := Same3.bind (S := SimR ρ) (S_nextEntry hr h)
    (f := fun x => match x with
      | (right, err, p') => match err with
        | some e => Out.ok (Node.badNode {} p'.cur (.typedNil .intType) {}, some e, p')
        | none => .ok (.comparator p.pos p.cur p.lit (.typedNil .intType) right, none, p'))
    (f' := fun x => match x with
      | (right, err, p') => match err with
        | some e => Out.ok (Node.badNode {} p'.cur (.typedNil .intType) {}, some e, p')
        | none => .ok (.comparator q.pos q.cur q.lit (.typedNil .intType) right, none, p'))
    (fun x y d d' a b hx hd hab => simE (by simp only [rename, noPos, hab.cur]) hd hab)
    fun x y a b hx hab => simR (by simp only [rename, noPos, hx, h.cur, h.same hi]) hab
  cases left'.kind <;> first | exact hbad | exact hok

theorem S_identBound (hr : RecS ρ rec) {i j : Ident} (hij : ρ i.name = j.name) (h : Sim ρ p q) :
    Same3 ρ (parseIdentBound rec i p) (parseIdentBound rec j q) := by
  unfold parseIdentBound
  exact Same3.bind (S_nextEntry hr h) (fun x y d d' a b hx hd hab => simE (by simp only [rename, noPos, hij, h.cur]) hd hab)
    fun x y a b hx hab => simR (by simp only [rename, noPos, hij, hx, h.cur])
      (sim_addTask hab (by simp only [renameTask, noPosTask, hij, hx, h.cur]))

theorem S_intBound (hr : RecS ρ rec) (hl : noPos (rename ρ left) = noPos left') (h : Sim ρ p q) :
    Same3 ρ (parseIntBound rec left p) (parseIntBound rec left' q) := by
  unfold parseIntBound
  refine Same3.bind (S_nextEntry hr h) (fun x y d d' a b hx hd hab => simE (by simp only [rename, noPos, hl, h.cur]) hd hab)
    fun x y a b hx hab => ?_
  have hdef : SimR ρ (.range p.pos p.cur left .nil, none, a) (.range q.pos q.cur left' .nil, none, b) :=
    simR (by simp only [rename, noPos, hl, h.cur]) hab
  cases shape hx with
  | intLit => exact simR (by simp only [rename, noPos, hl, h.cur]) hab
  | floatLit => exact simE (by simp only [rename, noPos, hl, h.cur]) rfl hab
  | ident i j hij => exact simR (by simp only [rename, noPos, hl, hij, h.cur]) (sim_addTask hab (by simp only [renameTask, noPosTask, hij]))
  | uintLit => exact hdef
  | tstr => exact hdef
  | other a1 a2 a3 a4 a5 b1 b2 b3 b4 b5 =>
    simp only
    exact hdef

theorem S_floatBound (hr : RecS ρ rec) (hl : noPos (rename ρ left) = noPos left') (h : Sim ρ p q) :
    Same3 ρ (parseFloatBound rec left p) (parseFloatBound rec left' q) := by
  unfold parseFloatBound
  refine Same3.bind (S_nextEntry hr h) (fun x y d d' a b hx hd hab => simE (by simp only [rename, noPos, hl, h.cur]) hd hab)
    fun x y a b hx hab => ?_
  have hdef : SimR ρ (.range p.pos p.cur left .nil, none, a) (.range q.pos q.cur left' .nil, none, b) :=
    simR (by simp only [rename, noPos, hl, h.cur]) hab
  cases shape hx with
  | floatLit => exact simR (by simp only [rename, noPos, hl, h.cur]) hab
  | intLit => exact simE (by simp only [rename, noPos, hl, h.cur]) rfl hab
  | ident i j hij => exact simR (by simp only [rename, noPos, hl, hij, h.cur]) (sim_addTask hab (by simp only [renameTask, noPosTask, hij]))
  | uintLit => exact hdef
  | tstr => exact hdef
  | other a1 a2 a3 a4 a5 b1 b2 b3 b4 b5 =>
    simp only
    exact hdef

theorem S_bound (hr : RecS ρ rec) (hl : noPos (rename ρ left) = noPos left') (h : Sim ρ p q) :
    Same3 ρ (parseBound rec left p) (parseBound rec left' q) := by
  have hdef : Same3 ρ (.ok (.range {} .ILLEGAL .nil .nil, none, p)) (.ok (.range {} .ILLEGAL .nil .nil, none, q)) :=
    simR rfl h
  unfold parseBound
  cases hs : shape hl with
  | intLit => exact S_intBound hr hl h
  | floatLit => exact S_floatBound hr hl h
  | ident i j hij => exact S_identBound hr hij h
  | uintLit => exact hdef
  | tstr => exact hdef
  | other a1 a2 a3 a4 a5 b1 b2 b3 b4 b5 =>
    split
    · exact absurd rfl (a2 _ _ _)
    · exact absurd rfl (a3 _ _ _)
    · exact absurd rfl (a1 _)
    · exact hdef

/-! ### Entries -/

theorem S_nud (hr : RecS ρ rec) (n : Nat) (t : Tok) {f} (hf : nudOf rec n t = some f) (hi : p.cur = t) (h : Sim ρ p q) :
    Same3 ρ (f p) (f q) := by
  cases t <;> simp only [nudOf, Option.some.injEq, reduceCtorEq] at hf <;> subst hf <;>
    first
    | exact S_named hi h | exact S_boolType h | exact S_boolLit (by simp [hi]) h | exact S_tstr h
    | exact S_text (by simp [hi]) h | exact S_float (by simp [hi]) h
    | exact S_uint (by simp [hi]) h | exact S_int (by simp [hi]) h | exact S_nint h | exact S_bstr h | exact S_bytes h | exact S_null h
    | exact S_map hr n h | exact S_group hr n h | exact S_array hr n h | exact S_comment n (by simp [hi]) h | exact S_optional hr h
    | exact S_occurrence hr rfl h | exact S_unwrap hr h | exact S_tag hr h | exact S_enumeration hr h

theorem S_led (hr : RecS ρ rec) (t : Tok) {f} (hf : ledOf rec t = some f) (hi : p.cur = t) (hl : noPos (rename ρ left) = noPos left')
    (h : Sim ρ p q) : Same3 ρ (f left p) (f left' q) := by
  cases t <;> simp only [ledOf, Option.some.injEq, reduceCtorEq] at hf <;> subst hf <;>
    first
    | exact S_colon hr (by simp [hi]) hl h | exact S_typeChoice hr hl h | exact S_comparator hr (by simp [hi]) hl h | exact S_size hr (by simp [hi]) hl h
    | exact S_regexp hr hl h | exact S_bits hr hl h | exact S_bound hr hl h | exact S_occurrence hr hl h
    | exact S_comma hl h

theorem S_skip (n : Nat) (h : Sim ρ p q) : Out.Same (Sim ρ) (skipComment n p) (skipComment n q) := by
  unfold skipComment
  rw [h.cur]
  split
  · rename_i hk
    refine Out.Same.bind (S_comment n (by rw [h.cur, hk]; simp) h) ?_
    rintro ⟨_, _, a⟩ ⟨_, _, b⟩ ⟨_, _, hab⟩
    exact sim_next hab
  · exact h

theorem S_body (hr : RecS ρ rec) (n prec : Nat) (h : Sim ρ p q) :
    Same3 ρ (parseEntryBody rec n prec p) (parseEntryBody rec n prec q) := by
  unfold parseEntryBody
  refine Out.Same.bind (S_skip n h) fun p q h => ?_
  have hsel : selectNud rec n p = selectNud rec n q := by unfold selectNud; rw [h.cur, h.peek]
  rw [hsel]
  cases hs : selectNud rec n q with
  | none => exact simE rfl (by simp only [dmr, dm, renameMsg, errPrefix, noPosMsg, h.cur]) h
  | some nud =>
    have hn : Same3 ρ (nud p) (nud q) := by
      unfold selectNud at hs
      split at hs
      · rename_i hk
        cases hs; exact S_identifier (h.cur.trans hk.1) h
      · exact S_nud hr n _ hs h.cur h
    refine Same3.bind hn (fun x y d d' a b hx hd hab => simE hx hd hab) fun x y a b hx hab => ?_
    refine same_loop (I := fun x y => noPos (rename ρ x.1) = noPos y.1 ∧ Sim ρ x.2 y.2) ?_ n ⟨hx, hab⟩
    rintro ⟨x, a⟩ ⟨y, b⟩ ⟨hx, hab⟩
    unfold ledStep
    simp only at hx hab ⊢
    rw [hab.cur, hab.peek]
    split
    · split
      · exact simR hx hab
      · rename_i led hled
        refine Out.Same.bind (sim_nextc hab) fun a' b' ⟨hab', hc'⟩ => ?_
        exact Same3.bind (S_led hr _ hled (hc'.trans hab.peek) hx hab') (fun x y d d' a b hx hd hab => simE hx hd hab)
          fun x y a b hx hab => ⟨hx, hab⟩
    · exact simR hx hab

theorem S_entry (n : Nat) : RecS ρ (parseEntry n) := by
  induction n with
  | zero => intro _ _ _ _; trivial
  | succ n ih => intro prec p q h; exact S_body ih n prec h

/-! ### Rules -/

theorem find_noPos {k : Bytes} {xs : List (Bytes × Node)} :
    (assocFind k xs).map noPos = assocFind k (xs.map fun b => (b.1, noPos b.2)) := by
  induction xs with
  | nil => rfl
  | cons b xs ih =>
    obtain ⟨a, x⟩ := b
    simp only [assocFind, List.map_cons]
    split
    · rfl
    · exact ih

theorem find_rename (hρ : Renaming ρ) {k : Bytes} {xs : List (Bytes × Node)} :
    (assocFind k xs).map (rename ρ) = assocFind (ρ k) (xs.map fun b => (ρ b.1, rename ρ b.2)) := by
  induction xs with
  | nil => rfl
  | cons b xs ih =>
    obtain ⟨a, x⟩ := b
    simp only [assocFind, List.map_cons]
    by_cases hk : a = k
    · simp [hk]
    · rw [if_neg hk, if_neg fun h => hk (hρ.inj _ _ h), ih]

theorem env_find (hρ : Renaming ρ) {e e' : Env} (h : noPosEnv (renameEnv ρ e) = noPosEnv e') (k : Bytes) :
    (assocFind k e.symbols).map (fun x => noPos (rename ρ x)) = (assocFind (ρ k) e'.symbols).map noPos := by
  have h1 := find_noPos (k := ρ k) (xs := e'.symbols)
  have h2 := find_noPos (k := ρ k) (xs := (renameEnv ρ e).symbols)
  have h3 := find_rename hρ (k := k) (xs := e.symbols)
  unfold noPosEnv at h
  rw [h, ← h1] at h2
  rw [← h2]
  show _ = Option.map noPos (assocFind (ρ k) (e.symbols.map fun b => (ρ b.1, rename ρ b.2)))
  rw [← h3, Option.map_map]
  rfl

theorem env_exists (hρ : Renaming ρ) {e e' : Env} (h : noPosEnv (renameEnv ρ e) = noPosEnv e') (k : Bytes) :
    e.exists? k = e'.exists? (ρ k) := by
  have := congrArg Option.isSome (env_find hρ h k)
  simpa [Env.exists?] using this

theorem env_get (hρ : Renaming ρ) {e e' : Env} (h : noPosEnv (renameEnv ρ e) = noPosEnv e') (k : Bytes) :
    noPos (rename ρ (e.get k)) = noPos (e'.get (ρ k)) := by
  have h1 := env_find hρ h k
  unfold Env.get
  cases e1 : assocFind k e.symbols <;> cases e2 : assocFind (ρ k) e'.symbols <;> rw [e1, e2] at h1 <;> simp at h1
  · rfl
  · simpa only [e1, e2] using h1

theorem S_declare {i j : Ident} (hij : ρ i.name = j.name) {x y : Node} (hx : noPos (rename ρ x) = noPos y) (h : Sim ρ p q) :
    Out.Same (Sim ρ) (declare i x p) (declare j y q) := by
  unfold declare Env.add
  rw [← hij, env_exists h.ok h.env]
  by_cases he : q.env.exists? (ρ i.name) = true
  · simp only [he, if_true]
    exact Out.Same.bind (sim_start (env_get h.ok h.env _)) fun _ _ _ =>
      sim_addError { h with } (by simp only [dmr, dm, renameMsg, noPosMsg])
  · simp only [he]
    exact { h with env := by simpa [noPosEnv, renameEnv, hx] using h.env }

theorem S_trailing (h : Sim ρ p q) :
    Out.Same (fun x y => x.1.map (fun c => (⟨{}, c.text⟩ : Comment)) = y.1.map (fun c => (⟨{}, c.text⟩ : Comment)) ∧
      Sim ρ x.2 y.2) p.ruleTrailing q.ruleTrailing := by
  unfold ruleTrailing
  have hc : (p.peek = .COMMENT ∧ sameLine p.pos p.peekPos = true) ↔
      (q.peek = .COMMENT ∧ sameLine q.pos q.peekPos = true) := by
    rw [← h.peek]
    simp only [sameLine, decide_eq_true_eq]
    exact and_congr_right fun hk => h.line hk
  simp only [hc]
  split
  · rename_i hk
    refine Out.Same.bind (sim_nextc h) fun a b ⟨hab, hc'⟩ => Out.Same.bind (sim_next hab) fun a' b' hab' => ⟨?_, hab'⟩
    simp only [Option.map_some, inner_text (hab.same (by rw [hc', h.peek, hk.1]; simp))]
  · exact ⟨rfl, h⟩

theorem S_rule (n : Nat) (h : Sim ρ p q) : Same3 ρ (parseRule n p) (parseRule n q) := by
  have h1 : Same3 ρ (.ok (.nil, some (errExpected p.pos .IDENT), p)) (.ok (.nil, some (errExpected q.pos .IDENT), q)) :=
    simE rfl rfl h
  unfold parseRule
  rw [h.cur]
  cases hc : q.cur <;> first | exact h1 | exact S_comment n (by rw [h.cur, hc]; simp) h | skip
  have hn : ρ p.lit = q.lit := h.name (h.cur.trans hc)
  refine Out.Same.bind (sim_next h) fun a b hab => ?_
  have h2 : Same3 ρ (.ok (.nil, some ⟨.expectedAssign p.lit, p.pos, p.pos⟩, a))
      (.ok (.nil, some ⟨.expectedAssign q.lit, q.pos, q.pos⟩, b)) :=
    simE rfl (by simp only [dmr, dm, renameMsg, noPosMsg, hn]) hab
  have h3 : Same3 ρ (do
      let p2 ← a.next
      let (entry, err, p3) ← parseEntry n 0 p2
      match err with
      | some e => .ok (.rule {} ⟨p.pos, p.lit⟩ .nil none, some e, p3)
      | none => do
        let (tc, p4) ← p3.ruleTrailing
        .ok (.rule {} ⟨p.pos, p.lit⟩ entry tc, none, p4)) (do
      let p2 ← b.next
      let (entry, err, p3) ← parseEntry n 0 p2
      match err with
      | some e => .ok (.rule {} ⟨q.pos, q.lit⟩ .nil none, some e, p3)
      | none => do
        let (tc, p4) ← p3.ruleTrailing
        .ok (.rule {} ⟨q.pos, q.lit⟩ entry tc, none, p4)) := by
    refine Out.Same.bind (sim_next hab) fun a2 b2 hab2 => ?_
    refine Same3.bind (S_entry n _ _ _ hab2) (fun x y d d' a b hx hd hab => simE (by simp only [rename, noPos, hn]) hd hab)
      fun x y a3 b3 hx hab3 => ?_
    refine Out.Same.bind (S_trailing hab3) ?_
    rintro ⟨tc, a4⟩ ⟨tc', b4⟩ ⟨ht, h4⟩
    exact simR (by simp only [rename, noPos, hx, hn, ht]) h4
  rw [hab.cur]
  cases hd : b.cur <;> first | exact h2 | exact h3 | skip
  refine Same3.bind (S_nextEntry (S_entry n) hab)
    (fun x y d d' a b hx hd hab => simE (by simp only [rename, noPos, hn]) hd hab) fun x y a3 b3 hx hab3 => ?_
  refine Out.Same.bind (S_trailing hab3) ?_
  rintro ⟨tc, a4⟩ ⟨tc', b4⟩ ⟨ht, h4⟩
  exact Out.Same.bind (S_declare (show ρ (⟨p.pos, p.lit⟩ : Ident).name = (⟨q.pos, q.lit⟩ : Ident).name from hn) hx h4)
    fun a5 b5 h5 => simR (by simp only [rename, noPos, hx, hn, ht]) h5

theorem S_task (hρ : Renaming ρ) {e e' : Env} (h : noPosEnv (renameEnv ρ e) = noPosEnv e') {t t' : Task} (ht : noPosTask (renameTask ρ t) = noPosTask t') :
    (runTask e t).map (dmr ρ) = (runTask e' t').map dm := by
  cases t <;> cases t' <;> simp only [renameTask, noPosTask, reduceCtorEq, Task.exists.injEq, Task.identBound.injEq,
    Task.intBound.injEq, Task.floatBound.injEq, and_true, Ident.mk.injEq, true_and] at ht
  · subst ht
    simp only [runTask, env_exists hρ h]
    split <;> rfl
  · obtain ⟨rfl, h1, h2⟩ := ht
    rename_i tok l to _ to'
    cases shape h2 with
    | ident i j hij =>
      simp only [runTask, ← h1, ← hij, sim_kind (env_get hρ h _)]
      split
      · rfl
      · rfl
    | other a1 a2 a3 a4 a5 b1 b2 b3 b4 b5 =>
      have e1 : ∀ (e : Env) (t : Tok) (l : Ident) (z : Node), (∀ i, z ≠ .ident i) →
          runTask e (.identBound t l z) = none := by
        intro e t l z hz
        cases z <;> first | rfl | exact absurd rfl (hz _)
      rw [e1 _ _ _ _ a1, e1 _ _ _ _ b1]
      rfl
    | _ => rfl
  · subst ht
    simp only [runTask, env_exists hρ h, sim_kind (env_get hρ h _)]
    split
    · rfl
    · split <;> rfl
  · subst ht
    simp only [runTask, env_exists hρ h, sim_kind (env_get hρ h _)]
    split
    · rfl
    · split <;> rfl

theorem S_tasks (hρ : Renaming ρ) {e e' : Env} (h : noPosEnv (renameEnv ρ e) = noPosEnv e') {ts ts' : List Task}
    (ht : ts.map (fun t => noPosTask (renameTask ρ t)) = ts'.map noPosTask) :
    (ts.filterMap (runTask e)).map (dmr ρ) = (ts'.filterMap (runTask e')).map dm := by
  induction ts generalizing ts' with
  | nil =>
    cases ts' with
    | nil => rfl
    | cons _ _ => simp at ht
  | cons t ts ih =>
    cases ts' with
    | nil => simp at ht
    | cons t' ts' =>
      simp only [List.map_cons, List.cons.injEq] at ht
      have h1 := S_task hρ h ht.1
      have h2 := ih ht.2
      simp only [List.filterMap_cons]
      cases e1 : runTask e t <;> cases e2 : runTask e' t' <;> rw [e1, e2] at h1 <;> simp at h1
      · exact h2
      · simp [h1, h2]

/-- The loop over the rules. -/
theorem S_loop (n k : Nat) {xs ys : List Node} (hxs : noPosL (renameL ρ xs) = noPosL ys) (h : Sim ρ p q) :
    Out.Same (fun x y => noPosL (renameL ρ x.1) = noPosL y.1 ∧ Sim ρ x.2 y.2) (loopOut (fileStep n) k (xs, p))
      (loopOut (fileStep n) k (ys, q)) := by
  refine same_loop (I := fun x y => noPosL (renameL ρ x.1) = noPosL y.1 ∧ Sim ρ x.2 y.2) ?_ k ⟨hxs, h⟩
  rintro ⟨xs, p⟩ ⟨ys, q⟩ ⟨hxs, hs⟩
  unfold fileStep
  simp only at hxs hs ⊢
  rw [hs.cur]
  split
  · exact ⟨hxs, hs⟩
  · have hl : ∀ {x y : Node}, noPos (rename ρ x) = noPos y →
        noPosL (renameL ρ (if x.isNil then xs else xs ++ [x])) = noPosL (if y.isNil then ys else ys ++ [y]) := by
      intro x y hx
      rw [sim_isNil hx]
      rw [renameL_map, noPosL_map, noPosL_map] at hxs ⊢
      split
      · exact hxs
      · simp only [List.map_append, List.map_cons, List.map_nil, hxs, hx]
    exact Same3.bind (S_rule n hs)
      (fun x y d d' a b hx hd hab => Out.Same.bind (sim_next (sim_addError hab hd)) fun a' b' h' => ⟨hl hx, h'⟩)
      fun x y a b hx hab => Out.Same.bind (sim_next hab) fun a' b' h' => ⟨hl hx, h'⟩

theorem S_file (n : Nat) (h : Sim ρ p q) (he : p.lx.errors = [] ↔ q.lx.errors = []) :
    RenamedOutcome ρ (parseFile n p) (parseFile n q) := by
  have hconv : ∀ o o' : Out FileResult, Out.Same (RenamedResult ρ) o o' → RenamedOutcome ρ o o' := by
    intro o o' h
    cases o <;> cases o' <;> first | exact h | exact h.elim
  refine hconv _ _ ?_
  unfold parseFile
  simp only [ne_eq, he]
  split
  · exact ⟨rfl, rfl, h.env⟩
  · refine Out.Same.bind (R := fun x y => noPosL (renameL ρ x.1) = noPosL y.1 ∧ Sim ρ x.2 y.2) ?_ ?_
    · exact S_loop n n rfl h
    · rintro ⟨xs, p⟩ ⟨ys, q⟩ ⟨hxs, hs⟩
      refine ⟨by simpa using hxs, ?_, hs.env⟩
      show (p.errors ++ p.tasks.filterMap (runTask p.env)).map (dmr ρ) = (q.errors ++ q.tasks.filterMap (runTask q.env)).map dm
      rw [List.map_append, List.map_append, hs.errs, S_tasks hs.ok hs.env hs.tasks]

/-- Two sources whose tokens are alike. -/
theorem S_source (hρ : Renaming ρ) (n : Nat) {src src' : Bytes} {env env' : Env} (he : noPosEnv (renameEnv ρ env) = noPosEnv env')
    (h : ∀ k, RenamedToks ρ k 0 (Lexer.new src) 0 (Lexer.new src')) :
    RenamedOutcome ρ (parseSource n src env) (parseSource n src' env') := by
  have hconv : ∀ o o' : Out FileResult, Out.Same (RenamedResult ρ) o o' → RenamedOutcome ρ o o' := by
    intro o o' h
    cases o <;> cases o' <;> first | exact h | exact h.elim
  have hback : ∀ o o' : Out FileResult, RenamedOutcome ρ o o' → Out.Same (RenamedResult ρ) o o' := by
    intro o o' h
    cases o <;> cases o' <;> first | exact h | exact h.elim
  refine hconv _ _ ?_
  unfold parseSource
  refine Out.Same.bind (R := fun p q => Sim ρ p q ∧ (p.lx.errors = [] ↔ q.lx.errors = [])) ?_
    fun p q h => hback _ _ (S_file n h.1 h.2)
  unfold PState.new
  have h0 : Sim ρ ⟨Lexer.new src, [], {}, {}, .ILLEGAL, .ILLEGAL, [], [], env, []⟩
      ⟨Lexer.new src', [], {}, {}, .ILLEGAL, .ILLEGAL, [], [], env', []⟩ :=
    ⟨hρ, rfl, rfl, rfl, rfl, rfl, rfl, he, fun hk => absurd hk (by simp), h⟩
  exact Out.Same.bind (sim_next h0) fun a b hab => (sim_next' hab).mono fun _ _ h => ⟨h.1.1, h.2⟩

end Cddlc
