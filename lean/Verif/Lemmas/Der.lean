import Verif.Lemmas.Reach

/-! What a successful parse of an entry consists of, as an inductive relation without fuel,
precedences or failures. -/

namespace Cddlc
variable [Unicode]

/-- Nodes made of the current token only. -/
inductive Leaf (p : PState) : Node → Prop
  | boolType : p.cur = .BOOL → Leaf p (.boolType p.pos p.cur)
  | true : p.cur = .TRUE ∨ p.cur = .FALSE → p.lit = b!"true" →
      Leaf p (.boolLit ⟨p.pos, p.pos.to 3⟩ Bool.true)
  | false : p.cur = .TRUE ∨ p.cur = .FALSE → p.lit = b!"false" →
      Leaf p (.boolLit ⟨p.pos, p.pos.to 4⟩ Bool.false)
  | tstr : p.cur = .TSTR ∨ p.cur = .TEXT → Leaf p (.tstr ⟨p.pos, p.cur⟩)
  | text : p.cur = .TEXT_LITERAL → Leaf p (.textLit p.pos p.cur p.lit)
  | floatLit {v} : (p.cur = .FLOAT ∨ p.cur = .FLOAT16 ∨ p.cur = .FLOAT32 ∨ p.cur = .FLOAT64) →
      p.cur.isLiteral p.lit = Bool.true → parseFloat p.lit = .ok v →
      Leaf p (.floatLit ⟨p.pos, p.pos.to ((p.lit.length : Int) - 1)⟩ p.cur v)
  | floatType : (p.cur = .FLOAT ∨ p.cur = .FLOAT16 ∨ p.cur = .FLOAT32 ∨ p.cur = .FLOAT64) →
      p.cur.isLiteral p.lit = Bool.false → Leaf p (.floatType p.pos p.cur)
  | uintLit {v} : p.cur = .UINT → p.cur.isLiteral p.lit = Bool.true → parseUint p.lit = .ok v →
      Leaf p (.uintLit ⟨p.pos, p.cur, v⟩)
  | uintType : p.cur = .UINT → p.cur.isLiteral p.lit = Bool.false →
      Leaf p (.uintType ⟨p.pos, p.pos.to 4⟩ p.cur)
  | intLit {v} : p.cur = .INT → p.cur.isLiteral p.lit = Bool.true → parseInt p.lit = .ok v →
      Leaf p (.intLit p.pos p.cur v)
  | intType : p.cur = .INT → p.cur.isLiteral p.lit = Bool.false → Leaf p (.intType p.pos p.cur)
  | nint : p.cur = .NINT → Leaf p (.nintType p.pos p.cur)
  | bstr : p.cur = .BSTR → Leaf p (.bstr p.pos p.cur)
  | bytes : p.cur = .BYTES → Leaf p (.bytes p.pos p.cur)
  | null : p.cur = .NULL ∨ p.cur = .NIL → Leaf p (.null p.pos p.cur)

/-- The comments read after the one `p` is at. -/
inductive Comments : PState → List Comment → PState → Prop
  | stop {p} : p.peek ≠ .COMMENT → Comments p [] p
  | more {p q r cs} : p.peek = .COMMENT → p.next = .ok q → Comments q cs r →
      Comments p (⟨q.pos, q.lit⟩ :: cs) r

/-- Between an occurrence mark and its item: the optional upper bound. -/
inductive OccHead (p : PState) : Option UintLit → PState → Prop
  | none {q} : ¬ (p.peek = .INT ∧ p.peek.isLiteral p.peekLit = true) → p.next = .ok q →
      OccHead p none q
  | some {q v} : p.peek = .INT → p.peek.isLiteral p.peekLit = true → p.next = .ok q →
      parseUint q.lit = .ok v → OccHead p (some ⟨q.pos, q.cur, v⟩) q

/-- The numbers of a tag. -/
inductive TagHead (p : PState) : Option UintLit → Option UintLit → PState → Prop
  | none : p.peek ≠ .INT → p.peek ≠ .FLOAT → TagHead p none none p
  | major {q v} : p.peek = .INT → p.next = .ok q → parseUint q.lit = .ok v →
      TagHead p (some { value := v }) none q
  | both {q a b} : p.peek = .FLOAT → p.next = .ok q → q.parseFloatTag = .ok (a, b) →
      TagHead p (some a) (some b) q

/-- A comment behind an entry, on its line. -/
inductive Trail (p : PState) : Option Comment → PState → Prop
  | none : ¬ (p.peek = .COMMENT ∧ p.pos.line = p.peekPos.line) → Trail p none p
  | some {q} : p.peek = .COMMENT → p.pos.line = p.peekPos.line → p.next = .ok q →
      Trail p (some ⟨q.pos, q.lit⟩) q

/-- The name of an entry, from what stands before the colon. -/
inductive EntryName (pos : Pos) : Node → Ident → Prop
  | ident (i) : EntryName pos (.ident i) i
  | int (p' t v) : EntryName pos (.intLit p' t v) ⟨pos, decInt v⟩

/-- The lower bound of an occurrence, from what stands before the mark. -/
inductive OccLow : Node → UintLit → Prop
  | uint (u) : OccLow (.uintLit u) u
  | int {pos t v} : 0 ≤ v → OccLow (.intLit pos t v) ⟨pos, .UINT, v.toNat⟩

/-- `Der false p [x] q`: parsing an entry at `p` yields `x` and stops at `q`.
`Der true p xs q`: parsing entries one after the other yields `xs`. -/
inductive Der : Bool → PState → List Node → PState → Prop
  | nil (p) : Der true p [] p
  | cons {p q q1 r x xs} : Der false p [x] q → q.next = .ok q1 → Der true q1 xs r →
      Der true p (x :: xs) r
  | skip {p q q1 r x cs} : p.cur = .COMMENT → Comments p cs q → q.next = .ok q1 →
      Der false q1 [x] r → Der false p [x] r
  | leaf {p x} : Leaf p x → Der false p [x] p
  | ref {p c s} : p.cur = .IDENT → p.lit = c :: s → c ≠ 36 →
      Der false p [.ident ⟨p.pos, p.lit⟩] (p.addTask (.exists p.lit p.pos))
  | socket {p s} : p.cur = .IDENT → p.lit = 36 :: s → Der false p [.ident ⟨p.pos, p.lit⟩] p
  | field {p q q1 r r' v t} : p.cur = .IDENT → p.peek = .COLON → p.next = .ok q → q.next = .ok q1 →
      Der false q1 [v] r → Trail r t r' →
      Der false p [.entry q.pos ⟨p.pos, p.lit⟩ v t] r'
  | group {p q r es} : p.cur = .LPAREN → p.next = .ok q → Der true q es r → r.cur = .RPAREN →
      Der false p [.group p.pos (es.filter (·.kind.isGroupEntry))] r
  | array {p q r es} : p.cur = .LBRACK → p.next = .ok q → Der true q es r → r.cur = .RBRACK →
      Der false p [.array p.pos (es.filter (·.kind.isGroupEntry))] r
  | map {p q r es} : p.cur = .LBRACE → p.next = .ok q → Der true q es r → r.cur = .RBRACE →
      Der false p [.map p.pos (es.filter (fun e => !e.isNil))] r
  | optional {p q r x} : p.cur = .OPTIONAL → p.next = .ok q → Der false q [x] r →
      Der false p [.optional p.pos p.cur x] r
  | unwrap {p q r x} : p.cur = .UNWRAP → p.next = .ok q → Der false q [x] r →
      Der false p [.unwrap p.pos p.cur x] r
  | enumeration {p q r x} : p.cur = .AMPERSAND → p.next = .ok q → Der false q [x] r →
      Der false p [.enumeration p.pos p.cur x] r
  | occ0 {p q r m x} : p.cur = .ZERO_OR_MORE → OccHead p m q → Der false q [x] r →
      Der false p [.nm p.pos p.cur (some ⟨p.pos, .UINT, 0⟩) m x] r
  | occ1 {p q r m x} : p.cur = .ONE_OR_MORE → OccHead p m q → Der false q [x] r →
      Der false p [.nm p.pos p.cur (some ⟨p.pos, .UINT, 1⟩) m x] r
  | tag {p q a b} : p.cur = .HASH → TagHead p a b q → q.peek ≠ .LPAREN →
      Der false p [.tag p.pos p.cur a b .nil] q
  | tagItem {p q q1 q2 r r' a b x} : p.cur = .HASH → TagHead p a b q → q.peek = .LPAREN →
      q.next = .ok q1 → q1.next = .ok q2 → Der false q2 [x] r →
      (r.peek ≠ .RPAREN ∧ r' = r) ∨ (r.peek = .RPAREN ∧ r.next = .ok r') →
      Der false p [.tag p.pos p.cur a b x] r'
  | colon {p q q1 q2 r r' left name v t} : Der false p [left] q →
      q.peek = .COLON ∨ q.peek = .ARROW_MAP → q.next = .ok q1 → EntryName q1.pos left name →
      q1.next = .ok q2 → Der false q2 [v] r → Trail r t r' →
      Der false p [.entry q1.pos name v t] r'
  | comma {p q r left} : Der false p [left] q → q.peek = .COMMA → q.next = .ok r →
      Der false p [left] r
  | choice {p q q1 q2 r left sec} : Der false p [left] q →
      q.peek = .TYPE_CHOICE ∨ q.peek = .GROUP_CHOICE → q.next = .ok q1 → q1.next = .ok q2 →
      Der false q2 [sec] r → Der false p [.typeChoice q1.pos q1.cur left sec] r
  | size {p q q1 q2 r left sz} : Der false p [left] q → q.peek = .SIZE → q.next = .ok q1 →
      left.kind = .bstr ∨ left.kind = .uintType ∨ left.kind = .tstr → q1.next = .ok q2 →
      Der false q2 [sz] r → Der false p [.size q1.pos q1.cur sz left] r
  | regexp {p q q1 q2 r base rx} : Der false p [.tstr base] q → q.peek = .REGEXP → q.next = .ok q1 →
      q1.peek = .TEXT_LITERAL ∨ q1.peek = .IDENT → q1.next = .ok q2 → Der false q2 [rx] r →
      Der false p [.regexp q1.pos q1.cur base rx] r
  | bits {p q q1 q2 r left c} : Der false p [left] q → q.peek = .BITS → q.next = .ok q1 →
      q1.next = .ok q2 → Der false q2 [c] r → Der false p [.bits q1.pos q1.cur left c] r
  | compare {p q q1 q2 r left right} : Der false p [left] q →
      q.peek ∈ [Tok.LT, .LE, .GT, .GE, .EQ, .NE] → q.next = .ok q1 →
      left.kind = .uintType ∨ left.kind = .intType ∨ left.kind = .floatType → q1.next = .ok q2 →
      Der false q2 [right] r →
      Der false p [.comparator q1.pos q1.cur q1.lit (.typedNil .intType) right] r
  | occ {p q q1 q2 r left u m x} : Der false p [left] q →
      q.peek = .ZERO_OR_MORE ∨ q.peek = .ONE_OR_MORE → q.next = .ok q1 → OccLow left u →
      OccHead q1 m q2 → Der false q2 [x] r → Der false p [.nm q1.pos q1.cur (some u) m x] r
  | rangeEmpty {p q q1 left} : Der false p [left] q →
      q.peek = .INCLUSIVE_BOUND ∨ q.peek = .EXCLUSIVE_BOUND → q.next = .ok q1 →
      left.kind ≠ .intLit ∨ left = .typedNil .intLit → left.kind ≠ .floatLit ∨ left = .typedNil .floatLit →
      left.kind ≠ .ident ∨ left = .typedNil .ident →
      Der false p [.range {} .ILLEGAL .nil .nil] q1
  | rangeIdent {p q q1 q2 r i to} : Der false p [.ident i] q →
      q.peek = .INCLUSIVE_BOUND ∨ q.peek = .EXCLUSIVE_BOUND → q.next = .ok q1 →
      q1.next = .ok q2 → Der false q2 [to] r →
      Der false p [.range q1.pos q1.cur (.ident i) to] (r.addTask (.identBound q1.cur i to))
  | rangeInt {p q q1 q2 r pos t v pos' t' v'} : Der false p [.intLit pos t v] q →
      q.peek = .INCLUSIVE_BOUND ∨ q.peek = .EXCLUSIVE_BOUND → q.next = .ok q1 →
      q1.next = .ok q2 → Der false q2 [.intLit pos' t' v'] r →
      Der false p [.range q1.pos q1.cur (.intLit pos t v) (.intLit pos' t' v')] r
  | rangeIntIdent {p q q1 q2 r pos t v i} : Der false p [.intLit pos t v] q →
      q.peek = .INCLUSIVE_BOUND ∨ q.peek = .EXCLUSIVE_BOUND → q.next = .ok q1 →
      q1.next = .ok q2 → Der false q2 [.ident i] r →
      Der false p [.range q1.pos q1.cur (.intLit pos t v) (.ident i)]
        (r.addTask (.intBound i.name i.pos i.stop))
  | rangeIntOther {p q q1 q2 r pos t v to} : Der false p [.intLit pos t v] q →
      q.peek = .INCLUSIVE_BOUND ∨ q.peek = .EXCLUSIVE_BOUND → q.next = .ok q1 →
      q1.next = .ok q2 → Der false q2 [to] r →
      (∀ a b c, to ≠ .intLit a b c) → (∀ a b c, to ≠ .floatLit a b c) → (∀ i, to ≠ .ident i) →
      Der false p [.range q1.pos q1.cur (.intLit pos t v) .nil] r
  | rangeFloat {p q q1 q2 r a t v a' t' v'} : Der false p [.floatLit a t v] q →
      q.peek = .INCLUSIVE_BOUND ∨ q.peek = .EXCLUSIVE_BOUND → q.next = .ok q1 →
      q1.next = .ok q2 → Der false q2 [.floatLit a' t' v'] r →
      Der false p [.range q1.pos q1.cur (.floatLit a t v) (.floatLit a' t' v')] r
  | rangeFloatIdent {p q q1 q2 r a t v i} : Der false p [.floatLit a t v] q →
      q.peek = .INCLUSIVE_BOUND ∨ q.peek = .EXCLUSIVE_BOUND → q.next = .ok q1 →
      q1.next = .ok q2 → Der false q2 [.ident i] r →
      Der false p [.range q1.pos q1.cur (.floatLit a t v) (.ident i)]
        (r.addTask (.floatBound i.name i.pos i.stop))
  | rangeFloatOther {p q q1 q2 r a t v to} : Der false p [.floatLit a t v] q →
      q.peek = .INCLUSIVE_BOUND ∨ q.peek = .EXCLUSIVE_BOUND → q.next = .ok q1 →
      q1.next = .ok q2 → Der false q2 [to] r →
      (∀ a b c, to ≠ .intLit a b c) → (∀ a b c, to ≠ .floatLit a b c) → (∀ i, to ≠ .ident i) →
      Der false p [.range q1.pos q1.cur (.floatLit a t v) .nil] r

/-- What `next` does to the parser. -/
theorem next_fields {p q : PState} (h : p.next = .ok q) :
    q.cur = p.peek ∧ q.lit = p.peekLit ∧ q.pos = p.peekPos ∧ q.env = p.env ∧ q.tasks = p.tasks ∧
    q.errors = p.errors ∧ p.lx.scan = .ok (q.peek, q.peekPos, q.peekLit, q.lx) := by
  unfold PState.next at h
  cases hs : p.lx.scan with
  | ok r =>
    obtain ⟨t, pos, lit, lx⟩ := r
    rw [hs] at h
    cases h
    exact ⟨rfl, rfl, rfl, rfl, rfl, rfl, rfl⟩
  | panic w => rw [hs] at h; cases h
  | hang => rw [hs] at h; cases h

theorem next_cur {p q : PState} (h : p.next = .ok q) : q.cur = p.peek := (next_fields h).1

namespace PState

/-- What a recursive call is assumed to do: precedence 0 at identifiers and comments, and a
derivation if it succeeds. -/
def DC (rec : Rec) : Prop := ∀ prec p, (p.cur = .IDENT ∨ p.cur = .COMMENT → prec = 0) →
  (rec prec p).wp (fun r => r.2.1 = none → Der false p [r.1] r.2.2)

variable {rec : Rec} {p0 p q : PState} {n : Nat} {left : Node}

omit [Unicode] in
theorem prec_cur (p : PState) : p.cur = .IDENT ∨ p.cur = .COMMENT → p.cur.precedence = 0 := by
  rintro (h | h) <;> rw [h] <;> rfl

theorem nextEntry_der (hc : DC rec) :
    (nextEntry rec p).wp (fun r => r.2.1 = none → ∃ q, p.next = .ok q ∧ Der false q [r.1] r.2.2) := by
  unfold nextEntry
  refine Out.wp_bind.mpr ?_
  intro q hq
  exact (hc _ q (prec_cur q)).mono fun r hr he => ⟨q, hq, hr he⟩

theorem commentLoop_der (n : Nat) (p : PState) (acc : List Comment) :
    (loopOut commentStep n (acc, p)).wp (fun r => ∃ cs, Comments p cs r.2 ∧ r.1 = acc ++ cs) := by
  induction n generalizing p acc with
  | zero => exact Out.wp_hang.mpr trivial
  | succ n ih =>
    rw [loopOut]
    unfold commentStep
    by_cases h : p.peek = .COMMENT
    · simp only [if_pos h]
      cases hn : p.next with
      | ok q =>
        show (loopOut commentStep n (acc ++ [q.parseInnerComment], q)).wp _
        refine (ih q _).mono ?_
        rintro ⟨cs', r⟩ ⟨cs, h1, h2⟩
        exact ⟨_, .more h hn h1, by rw [h2, List.append_assoc]; rfl⟩
      | panic w => exact Out.wp_panic.mpr trivial
      | hang => exact Out.wp_hang.mpr trivial
    · simp only [if_neg h]
      exact Out.wp_ok.mpr ⟨[], .stop h, by simp⟩

/-- What a comment and those after it become. -/
def commentNode (cs : List Comment) : Node :=
  match cs with
  | [c] => .comment c
  | _ => .commentGroup cs

theorem parseComment_der : (parseComment n p).wp (fun r => r.2.1 = none ∧
    ∃ cs, Comments p cs r.2.2 ∧ r.1 = commentNode (⟨p.pos, p.lit⟩ :: cs)) := by
  unfold parseComment
  refine Out.wp_bind.mpr ((commentLoop_der n p _).mono ?_)
  rintro ⟨cs, q⟩ ⟨cs', h1, h2⟩
  dsimp only at h1 h2 ⊢
  have h3 : cs = ⟨p.pos, p.lit⟩ :: cs' := h2
  split
  · exact Out.wp_ok.mpr ⟨rfl, cs', h1, by rw [← h3]; rfl⟩
  · rename_i hne
    refine Out.wp_ok.mpr ⟨rfl, cs', h1, ?_⟩
    rw [← h3]
    unfold commentNode
    split
    · exact absurd rfl (hne _)
    · rfl

/-- The value, and a comment behind it. -/
theorem colon_tail (hc : DC rec) {name : Ident} : (do
    let (val, err, p') ← nextEntry rec p
    match err with
    | some e => .ok (val, some e, p')
    | none =>
      if p'.peek = .COMMENT ∧ sameLine p'.pos p'.peekPos then do
        let p'' ← p'.next
        .ok (.entry p.pos name val (some p''.parseInnerComment), none, p'')
      else .ok (.entry p.pos name val none, none, p') : PRes).wp
    (fun r => r.2.1 = none → ∃ q v q' t, p.next = .ok q ∧ Der false q [v] q' ∧ Trail q' t r.2.2 ∧
      r.1 = .entry p.pos name v t) := by
  refine Out.wp_bind.mpr ((nextEntry_der hc).mono ?_)
  rintro ⟨x, e, q⟩ hq
  dsimp only at hq ⊢
  split
  · simp
  · obtain ⟨q1, h1, h2⟩ := hq rfl
    split
    · rename_i hcm
      refine Out.wp_bind.mpr ?_
      intro q' hq'
      refine Out.wp_ok.mpr fun _ => ⟨q1, x, q, _, h1, h2, .some hcm.1 ?_ hq', rfl⟩
      simpa [sameLine] using hcm.2
    · rename_i hcm
      refine Out.wp_ok.mpr fun _ => ⟨q1, x, q, _, h1, h2, .none ?_, rfl⟩
      intro h; exact hcm ⟨h.1, by simpa [sameLine] using h.2⟩

theorem parseColon_der (hc : DC rec) (hd : Der false p0 [left] q) (hn : q.next = .ok p)
    (hp : q.peek = .COLON ∨ q.peek = .ARROW_MAP) :
    (parseColon rec left p).wp (fun r => r.2.1 = none → Der false p0 [r.1] r.2.2) := by
  unfold parseColon
  dsimp only
  split
  · simp
  · rename_i name hname
    refine (colon_tail hc).mono ?_
    rintro ⟨x, e, r⟩ h he
    obtain ⟨q1, v, q', t, h1, h2, h3, h4⟩ := h he
    dsimp only at h3 h4 ⊢
    rw [h4]
    refine Der.colon hd hp hn ?_ h1 h2 h3
    split at hname <;> cases hname
    · exact .ident _
    · exact .int _ _ _

theorem parseColon_field (hc : DC rec) (hcur : q.cur = .IDENT) (hpk : q.peek = .COLON)
    (hn : q.next = .ok p) :
    (parseColon rec (.ident ⟨q.pos, q.lit⟩) p).wp (fun r => r.2.1 = none → Der false q [r.1] r.2.2) := by
  unfold parseColon
  dsimp only
  refine (colon_tail hc).mono ?_
  rintro ⟨x, e, r⟩ h he
  obtain ⟨q1, v, q', t, h1, h2, h3, h4⟩ := h he
  dsimp only at h3 h4 ⊢
  rw [h4]
  exact .field hcur hpk hn h1 h2 h3

theorem parseTypeChoice_der (hc : DC rec) (hd : Der false p0 [left] q) (hn : q.next = .ok p)
    (hp : q.peek = .TYPE_CHOICE ∨ q.peek = .GROUP_CHOICE) :
    (parseTypeChoice rec left p).wp (fun r => r.2.1 = none → Der false p0 [r.1] r.2.2) := by
  unfold parseTypeChoice
  refine Out.wp_bind.mpr ((nextEntry_der hc).mono ?_)
  rintro ⟨x, e, r⟩ h
  dsimp only at h ⊢
  split
  · simp
  · obtain ⟨q1, h1, h2⟩ := h rfl
    exact Out.wp_ok.mpr fun _ => .choice hd hp hn h1 h2

theorem parseSizeOperator_der (hc : DC rec) (hd : Der false p0 [left] q) (hn : q.next = .ok p)
    (hp : q.peek = .SIZE) :
    (parseSizeOperator rec left p).wp (fun r => r.2.1 = none → Der false p0 [r.1] r.2.2) := by
  unfold parseSizeOperator
  split
  all_goals first
    | (rename_i hk
       refine Out.wp_bind.mpr ((nextEntry_der hc).mono ?_)
       rintro ⟨x, e, r⟩ h
       dsimp only at h ⊢
       split
       · simp
       · obtain ⟨q1, h1, h2⟩ := h rfl
         exact Out.wp_ok.mpr fun _ => .size hd hp hn (by rw [hk]; simp) h1 h2)
    | simp

theorem parseRegexp_der (hc : DC rec) (hd : Der false p0 [left] q) (hn : q.next = .ok p)
    (hp : q.peek = .REGEXP) :
    (parseRegexp rec left p).wp (fun r => r.2.1 = none → Der false p0 [r.1] r.2.2) := by
  unfold parseRegexp
  split
  · split
    · simp
    · rename_i hpk
      refine Out.wp_bind.mpr ((nextEntry_der hc).mono ?_)
      rintro ⟨x, e, r⟩ h
      dsimp only at h ⊢
      split
      · simp
      · obtain ⟨q1, h1, h2⟩ := h rfl
        refine Out.wp_ok.mpr fun _ => .regexp hd hp hn ?_ h1 h2
        by_cases hx : p.peek = .TEXT_LITERAL
        · exact Or.inl hx
        · exact Or.inr (Decidable.not_not.mp fun hy => hpk ⟨hx, hy⟩)
  · simp

theorem parseBits_der (hc : DC rec) (hd : Der false p0 [left] q) (hn : q.next = .ok p)
    (hp : q.peek = .BITS) :
    (parseBits rec left p).wp (fun r => r.2.1 = none → Der false p0 [r.1] r.2.2) := by
  unfold parseBits
  refine Out.wp_bind.mpr ((nextEntry_der hc).mono ?_)
  rintro ⟨x, e, r⟩ h
  dsimp only at h ⊢
  split
  · refine Out.wp_bind.mpr (Out.wp_true.mono ?_)
    intro b _
    simp
  · obtain ⟨q1, h1, h2⟩ := h rfl
    exact Out.wp_ok.mpr fun _ => .bits hd hp hn h1 h2

theorem parseComparatorOp_der (hc : DC rec) (hd : Der false p0 [left] q) (hn : q.next = .ok p)
    (hp : q.peek ∈ [Tok.LT, .LE, .GT, .GE, .EQ, .NE]) :
    (parseComparatorOp rec left p).wp (fun r => r.2.1 = none → Der false p0 [r.1] r.2.2) := by
  unfold parseComparatorOp
  split
  all_goals first
    | (rename_i hk
       refine Out.wp_bind.mpr ((nextEntry_der hc).mono ?_)
       rintro ⟨x, e, r⟩ h
       dsimp only at h ⊢
       split
       · simp
       · obtain ⟨q1, h1, h2⟩ := h rfl
         exact Out.wp_ok.mpr fun _ => .compare hd hp hn (by rw [hk]; simp) h1 h2)
    | simp

theorem parseOccItem_der (hc : DC rec) {pos tok a b} :
    (parseOccItem rec pos tok a b p).wp (fun r => r.2.1 = none →
      ∃ x, Der false p [x] r.2.2 ∧ r.1 = .nm pos tok a b x) := by
  unfold parseOccItem
  refine Out.wp_bind.mpr ((hc _ p (prec_cur p)).mono ?_)
  rintro ⟨x, e, r⟩ h
  dsimp only at h ⊢
  split
  · simp
  · exact Out.wp_ok.mpr fun _ => ⟨x, h rfl, rfl⟩

theorem parseOccUpper_der (hc : DC rec) {u} :
    (parseOccUpper rec u p).wp (fun r => r.2.1 = none → ∃ m q x, OccHead p m q ∧ Der false q [x] r.2.2 ∧
      r.1 = .nm p.pos p.cur (some u) m x) := by
  unfold parseOccUpper
  split
  · rename_i hpk
    refine Out.wp_bind.mpr ?_
    intro q hq
    have hf := next_fields hq
    have hlit : q.cur.isLiteral q.lit = true := by rw [hf.1, hf.2.1]; exact hpk.2
    have hu : (parseUintType q).wp (fun r => r.2.2 = q ∧ (r.2.1 = none → ∃ v, parseUint q.lit = .ok v ∧
        r.1 = .uintLit ⟨q.pos, q.cur, v⟩)) := by
      unfold parseUintType parseUintLiteral
      rw [if_pos hlit, if_pos hlit]
      split
      · simp
      · rename_i v hv; exact Out.wp_ok.mpr ⟨rfl, fun _ => ⟨v, hv, rfl⟩⟩
    refine Out.wp_bind.mpr (hu.mono ?_)
    rintro ⟨x, e, r⟩ ⟨h1, h2⟩
    dsimp only at h1 h2 ⊢
    subst h1
    split
    · simp
    · obtain ⟨v, hv, rfl⟩ := h2 rfl
      refine (parseOccItem_der hc).mono ?_
      rintro ⟨y, e', r'⟩ h3 he
      obtain ⟨x, h4, h5⟩ := h3 he
      exact ⟨_, _, x, .some hpk.1 hpk.2 hq hv, h4, h5⟩
  · rename_i hpk
    refine Out.wp_bind.mpr ?_
    intro q hq
    refine (parseOccItem_der hc).mono ?_
    rintro ⟨y, e', r'⟩ h3 he
    obtain ⟨x, h4, h5⟩ := h3 he
    exact ⟨_, _, x, .none hpk hq, h4, h5⟩

theorem parseOccurrence_der (hc : DC rec) (hd : Der false p0 [left] q) (hn : q.next = .ok p)
    (hp : q.peek = .ZERO_OR_MORE ∨ q.peek = .ONE_OR_MORE) :
    (parseOccurrence rec left p).wp (fun r => r.2.1 = none → Der false p0 [r.1] r.2.2) := by
  unfold parseOccurrence
  split
  · refine (parseOccUpper_der hc).mono ?_
    rintro ⟨y, e', r'⟩ h3 he
    obtain ⟨m, q2, x, h4, h5, h6⟩ := h3 he
    dsimp only at h6 ⊢
    rw [h6]
    exact .occ hd hp hn (.uint _) h4 h5
  · split
    · simp
    · rename_i hv
      refine (parseOccUpper_der hc).mono ?_
      rintro ⟨y, e', r'⟩ h3 he
      obtain ⟨m, q2, x, h4, h5, h6⟩ := h3 he
      dsimp only at h6 ⊢
      rw [h6]
      exact .occ hd hp hn (.int (by omega)) h4 h5
  · refine Out.wp_bind.mpr (Out.wp_true.mono ?_)
    intro s _
    refine Out.wp_bind.mpr (Out.wp_true.mono ?_)
    intro e _
    simp

theorem parseBound_der (hc : DC rec) (hd : Der false p0 [left] q) (hn : q.next = .ok p)
    (hp : q.peek = .INCLUSIVE_BOUND ∨ q.peek = .EXCLUSIVE_BOUND) :
    (parseBound rec left p).wp (fun r => r.2.1 = none → Der false p0 [r.1] r.2.2) := by
  unfold parseBound
  split
  · unfold parseIntBound
    refine Out.wp_bind.mpr ((nextEntry_der hc).mono ?_)
    rintro ⟨x, e, r⟩ h
    dsimp only at h ⊢
    split
    · simp
    · obtain ⟨q1, h1, h2⟩ := h rfl
      split
      · exact Out.wp_ok.mpr fun _ => .rangeInt hd hp hn h1 h2
      · simp
      · exact Out.wp_ok.mpr fun _ => .rangeIntIdent hd hp hn h1 h2
      · rename_i ha hb hc
        exact Out.wp_ok.mpr fun _ => .rangeIntOther hd hp hn h1 h2 ha hb hc
  · unfold parseFloatBound
    refine Out.wp_bind.mpr ((nextEntry_der hc).mono ?_)
    rintro ⟨x, e, r⟩ h
    dsimp only at h ⊢
    split
    · simp
    · obtain ⟨q1, h1, h2⟩ := h rfl
      split
      · exact Out.wp_ok.mpr fun _ => .rangeFloat hd hp hn h1 h2
      · simp
      · exact Out.wp_ok.mpr fun _ => .rangeFloatIdent hd hp hn h1 h2
      · rename_i ha hb hc
        exact Out.wp_ok.mpr fun _ => .rangeFloatOther hd hp hn h1 h2 hb ha hc
  · unfold parseIdentBound
    refine Out.wp_bind.mpr ((nextEntry_der hc).mono ?_)
    rintro ⟨x, e, r⟩ h
    dsimp only at h ⊢
    split
    · simp
    · obtain ⟨q1, h1, h2⟩ := h rfl
      exact Out.wp_ok.mpr fun _ => .rangeIdent hd hp hn h1 h2
  · rename_i ha hb hcc
    refine Out.wp_ok.mpr fun _ => .rangeEmpty hd hp hn ?_ ?_ ?_
    · cases left with
      | typedNil k =>
        by_cases hk : k = .intLit
        · exact Or.inr (by rw [hk])
        · exact Or.inl hk
      | intLit => exact absurd rfl (ha _ _ _)
      | _ => exact Or.inl (by simp [Node.kind])
    · cases left with
      | typedNil k =>
        by_cases hk : k = .floatLit
        · exact Or.inr (by rw [hk])
        · exact Or.inl hk
      | floatLit => exact absurd rfl (hb _ _ _)
      | _ => exact Or.inl (by simp [Node.kind])
    · cases left with
      | typedNil k =>
        by_cases hk : k = .ident
        · exact Or.inr (by rw [hk])
        · exact Or.inl hk
      | ident => exact absurd rfl (hcc _)
      | _ => exact Or.inl (by simp [Node.kind])

theorem parseComma_der (hd : Der false p0 [left] q) (hn : q.next = .ok p)
    (hp : q.peek = .COMMA) :
    (parseComma left p).wp (fun r => r.2.1 = none → Der false p0 [r.1] r.2.2) :=
  Out.wp_ok.mpr fun _ => .comma hd hp hn

theorem ledOf_der (hc : DC rec) (hd : Der false p0 [left] q) (hn : q.next = .ok p) {f}
    (hf : ledOf rec q.peek = some f) :
    (f left p).wp (fun r => r.2.1 = none → Der false p0 [r.1] r.2.2) := by
  generalize ht : q.peek = t at hf
  unfold ledOf at hf
  split at hf <;> cases hf
  · exact parseColon_der hc hd hn (Or.inl ht)
  · exact parseTypeChoice_der hc hd hn (Or.inl ht)
  · exact parseTypeChoice_der hc hd hn (Or.inr ht)
  · exact parseComparatorOp_der hc hd hn (by rw [ht]; decide)
  · exact parseComparatorOp_der hc hd hn (by rw [ht]; decide)
  · exact parseComparatorOp_der hc hd hn (by rw [ht]; decide)
  · exact parseComparatorOp_der hc hd hn (by rw [ht]; decide)
  · exact parseComparatorOp_der hc hd hn (by rw [ht]; decide)
  · exact parseComparatorOp_der hc hd hn (by rw [ht]; decide)
  · exact parseSizeOperator_der hc hd hn ht
  · exact parseRegexp_der hc hd hn ht
  · exact parseBits_der hc hd hn ht
  · exact parseBound_der hc hd hn (Or.inl ht)
  · exact parseBound_der hc hd hn (Or.inr ht)
  · exact parseOccurrence_der hc hd hn (Or.inl ht)
  · exact parseOccurrence_der hc hd hn (Or.inr ht)
  · exact parseColon_der hc hd hn (Or.inr ht)
  · exact parseComma_der hd hn ht

/-- Entries are kept by the loop of a list in the order they are read. -/
theorem parseList_der (hc : DC rec) {close keep} :
    (parseList rec n close keep p).wp (fun r => r.2.1 = none → ∃ q es, p.next = .ok q ∧
      Der true q es r.2.2 ∧ r.2.2.cur = close ∧ r.1 = es.filter keep) := by
  unfold parseList
  refine Out.wp_bind.mpr ?_
  intro q hq
  have key : ∀ n acc s, (loopOut (listStep rec close keep) n (acc, s)).wp (fun r => r.2.1 = none →
      ∃ es, Der true s es r.2.2 ∧ r.2.2.cur = close ∧ r.1 = acc ++ es.filter keep) := by
    intro n
    induction n with
    | zero => intro acc s; exact Out.wp_hang.mpr trivial
    | succ n ih =>
      intro acc s
      rw [loopOut]
      unfold listStep
      by_cases hcl : s.cur = close
      · simp only [if_pos hcl]
        exact Out.wp_ok.mpr fun _ => ⟨[], .nil _, hcl, by simp⟩
      · simp only [if_neg hcl]
        cases hr : rec s.cur.precedence s with
        | panic w => exact Out.wp_panic.mpr trivial
        | hang => exact Out.wp_hang.mpr trivial
        | ok v =>
          obtain ⟨e, err, s'⟩ := v
          have hd := hc _ s (prec_cur s) _ hr
          cases err with
          | some d => exact Out.wp_ok.mpr (by simp)
          | none =>
            have hd := hd rfl
            cases hnx : s'.next with
            | panic w =>
              simp only [Out.bind_def, Out.bind, hnx]; exact Out.wp_panic.mpr trivial
            | hang => simp only [Out.bind_def, Out.bind, hnx]; exact Out.wp_hang.mpr trivial
            | ok s'' =>
              simp only [Out.bind_def, Out.bind, hnx]
              refine (ih _ s'').mono ?_
              rintro ⟨xs, er, t⟩ h he
              obtain ⟨es, h1, h2, h3⟩ := h he
              refine ⟨e :: es, .cons hd hnx h1, h2, ?_⟩
              dsimp only at h3 ⊢
              rw [h3, List.filter_cons]
              split <;> simp
  refine (key n [] q).mono ?_
  rintro ⟨xs, er, t⟩ h he
  obtain ⟨es, h1, h2, h3⟩ := h he
  exact ⟨q, es, hq, h1, h2, by simpa using h3⟩

theorem parseTagItem_der (hc : DC rec) {a b} (hcur : p.cur = .HASH) (ht : TagHead p a b q) :
    (parseTagItem rec p.pos p.cur a b q).wp (fun r => r.2.1 = none → Der false p [r.1] r.2.2) := by
  unfold parseTagItem
  split
  · rename_i hpk
    refine Out.wp_bind.mpr ?_
    intro q1 hq1
    refine Out.wp_bind.mpr ((nextEntry_der hc).mono ?_)
    rintro ⟨x, e, r⟩ h
    dsimp only at h ⊢
    split
    · simp
    · obtain ⟨q2, h1, h2⟩ := h rfl
      refine Out.wp_bind.mpr ?_
      unfold expectPeek
      split
      · rename_i hne
        exact Out.wp_ok.mpr (Out.wp_ok.mpr fun _ => .tagItem hcur ht hpk hq1 h1 h2 (Or.inl ⟨hne, rfl⟩))
      · rename_i hne
        intro r' hr'
        exact Out.wp_ok.mpr fun _ => .tagItem hcur ht hpk hq1 h1 h2
          (Or.inr ⟨Decidable.not_not.mp hne, hr'⟩)
  · rename_i hpk
    exact Out.wp_ok.mpr fun _ => .tag hcur ht hpk

theorem parseTag_der (hc : DC rec) (hcur : p.cur = .HASH) :
    (parseTag rec p).wp (fun r => r.2.1 = none → Der false p [r.1] r.2.2) := by
  unfold parseTag
  split
  · rename_i hpk
    refine Out.wp_bind.mpr ?_
    intro q hq
    split
    · simp
    · rename_i v hv
      exact parseTagItem_der hc hcur (.major hpk hq hv)
  · rename_i hpk
    refine Out.wp_bind.mpr ?_
    intro q hq
    split
    · simp
    · rename_i v hv
      exact parseTagItem_der hc hcur (.both hpk hq hv)
  · rename_i h1 h2
    exact parseTagItem_der hc hcur (.none h1 h2)

theorem nudOf_der (hc : DC rec) {f} (hcm : p.cur ≠ .COMMENT) (hf : nudOf rec n p.cur = some f) :
    (f p).wp (fun r => r.2.1 = none → Der false p [r.1] r.2.2) := by
  generalize ht : p.cur = t at hf
  unfold nudOf at hf
  split at hf <;> cases hf
  case h_1 =>
    unfold parseNamedIdentifier
    split
    · simp
    · rename_i c s hl
      split
      · rename_i h36
        exact Out.wp_ok.mpr fun _ => .ref ht hl h36
      · rename_i h36
        have : c = 36 := Decidable.not_not.mp h36
        exact Out.wp_ok.mpr fun _ => .socket ht (by rw [hl, this])
  case h_2 => exact Out.wp_ok.mpr fun _ => .leaf (.boolType ht)
  case h_3 =>
    unfold parseBooleanLiteral
    split
    · rename_i h; exact Out.wp_ok.mpr fun _ => .leaf (.true (Or.inr ht) h)
    · split
      · rename_i h; exact Out.wp_ok.mpr fun _ => .leaf (.false (Or.inr ht) h)
      · simp
  case h_4 =>
    unfold parseBooleanLiteral
    split
    · rename_i h; exact Out.wp_ok.mpr fun _ => .leaf (.true (Or.inl ht) h)
    · split
      · rename_i h; exact Out.wp_ok.mpr fun _ => .leaf (.false (Or.inl ht) h)
      · simp
  case h_5 => exact Out.wp_ok.mpr fun _ => .leaf (.tstr (Or.inl ht))
  case h_6 => exact Out.wp_ok.mpr fun _ => .leaf (.tstr (Or.inr ht))
  case h_7 => exact Out.wp_ok.mpr fun _ => .leaf (.text ht)
  case h_12 =>
    unfold parseUintType parseUintLiteral
    split
    · rename_i h
      split
      · simp
      · rename_i v hv; exact Out.wp_ok.mpr fun _ => .leaf (.uintLit ht h hv)
    · rename_i h; exact Out.wp_ok.mpr fun _ => .leaf (.uintType ht (by simpa using h))
  case h_13 =>
    unfold parseIntegerType parseIntegerLiteral
    split
    · rename_i h
      split
      · simp
      · rename_i v hv; exact Out.wp_ok.mpr fun _ => .leaf (.intLit ht h hv)
    · rename_i h; exact Out.wp_ok.mpr fun _ => .leaf (.intType ht (by simpa using h))
  case h_14 => exact Out.wp_ok.mpr fun _ => .leaf (.nint ht)
  case h_15 => exact Out.wp_ok.mpr fun _ => .leaf (.bstr ht)
  case h_16 => exact Out.wp_ok.mpr fun _ => .leaf (.bytes ht)
  case h_17 => exact Out.wp_ok.mpr fun _ => .leaf (.null (Or.inl ht))
  case h_18 => exact Out.wp_ok.mpr fun _ => .leaf (.null (Or.inr ht))
  case h_19 =>
    unfold parseMap
    refine Out.wp_bind.mpr ((parseList_der hc).mono ?_)
    rintro ⟨xs, e, r⟩ h
    refine Out.wp_ok.mpr fun he => ?_
    obtain ⟨q, es, h1, h2, h3, h4⟩ := h he
    dsimp only at h4 ⊢
    rw [h4]; exact .map ht h1 h2 h3
  case h_20 =>
    unfold parseGroup
    refine Out.wp_bind.mpr ((parseList_der hc).mono ?_)
    rintro ⟨xs, e, r⟩ h
    refine Out.wp_ok.mpr fun he => ?_
    obtain ⟨q, es, h1, h2, h3, h4⟩ := h he
    dsimp only at h4 ⊢
    rw [h4]; exact .group ht h1 h2 h3
  case h_21 =>
    unfold parseArray
    refine Out.wp_bind.mpr ((parseList_der hc).mono ?_)
    rintro ⟨xs, e, r⟩ h
    refine Out.wp_ok.mpr fun he => ?_
    obtain ⟨q, es, h1, h2, h3, h4⟩ := h he
    dsimp only at h4 ⊢
    rw [h4]; exact .array ht h1 h2 h3
  case h_22 => exact absurd ht hcm
  case h_23 =>
    unfold parseOptional
    refine Out.wp_bind.mpr ((nextEntry_der hc).mono ?_)
    rintro ⟨x, e, r⟩ h
    dsimp only at h ⊢
    split
    · simp
    · obtain ⟨q1, h1, h2⟩ := h rfl
      exact Out.wp_ok.mpr fun _ => .optional ht h1 h2
  case h_24 =>
    refine (parseOccUpper_der hc).mono ?_
    rintro ⟨y, e', r'⟩ h3 he
    obtain ⟨m, q2, x, h4, h5, h6⟩ := h3 he
    dsimp only at h6 ⊢
    rw [h6]; exact .occ0 ht h4 h5
  case h_25 =>
    refine (parseOccUpper_der hc).mono ?_
    rintro ⟨y, e', r'⟩ h3 he
    obtain ⟨m, q2, x, h4, h5, h6⟩ := h3 he
    dsimp only at h6 ⊢
    rw [h6]; exact .occ1 ht h4 h5
  case h_26 =>
    unfold parseUnwrap
    refine Out.wp_bind.mpr ((nextEntry_der hc).mono ?_)
    rintro ⟨x, e, r⟩ h
    dsimp only at h ⊢
    split
    · simp
    · obtain ⟨q1, h1, h2⟩ := h rfl
      exact Out.wp_ok.mpr fun _ => .unwrap ht h1 h2
  case h_27 => exact parseTag_der hc ht
  case h_28 =>
    unfold parseEnumeration
    refine Out.wp_bind.mpr ((nextEntry_der hc).mono ?_)
    rintro ⟨x, e, r⟩ h
    dsimp only at h ⊢
    split
    · simp
    · obtain ⟨q1, h1, h2⟩ := h rfl
      exact Out.wp_ok.mpr fun _ => .enumeration ht h1 h2
  all_goals
    unfold parseFloatType parseFloatLiteral
    split
    · rename_i h
      split
      · simp
      · rename_i v hv; exact Out.wp_ok.mpr fun _ => .leaf (.floatLit (by simp [ht]) h hv)
    · rename_i h
      exact Out.wp_ok.mpr fun _ => .leaf (.floatType (by simp [ht]) (by simpa using h))

/-- The operator loop, once something is derived. -/
theorem ledLoop_der (hc : DC rec) (prec : Nat) (x : Node) (q : PState) (h : Der false p [x] q) :
    (loopOut (ledStep rec prec) n (x, q)).wp (fun r => r.2.1 = none → Der false p [r.1] r.2.2) := by
  refine loopOut_wp (I := fun s => Der false p [s.1] s.2) ?_ n _ h
  intro s hs
  unfold ledStep
  split
  · split
    · exact Out.wp_ok.mpr fun _ => hs
    · rename_i f hf
      refine Out.wp_bind.mpr ?_
      intro q1 hq1
      refine Out.wp_bind.mpr ((ledOf_der hc hs hq1 hf).mono ?_)
      rintro ⟨y, e, r⟩ hr
      dsimp only at hr ⊢
      split
      · simp
      · exact Out.wp_ok.mpr (hr rfl)
  · exact Out.wp_ok.mpr fun _ => hs

/-- The operand and the operator loop. -/
theorem afterSkip_der (hc : DC rec) {prec} (h0 : p.cur = .IDENT → prec = 0) (hcm : p.cur ≠ .COMMENT) :
    (match selectNud rec n p with
      | none => .ok (.nil, some (errPrefix p.pos p.cur), p)
      | some nud => do
        let (exp, err, p') ← nud p
        match err with
        | some e => .ok (exp, some e, p')
        | none => loopOut (ledStep rec prec) n (exp, p') : PRes).wp
      (fun r => r.2.1 = none → Der false p [r.1] r.2.2) := by
  unfold selectNud
  by_cases hic : p.cur = .IDENT ∧ p.peek = .COLON
  · rw [if_pos hic]
    show (loopOut (ledStep rec prec) n (.ident ⟨p.pos, p.lit⟩, p)).wp _
    rw [h0 hic.1]
    cases n with
    | zero => exact Out.wp_hang.mpr trivial
    | succ n =>
      rw [loopOut]
      unfold ledStep
      have hcond : p.cur ≠ .COMMA ∧ 0 < p.peek.precedence := by
        rw [hic.1, hic.2]; decide
      simp only [if_pos hcond]
      rw [show ledOf rec p.peek = some (parseColon rec) by rw [hic.2]; rfl]
      simp only [Out.bind_def]
      cases hnx : p.next with
      | panic w => exact Out.wp_panic.mpr trivial
      | hang => exact Out.wp_hang.mpr trivial
      | ok q1 =>
        have := parseColon_field hc hic.1 hic.2 hnx
        simp only [Out.bind]
        cases hcol : parseColon rec (.ident ⟨p.pos, p.lit⟩) q1 with
        | panic w => exact Out.wp_panic.mpr trivial
        | hang => exact Out.wp_hang.mpr trivial
        | ok v =>
          obtain ⟨y, e, r⟩ := v
          rw [hcol] at this
          have := Out.wp_ok.mp this
          cases e with
          | some e => exact Out.wp_ok.mpr (by simp)
          | none => exact ledLoop_der hc 0 y r (this rfl)
  · rw [if_neg hic]
    split
    · simp
    · rename_i f hf
      refine Out.wp_bind.mpr ((nudOf_der hc hcm hf).mono ?_)
      rintro ⟨x, e, q⟩ hq
      dsimp only at hq ⊢
      split
      · simp
      · exact ledLoop_der hc prec x q (hq rfl)

theorem comments_peek {cs} (h : Comments p cs q) : q.peek ≠ .COMMENT := by
  induction h with
  | stop h => exact h
  | more _ _ _ ih => exact ih

theorem parseEntryBody_der (hc : DC rec) : DC (parseEntryBody rec n) := by
  intro prec p h0
  unfold parseEntryBody skipComment
  by_cases hcm : p.cur = .COMMENT
  · rw [if_pos hcm]
    refine Out.wp_bind.mpr (Out.wp_bind.mpr (parseComment_der.mono ?_))
    rintro ⟨x, e, q⟩ ⟨he, cs, h1, h2⟩
    dsimp only at h1 ⊢
    intro q1 hq1
    have hcur : q1.cur ≠ .COMMENT := by rw [next_cur hq1]; exact comments_peek h1
    refine (afterSkip_der hc (fun _ => h0 (Or.inr hcm)) hcur).mono ?_
    intro r hr he
    exact .skip hcm h1 hq1 (hr he)
  · rw [if_neg hcm]
    exact afterSkip_der hc (fun h => h0 (Or.inl h)) hcm

/-- A successful parse of an entry is a derivation. -/
theorem parseEntry_der (n : Nat) : DC (parseEntry n) := by
  induction n with
  | zero => intro prec p _; exact Out.wp_hang.mpr trivial
  | succ n ih => exact parseEntryBody_der ih

end PState
end Cddlc
