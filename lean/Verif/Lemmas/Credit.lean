import Verif.Lemmas.File

/-! How many diagnostics and tasks there are for the tokens read. -/

namespace Cddlc
variable [Unicode]

/-- `q` is obtained from `p` by reading tokens and adding tasks, and at least `c` more tokens were left behind
than tasks were added; the end of the file is not counted. -/
inductive Credit : PState → Int → PState → Prop
  | refl (p) : Credit p 0 p
  | next {p q r c} : Credit p c q → q.cur ≠ .EOF → q.next = .ok r → Credit p (c + 1) r
  | skip {p q r c} : Credit p c q → q.next = .ok r → Credit p c r
  | task {p q c} (t) : Credit p c q → Credit p (c - 1) (q.addTask t)
  | drop {p q c d} : Credit p c q → d ≤ c → Credit p d q

theorem Credit.trans {p q r : PState} {c d} (h : Credit p c q) (h' : Credit q d r) : Credit p (c + d) r := by
  induction h' with
  | refl => simpa using h
  | next _ he hn ih => rw [← Int.add_assoc]; exact ih.next he hn
  | skip _ hn ih => exact ih.skip hn
  | task t _ ih => rw [← Int.add_sub_assoc]; exact ih.task t
  | drop _ hd ih => exact ih.drop (by omega)

namespace PState

/-- What parsing an entry costs: one, paid by the token that it ends on; nothing more if there is a diagnostic,
as that takes the place of the token. -/
def Paid (p0 : PState) (c : Int) (r : Node × Option Diag × PState) : Prop :=
  match r.2.1 with
  | none => Credit p0 (c - 1) r.2.2 ∧ r.2.2.cur ≠ .EOF
  | some _ => Credit p0 c r.2.2

/-- The recursive call is paid. -/
def CC (rec : Rec) : Prop := ∀ prec p, (rec prec p).wp (Paid p 0)

variable {rec : Rec} {p0 p q : PState} {n : Nat} {left : Node} {c : Int}

omit [Unicode] in
@[simp] theorem addTask_cur {t : Task} : (p.addTask t).cur = p.cur := rfl

theorem Paid.err {x d} (h : Credit p0 c q) : Paid p0 c (x, some d, q) := h

theorem Paid.ok {x} (h : Credit p0 c q) (he : q.cur ≠ .EOF) : Paid p0 c (x, none, q) :=
  ⟨h.drop (by omega), he⟩

theorem rec_paid (hc : CC rec) (h : Credit p0 c p) (prec) : (rec prec p).wp (Paid p0 c) := by
  refine (hc prec p).mono ?_
  rintro ⟨x, e, q⟩ hr
  cases e with
  | none =>
    refine ⟨(h.trans hr.1).drop (by omega), hr.2⟩
  | some d => exact (h.trans hr).drop (by omega)

/-- An operand is paid by the operator. -/
theorem nextEntry_paid (hc : CC rec) (h : Credit p0 c p) (he : p.cur ≠ .EOF) :
    (nextEntry rec p).wp (Paid p0 (c + 1)) := by
  unfold nextEntry
  refine Out.wp_bind.mpr ?_
  intro q hq
  exact rec_paid hc (h.next he hq) _

theorem pass_paid (hc : CC rec) (h : Credit p0 c p) (he : p.cur ≠ .EOF)
    {F : Node × Option Diag × PState → PRes} {Q : Node × Option Diag × PState → Prop}
    (hs : ∀ x e q, Credit p0 (c + 1) q → (F (x, some e, q)).wp Q)
    (hn : ∀ x q, Credit p0 c q → q.cur ≠ .EOF → (F (x, none, q)).wp Q) :
    (nextEntry rec p >>= F).wp Q := by
  refine Out.wp_bind.mpr ((nextEntry_paid hc h he).mono ?_)
  rintro ⟨x, e, r⟩ hr
  cases e with
  | some d => exact hs x d r hr
  | none => exact hn x r (by simpa using hr.1) hr.2

theorem parseComment_paid (h : Credit p0 c p) (he : p.cur ≠ .EOF) :
    (parseComment n p).wp (fun r => Credit p0 c r.2.2 ∧ r.2.2.cur ≠ .EOF ∧ r.2.1 = none) := by
  unfold parseComment
  refine Out.wp_bind.mpr ((loopOut_wp (I := fun s => Credit p0 c s.2 ∧ s.2.cur ≠ .EOF)
    (Q := fun s => Credit p0 c s.2 ∧ s.2.cur ≠ .EOF) ?_ n _ ⟨h, he⟩).mono ?_)
  · intro s hs
    unfold commentStep
    split
    · rename_i hp
      refine Out.wp_bind.mpr ?_
      intro q hq
      have : q.cur = s.2.peek := (next_fields hq).1
      simp only [Out.wp_ok]
      exact ⟨hs.1.skip hq, by rw [this, hp]; decide⟩
    · simpa using hs
  · rintro ⟨cs, q⟩ hq
    dsimp only
    split <;> simpa using hq

/-- Most operators: the diagnostic of the operand is passed on, and nothing is read behind it. -/
theorem simple_paid (hc : CC rec) (h : Credit p0 c p) (he : p.cur ≠ .EOF) {F : Node × Option Diag × PState → PRes}
    (hF : ∀ x e q, (F (x, e, q)).wp fun r => r.2.2 = q ∧ (r.2.1 = none → e = none)) :
    (nextEntry rec p >>= F).wp (Paid p0 c) := by
  refine pass_paid hc h he ?_ ?_
  · intro x e q hq
    refine (hF x (some e) q).mono ?_
    rintro ⟨y, d, q'⟩ ⟨rfl, h2⟩
    cases d with
    | none => cases h2 rfl
    | some d => exact (hq.drop (by omega) : Credit p0 c _)
  · intro x q hq hE
    refine (hF x none q).mono ?_
    rintro ⟨y, d, q'⟩ ⟨rfl, -⟩
    cases d with
    | none => exact ⟨hq.drop (by omega), hE⟩
    | some d => exact hq

theorem parseColon_paid (hc : CC rec) (h : Credit p0 c p) (he : p.cur ≠ .EOF) :
    (parseColon rec left p).wp (Paid p0 c) := by
  unfold parseColon
  dsimp only
  split
  · simpa using Paid.err h
  · refine pass_paid hc h he ?_ ?_
    · intro x e q hq
      simpa using Paid.err (hq.drop (by omega))
    · intro x q hq hE
      dsimp only
      split
      · rename_i hp
        refine Out.wp_bind.mpr ?_
        intro q' hq'
        simp only [Out.wp_ok]
        exact .ok (hq.skip hq') (by rw [(next_fields hq').1, hp.1]; decide)
      · simpa using Paid.ok hq hE

theorem parseTypeChoice_paid (hc : CC rec) (h : Credit p0 c p) (he : p.cur ≠ .EOF) :
    (parseTypeChoice rec left p).wp (Paid p0 c) :=
  simple_paid hc h he fun x e q => by cases e <;> simp

theorem parseTagItem_paid (hc : CC rec) (h : Credit p0 c p) (he : p.cur ≠ .EOF) {pos tok major number} :
    (parseTagItem rec pos tok major number p).wp (Paid p0 c) := by
  unfold parseTagItem
  split
  · rename_i hp
    refine Out.wp_bind.mpr ?_
    intro q hq
    have hcur : q.cur ≠ .EOF := by rw [(next_fields hq).1, hp]; decide
    refine pass_paid hc (h.next he hq) hcur ?_ ?_
    · intro x e q hq
      simpa using Paid.err (hq.drop (by omega))
    · intro x q hq hE
      dsimp only
      refine Out.wp_bind.mpr ?_
      unfold expectPeek
      split
      · simpa using Paid.ok (hq.drop (by omega)) hE
      · rename_i hp
        intro q' hq'
        simp only [Out.wp_ok]
        exact .ok ((hq.skip hq').drop (by omega)) (by rw [(next_fields hq').1]; simp only [ne_eq, Decidable.not_not] at hp; rw [hp]; decide)
  · simpa using Paid.ok h he

theorem parseTag_paid (hc : CC rec) (h : Credit p0 c p) (he : p.cur ≠ .EOF) :
    (parseTag rec p).wp (Paid p0 c) := by
  unfold parseTag
  split
  · rename_i hp
    refine Out.wp_bind.mpr ?_
    intro q hq
    have hcur : q.cur ≠ .EOF := by rw [(next_fields hq).1, hp]; decide
    split
    · simpa using Paid.err (h.skip hq)
    · exact parseTagItem_paid hc (h.skip hq) hcur
  · rename_i hp
    refine Out.wp_bind.mpr ?_
    intro q hq
    have hcur : q.cur ≠ .EOF := by rw [(next_fields hq).1, hp]; decide
    split
    · simpa using Paid.err (h.skip hq)
    · exact parseTagItem_paid hc (h.skip hq) hcur
  · exact parseTagItem_paid hc h he

theorem parseOccItem_paid (hc : CC rec) (h : Credit p0 (c + 1) p) {pos tok a b} :
    (parseOccItem rec pos tok a b p).wp (Paid p0 c) := by
  unfold parseOccItem
  refine Out.wp_bind.mpr ((rec_paid hc h _).mono ?_)
  rintro ⟨x, e, q⟩ hq
  cases e with
  | some d => simpa using Paid.err (Credit.drop hq (by omega))
  | none => simpa using Paid.ok (hq.1.drop (by omega)) hq.2

theorem parseOccUpper_paid (hc : CC rec) (h : Credit p0 c p) (he : p.cur ≠ .EOF) {u} :
    (parseOccUpper rec u p).wp (Paid p0 c) := by
  unfold parseOccUpper
  split
  · refine Out.wp_bind.mpr ?_
    intro q hq
    refine Out.wp_bind.mpr (parseUintType_state.mono ?_)
    rintro ⟨x, e, q'⟩ hq'
    dsimp only at hq' ⊢
    subst hq'
    split
    · simpa using Paid.err (h.skip hq)
    · exact parseOccItem_paid hc (h.next he hq)
  · refine Out.wp_bind.mpr ?_
    intro q hq
    exact parseOccItem_paid hc (h.next he hq)

theorem parseOccurrence_paid (hc : CC rec) (h : Credit p0 c p) (he : p.cur ≠ .EOF) :
    (parseOccurrence rec left p).wp (Paid p0 c) := by
  unfold parseOccurrence
  split
  · exact parseOccUpper_paid hc h he
  · split
    · simpa using Paid.err h
    · exact parseOccUpper_paid hc h he
  · refine Out.wp_bind.mpr (Out.wp_true.mono ?_)
    intro s _
    refine Out.wp_bind.mpr (Out.wp_true.mono ?_)
    intro e _
    simpa using Paid.err h

theorem parseSizeOperator_paid (hc : CC rec) (h : Credit p0 c p) (he : p.cur ≠ .EOF) :
    (parseSizeOperator rec left p).wp (Paid p0 c) := by
  unfold parseSizeOperator
  split
  all_goals first
    | (refine simple_paid hc h he fun x e q => ?_
       cases e <;> simp)
    | simpa using Paid.err h

theorem parseRegexp_paid (hc : CC rec) (h : Credit p0 c p) (he : p.cur ≠ .EOF) :
    (parseRegexp rec left p).wp (Paid p0 c) := by
  unfold parseRegexp
  split
  · split
    · simpa using Paid.err h
    · refine simple_paid hc h he fun x e q => ?_
      cases e <;> simp
  · simp

theorem parseBits_paid (hc : CC rec) (h : Credit p0 c p) (he : p.cur ≠ .EOF) :
    (parseBits rec left p).wp (Paid p0 c) := by
  unfold parseBits
  refine simple_paid hc h he fun x e q => ?_
  cases e with
  | none => simp
  | some d =>
    refine Out.wp_bind.mpr (Out.wp_true.mono ?_)
    intro b _
    simp

theorem parseList_paid (hc : CC rec) (h : Credit p0 c p) {close keep} (hE : close ≠ .EOF) :
    (parseList rec n close keep p).wp fun r => match r.2.1 with
      | none => Credit p0 c r.2.2 ∧ r.2.2.cur ≠ .EOF
      | some _ => Credit p0 c r.2.2 := by
  unfold parseList
  refine Out.wp_bind.mpr ?_
  intro q hq
  refine loopOut_wp (I := fun s => Credit p0 c s.2) ?_ n _ (h.skip hq)
  intro s hs
  unfold listStep
  split
  · rename_i hcl
    simp only [Out.wp_ok]
    exact ⟨hs, by rw [hcl]; exact hE⟩
  · refine Out.wp_bind.mpr ((rec_paid hc hs _).mono ?_)
    rintro ⟨x, e, q⟩ hq
    cases e with
    | some d => simp only [Out.wp_ok]; exact hq
    | none =>
      refine Out.wp_bind.mpr ?_
      intro q' hq'
      simp only [Out.wp_ok]
      exact (hq.1.next hq.2 hq').drop (by omega)

theorem parseComparatorOp_paid (hc : CC rec) (h : Credit p0 c p) (he : p.cur ≠ .EOF) :
    (parseComparatorOp rec left p).wp (Paid p0 c) := by
  unfold parseComparatorOp
  split
  all_goals first
    | (refine simple_paid hc h he fun x e q => ?_
       cases e <;> simp)
    | simpa using Paid.err h

theorem parseBound_paid (hc : CC rec) (h : Credit p0 c p) (he : p.cur ≠ .EOF) :
    (parseBound rec left p).wp (Paid p0 c) := by
  have task : ∀ {x q} (t : Task), Credit p0 c q → q.cur ≠ .EOF →
      Paid p0 c (x, none, q.addTask t) := fun t hq hE => ⟨hq.task t, hE⟩
  unfold parseBound
  split
  · unfold parseIntBound
    refine pass_paid hc h he ?_ ?_
    · intro x e q hq
      simpa using Paid.err (hq.drop (by omega))
    · intro x q hq hE
      dsimp only
      split <;> simp only [Out.wp_ok] <;> first | exact .ok hq hE | exact .err hq | exact task _ hq hE
  · unfold parseFloatBound
    refine pass_paid hc h he ?_ ?_
    · intro x e q hq
      simpa using Paid.err (hq.drop (by omega))
    · intro x q hq hE
      dsimp only
      split <;> simp only [Out.wp_ok] <;> first | exact .ok hq hE | exact .err hq | exact task _ hq hE
  · unfold parseIdentBound
    refine pass_paid hc h he ?_ ?_
    · intro x e q hq
      simpa using Paid.err (hq.drop (by omega))
    · intro x q hq hE
      simp only [Out.wp_ok]
      exact task _ hq hE
  · simpa using Paid.ok h he

theorem nudOf_paid (hc : CC rec) (h : Credit p0 c p) {f} (hf : nudOf rec n p.cur = some f) :
    (f p).wp (Paid p0 c) := by
  have he : p.cur ≠ .EOF := by
    intro he; rw [he] at hf; cases hf
  have eqs : ∀ {g : PState → PRes}, (g p).wp (fun r => r.2.2 = p) → (g p).wp (Paid p0 c) :=
    fun hg => hg.mono fun ⟨x, e, q⟩ hr => by
      cases hr
      cases e
      · exact .ok h he
      · exact .err h
  have lists : ∀ {F : List Node → Node} {close keep}, close ≠ .EOF →
      ((parseList rec n close keep p) >>= fun r => (.ok (F r.1, r.2.1, r.2.2) : PRes)).wp (Paid p0 c) := by
    intro F close keep hcl
    refine Out.wp_bind.mpr ((parseList_paid hc h hcl).mono ?_)
    rintro ⟨x, e, q⟩ hq
    simp only [Out.wp_ok]
    cases e with
    | none => exact .ok hq.1 hq.2
    | some d => exact hq
  generalize hcur : p.cur = tok at hf
  unfold nudOf at hf
  split at hf <;> cases hf
  · unfold parseNamedIdentifier
    split
    · simp
    · split
      · simp only [Out.wp_ok]; exact ⟨h.task _, he⟩
      · simpa using Paid.ok h he
  · simpa [parseBooleanType] using Paid.ok h he
  · exact eqs parseBooleanLiteral_state
  · exact eqs parseBooleanLiteral_state
  · simpa [parseTstrType] using Paid.ok h he
  · simpa [parseTstrType] using Paid.ok h he
  · simpa [parseTextLiteral] using Paid.ok h he
  · exact eqs parseFloatType_state
  · exact eqs parseFloatType_state
  · exact eqs parseFloatType_state
  · exact eqs parseFloatType_state
  · exact eqs parseUintType_state
  · exact eqs parseIntegerType_state
  · simpa [parseNegativeIntegerType] using Paid.ok h he
  · simpa [parseBstrType] using Paid.ok h he
  · simpa [parseBytesType] using Paid.ok h he
  · simpa [parseNullType] using Paid.ok h he
  · simpa [parseNullType] using Paid.ok h he
  · exact lists (F := .map p.pos) (by decide)
  · exact lists (F := .group p.pos) (by decide)
  · exact lists (F := .array p.pos) (by decide)
  · refine (parseComment_paid h he).mono ?_
    rintro ⟨x, e, q⟩ ⟨h1, h2, h3⟩
    cases h3
    exact .ok h1 h2
  · exact simple_paid hc h he fun x e q => by cases e <;> simp
  · exact parseOccurrence_paid hc h he
  · exact parseOccurrence_paid hc h he
  · exact simple_paid hc h he fun x e q => by cases e <;> simp
  · exact parseTag_paid hc h he
  · exact simple_paid hc h he fun x e q => by cases e <;> simp

theorem ledOf_paid (hc : CC rec) (h : Credit p0 c p) {f} (hf : ledOf rec p.cur = some f) :
    (f left p).wp (Paid p0 c) := by
  have he : p.cur ≠ .EOF := by
    intro he; rw [he] at hf; cases hf
  generalize hcur : p.cur = tok at hf
  unfold ledOf at hf
  split at hf <;> cases hf
  all_goals first
    | exact parseColon_paid hc h he
    | exact parseTypeChoice_paid hc h he
    | exact parseComparatorOp_paid hc h he
    | exact parseSizeOperator_paid hc h he
    | exact parseRegexp_paid hc h he
    | exact parseBits_paid hc h he
    | exact parseBound_paid hc h he
    | exact parseOccurrence_paid hc h he
    | simpa [parseComma] using Paid.ok h he

theorem skipComment_paid (h : Credit p0 c p) : (skipComment n p).wp (fun q => Credit p0 c q) := by
  unfold skipComment
  split
  · rename_i hp
    refine Out.wp_bind.mpr ((parseComment_paid h (by rw [hp]; decide)).mono ?_)
    rintro ⟨x, e, q⟩ hq r hr
    exact hq.1.skip hr
  · simpa using h

theorem parseEntryBody_paid (hc : CC rec) : CC (parseEntryBody rec n) := by
  intro prec p
  unfold parseEntryBody
  refine Out.wp_bind.mpr ((skipComment_paid (.refl p)).mono ?_)
  intro q hq
  dsimp only
  split
  · simpa using Paid.err hq
  · rename_i f hf
    have hnud : (f q).wp (Paid p 0) := by
      unfold selectNud at hf
      split at hf
      · rename_i hi
        cases hf; simpa [parseIdentifier] using Paid.ok hq (by rw [hi.1]; decide)
      · exact nudOf_paid hc hq hf
    refine Out.wp_bind.mpr (hnud.mono ?_)
    rintro ⟨x, e, q'⟩ hq'
    cases e with
    | some d => simpa using (hq' : Paid p 0 (x, some d, q'))
    | none =>
      refine loopOut_wp (I := fun s => Credit p (-1) s.2 ∧ s.2.cur ≠ .EOF) ?_ n _ ⟨by simpa using hq'.1, hq'.2⟩
      intro s hs
      unfold ledStep
      split
      · split
        · simp only [Out.wp_ok]; exact ⟨hs.1.drop (by omega), hs.2⟩
        · rename_i g hg
          refine Out.wp_bind.mpr ?_
          intro r hr
          rw [← (next_fields hr).1] at hg
          refine Out.wp_bind.mpr ((ledOf_paid hc (hs.1.next hs.2 hr) hg).mono ?_)
          rintro ⟨x, e, q⟩ hq
          cases e with
          | some d => simp only [Out.wp_ok]; exact Credit.drop hq (by omega)
          | none => simp only [Out.wp_ok]; exact ⟨hq.1.drop (by omega), hq.2⟩
      · simp only [Out.wp_ok]; exact ⟨hs.1.drop (by omega), hs.2⟩

theorem parseEntry_paid (n : Nat) : CC (parseEntry n) := by
  induction n with
  | zero => intro prec p; exact Out.wp_hang.mpr trivial
  | succ n ih => exact parseEntryBody_paid ih

/-- Tokens other than the end of the file. -/
def counted (ts : List Token) : Nat := (ts.filter fun t => t.tok ≠ .EOF).length

omit [Unicode] in
theorem counted_append (a b : List Token) : counted (a ++ b) = counted a + counted b := by
  simp [counted]

/-- The parser has read `ts`, and has no more diagnostics and tasks than these are, less `c`. -/
def Within (l : Lexer) (c : Int) (p : PState) : Prop :=
  ∃ ts, Synced l ts p ∧ (p.errors.length + p.tasks.length : Int) + c ≤ counted ts

theorem Within.credit {l : Lexer} {d} (hw : Within l d p) (h : Credit p c q) : Within l (d + c) q := by
  induction h with
  | refl => simpa using hw
  | @next q r c _ he hn ih =>
    obtain ⟨ts, h1, h2⟩ := ih
    refine ⟨_, synced_next h1 hn, ?_⟩
    obtain ⟨-, -, -, -, g1, g2, -⟩ := next_fields hn
    rw [g1, g2, counted_append]
    have : counted [q.curTok] = 1 := by simp [counted, PState.curTok, he]
    omega
  | skip _ hn ih =>
    obtain ⟨ts, h1, h2⟩ := ih
    refine ⟨_, synced_next h1 hn, ?_⟩
    obtain ⟨-, -, -, -, g1, g2, -⟩ := next_fields hn
    rw [g1, g2, counted_append]
    omega
  | task t _ ih =>
    obtain ⟨ts, h1, h2⟩ := ih
    refine ⟨ts, h1, ?_⟩
    simp only [addTask, List.length_append, List.length_singleton]
    omega
  | drop _ _ ih =>
    obtain ⟨ts, h1, h2⟩ := ih
    exact ⟨ts, h1, by omega⟩

theorem Within.error {l : Lexer} {d} (hw : Within l c p) : Within l (c - 1) (p.addError d) := by
  obtain ⟨ts, h1, h2⟩ := hw
  refine ⟨ts, h1, ?_⟩
  simp only [addError, List.length_append, List.length_singleton]
  omega

theorem Within.mono {l : Lexer} {d} (hw : Within l c p) (h : d ≤ c) : Within l d p := by
  obtain ⟨ts, h1, h2⟩ := hw
  exact ⟨ts, h1, by omega⟩

theorem Within.next {l : Lexer} (hw : Within l c p) (h : p.next = .ok q) : Within l c q := by
  simpa using hw.credit (.skip (.refl p) h)

theorem declare_within {l : Lexer} (hw : Within l c p) {name x} :
    (declare name x p).wp (Within l (c - 1)) := by
  unfold declare
  split
  · simp only [Out.wp_ok]
    obtain ⟨ts, h1, h2⟩ := hw
    exact ⟨ts, h1, by simp only; omega⟩
  · refine Out.wp_bind.mpr (Out.wp_true.mono ?_)
    intro s _
    simp only [Out.wp_ok]
    refine Within.error ?_
    obtain ⟨ts, h1, h2⟩ := hw
    exact ⟨ts, h1, by simpa using h2⟩

theorem ruleTrailing_within {l : Lexer} (hw : Within l c p) :
    (ruleTrailing p).wp fun r => Within l c r.2 := by
  unfold ruleTrailing
  split
  · refine Out.wp_bind.mpr ?_
    intro q hq
    refine Out.wp_bind.mpr ?_
    intro r hr
    simp only [Out.wp_ok]
    exact (hw.next hq).next hr
  · simpa using hw

/-- A rule with its diagnostic, if any, is paid by its tokens, or by the one that follows if it consists of one
only. -/
theorem parseRule_within {l : Lexer} (hw : Within l 0 p) (he : p.cur ≠ .EOF) :
    (parseRule n p).wp fun r => match r.2.1 with
      | none => Within l 0 r.2.2
      | some _ => Within l 0 r.2.2 ∧ (r.2.2.cur ≠ .EOF ∨ Within l 1 r.2.2) := by
  have w1 : ∀ {q}, p.next = .ok q → Within l 1 q := fun hq => by
    simpa using hw.credit (.next (.refl p) he hq)
  unfold parseRule
  split
  · refine (parseComment_paid (.refl p) he).mono ?_
    rintro ⟨x, e, q⟩ ⟨h1, h2, h3⟩
    cases h3
    simpa using hw.credit h1
  · refine Out.wp_bind.mpr ?_
    intro p1 h1
    have hw1 := w1 h1
    dsimp only
    split
    · rename_i ha
      refine pass_paid (parseEntry_paid n) (.refl p1) (by rw [ha]; decide) ?_ ?_
      · intro x e q hq
        simp only [Out.wp_ok]
        have := hw1.credit hq
        exact ⟨this.mono (by omega), .inr (this.mono (by omega))⟩
      · intro x q hq hE
        refine Out.wp_bind.mpr ((ruleTrailing_within (hw1.credit hq)).mono ?_)
        rintro ⟨tc, p4⟩ h4
        refine Out.wp_bind.mpr ((declare_within h4).mono ?_)
        intro p5 h5
        simpa using h5
    all_goals first
      | (rename_i ha
         refine Out.wp_bind.mpr ?_
         intro p2 h2
         have hw2 := hw1.credit (.next (.refl p1) (by rw [ha]; decide) h2)
         refine Out.wp_bind.mpr ((parseEntry_paid n 0 p2).mono ?_)
         rintro ⟨x, e, q⟩ hq
         cases e with
         | some d =>
           simp only [Out.wp_ok]
           have := hw2.credit hq
           exact ⟨this.mono (by omega), .inr (this.mono (by omega))⟩
         | none =>
           refine Out.wp_bind.mpr ((ruleTrailing_within (hw2.credit hq.1)).mono ?_)
           rintro ⟨tc, p4⟩ h4
           simp only [Out.wp_ok]
           exact h4.mono (by omega))
      | (simp only [Out.wp_ok]
         exact ⟨hw1.mono (by omega), .inr hw1⟩)
  · simp only [Out.wp_ok]
    exact ⟨hw, .inl he⟩

theorem fileStep_within {l : Lexer} {s : List Node × PState} (hw : Within l 0 s.2) :
    (fileStep n s).wp fun r => match r with
      | .inl t => Within l 0 t.2
      | .inr t => Within l 0 t.2 ∧ t.2.cur = .EOF := by
  unfold fileStep
  split
  · rename_i he
    simpa using ⟨hw, he⟩
  · rename_i he
    refine Out.wp_bind.mpr ((parseRule_within hw he).mono ?_)
    rintro ⟨x, e, q⟩ hq
    refine Out.wp_bind.mpr ?_
    cases e with
    | none =>
      intro r hr
      simp only [Out.wp_ok]
      exact Within.next hq hr
    | some d =>
      intro r hr
      simp only [Out.wp_ok]
      obtain ⟨h1, h2 | h2⟩ := hq
      · exact (h1.error (d := d)).credit (.next (.refl _) h2 hr)
      · exact ((h2.error (d := d)).mono (by omega)).next hr

end PState
end Cddlc
