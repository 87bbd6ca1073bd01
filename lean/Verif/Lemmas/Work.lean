import Verif.Lemmas.Credit
import Verif.Lemmas.Prefix
import Verif.Spec.Work

/-! How often `parseEntry` is called for the tokens read. -/

namespace Cddlc
variable [Unicode]

/-- `q` is obtained from `p` by reading tokens, adding tasks and making notes, and at least `c` more tokens were
left behind than notes were made; the end of the file is not counted. -/
inductive Fare : PState → Int → PState → Prop
  | refl (p) : Fare p 0 p
  | next {p q r c} : Fare p c q → q.cur ≠ .EOF → q.next = .ok r → Fare p (c + 1) r
  | skip {p q r c} : Fare p c q → q.next = .ok r → Fare p c r
  | task {p q c} (t) : Fare p c q → Fare p c (q.addTask t)
  | note {p q c} (d) : Fare p c q → Fare p (c - 1) (q.addError d)
  | drop {p q c d} : Fare p c q → d ≤ c → Fare p d q

theorem Fare.trans {p q r : PState} {c d} (h : Fare p c q) (h' : Fare q d r) : Fare p (c + d) r := by
  induction h' with
  | refl => simpa using h
  | next _ he hn ih => rw [← Int.add_assoc]; exact ih.next he hn
  | skip _ hn ih => exact ih.skip hn
  | task t _ ih => exact ih.task t
  | note d _ ih => rw [← Int.add_sub_assoc]; exact ih.note d
  | drop _ hd ih => exact ih.drop (by omega)

namespace PState

/-- The only diagnostic that an entry ends with behind the source. -/
def AtEnd (d : Diag) : Prop := ∃ x, d.msg = .unexpectedPrefix .EOF x

/-- The tokens read pay for the notes made, and for `c` more; there is a token left, unless the diagnostic says
that there is none. -/
def Fair (p0 : PState) (c : Int) (r : Node × Option Diag × PState) : Prop :=
  match r.2.1 with
  | none => Fare p0 c r.2.2 ∧ r.2.2.cur ≠ .EOF
  | some d => Fare p0 c r.2.2 ∧ (r.2.2.cur = .EOF → AtEnd d)

/-- The recursive call costs one. -/
def CF (rec : Rec) : Prop := ∀ prec p, (rec prec p).wp (Fair p (-1))

variable {rec : Rec} {p0 p q : PState} {n : Nat} {left : Node} {c : Int}

theorem Fair.err {x d} (h : Fare p0 c q) (he : q.cur ≠ .EOF) : Fair p0 c (x, some d, q) := ⟨h, fun h => absurd h he⟩

theorem Fair.pass {c' x y d} (h : Fair p0 c (x, some d, q)) (hc : c' ≤ c) : Fair p0 c' (y, some d, q) := ⟨h.1.drop hc, h.2⟩

theorem Fair.ok {x} (h : Fare p0 c q) (he : q.cur ≠ .EOF) : Fair p0 c (x, none, q) := ⟨h, he⟩

theorem rec_fair (hc : CF rec) (h : Fare p0 (c + 1) p) (prec) : (rec prec p).wp (Fair p0 c) := by
  refine (hc prec p).mono ?_
  rintro ⟨x, e, q⟩ hr
  cases e with
  | none => exact ⟨(h.trans hr.1).drop (by omega), hr.2⟩
  | some d => exact ⟨(h.trans hr.1).drop (by omega), hr.2⟩

/-- An operand is paid by the operator. -/
theorem nextEntry_fair (hc : CF rec) (h : Fare p0 c p) (he : p.cur ≠ .EOF) :
    (nextEntry rec p).wp (Fair p0 c) := by
  unfold nextEntry
  refine Out.wp_bind.mpr ?_
  intro q hq
  exact rec_fair hc (h.next he hq) _

theorem pass_fair (hc : CF rec) (h : Fare p0 c p) (he : p.cur ≠ .EOF)
    {F : Node × Option Diag × PState → PRes} {Q : Node × Option Diag × PState → Prop}
    (hs : ∀ x e q, Fair p0 c (x, some e, q) → (F (x, some e, q)).wp Q)
    (hn : ∀ x q, Fare p0 c q → q.cur ≠ .EOF → (F (x, none, q)).wp Q) :
    (nextEntry rec p >>= F).wp Q := by
  refine Out.wp_bind.mpr ((nextEntry_fair hc h he).mono ?_)
  rintro ⟨x, e, r⟩ hr
  cases e with
  | some d => exact hs x d r hr
  | none => exact hn x r hr.1 hr.2

theorem parseComment_fair (h : Fare p0 c p) (he : p.cur ≠ .EOF) :
    (parseComment n p).wp (fun r => Fare p0 c r.2.2 ∧ r.2.2.cur ≠ .EOF ∧ r.2.1 = none) := by
  unfold parseComment
  refine Out.wp_bind.mpr ((loopOut_wp (I := fun s => Fare p0 c s.2 ∧ s.2.cur ≠ .EOF)
    (Q := fun s => Fare p0 c s.2 ∧ s.2.cur ≠ .EOF) ?_ n _ ⟨h, he⟩).mono ?_)
  · intro s hs
    unfold commentStep
    split
    · rename_i hp
      refine Out.wp_bind.mpr ?_
      intro q hq
      have : q.cur = s.2.peek := (next_fields hq).1
      simp only [Out.wp_ok]
      exact ⟨hs.1.skip hq, by rw [this, hp]; decide⟩
    · simpa using hs
  · rintro ⟨cs, q⟩ hq
    dsimp only
    split <;> simpa using hq

/-- Most operators: the diagnostic of the operand is passed on, and nothing is read behind it. -/
theorem simple_fair (hc : CF rec) (h : Fare p0 c p) (he : p.cur ≠ .EOF) {F : Node × Option Diag × PState → PRes}
    (hF : ∀ x e q, (F (x, e, q)).wp fun r => r.2.2 = q ∧ r.2.1 = e) :
    (nextEntry rec p >>= F).wp (Fair p0 c) := by
  refine pass_fair hc h he ?_ ?_
  · intro x e q hq
    refine (hF x (some e) q).mono ?_
    rintro ⟨y, d, q'⟩ ⟨rfl, h2⟩
    cases h2
    exact hq
  · intro x q hq hE
    refine (hF x none q).mono ?_
    rintro ⟨y, d, q'⟩ ⟨rfl, h2⟩
    cases h2
    exact ⟨hq, hE⟩

theorem parseColon_fair (hc : CF rec) (h : Fare p0 c p) (he : p.cur ≠ .EOF) :
    (parseColon rec left p).wp (Fair p0 c) := by
  unfold parseColon
  dsimp only
  split
  · simpa using Fair.err h he
  · refine pass_fair hc h he ?_ ?_
    · intro x e q hq
      simpa using hq.pass (by omega)
    · intro x q hq hE
      dsimp only
      split
      · rename_i hp
        refine Out.wp_bind.mpr ?_
        intro q' hq'
        simp only [Out.wp_ok]
        exact .ok (hq.skip hq') (by rw [(next_fields hq').1, hp.1]; decide)
      · simpa using Fair.ok hq hE

theorem parseTypeChoice_fair (hc : CF rec) (h : Fare p0 c p) (he : p.cur ≠ .EOF) :
    (parseTypeChoice rec left p).wp (Fair p0 c) :=
  simple_fair hc h he fun x e q => by cases e <;> simp

theorem parseTagItem_fair (hc : CF rec) (h : Fare p0 c p) (he : p.cur ≠ .EOF) {pos tok major number} :
    (parseTagItem rec pos tok major number p).wp (Fair p0 c) := by
  unfold parseTagItem
  split
  · rename_i hp
    refine Out.wp_bind.mpr ?_
    intro q hq
    have hcur : q.cur ≠ .EOF := by rw [(next_fields hq).1, hp]; decide
    refine pass_fair hc (h.next he hq) hcur ?_ ?_
    · intro x e q hq
      simpa using hq.pass (by omega)
    · intro x q hq hE
      dsimp only
      refine Out.wp_bind.mpr ?_
      unfold expectPeek
      split
      · simpa using Fair.ok (hq.drop (by omega)) hE
      · rename_i hp
        intro q' hq'
        simp only [Out.wp_ok]
        exact .ok ((hq.skip hq').drop (by omega)) (by rw [(next_fields hq').1]; simp only [ne_eq, Decidable.not_not] at hp; rw [hp]; decide)
  · simpa using Fair.ok h he

theorem parseTag_fair (hc : CF rec) (h : Fare p0 c p) (he : p.cur ≠ .EOF) :
    (parseTag rec p).wp (Fair p0 c) := by
  unfold parseTag
  split
  · rename_i hp
    refine Out.wp_bind.mpr ?_
    intro q hq
    have hcur : q.cur ≠ .EOF := by rw [(next_fields hq).1, hp]; decide
    split
    · simpa using Fair.err (h.skip hq) hcur
    · exact parseTagItem_fair hc (h.skip hq) hcur
  · rename_i hp
    refine Out.wp_bind.mpr ?_
    intro q hq
    have hcur : q.cur ≠ .EOF := by rw [(next_fields hq).1, hp]; decide
    split
    · simpa using Fair.err (h.skip hq) hcur
    · exact parseTagItem_fair hc (h.skip hq) hcur
  · exact parseTagItem_fair hc h he

theorem parseOccItem_fair (hc : CF rec) (h : Fare p0 (c + 1) p) {pos tok a b} :
    (parseOccItem rec pos tok a b p).wp (Fair p0 c) := by
  unfold parseOccItem
  refine Out.wp_bind.mpr ((rec_fair hc h _).mono ?_)
  rintro ⟨x, e, q⟩ hq
  cases e with
  | some d => simpa using hq.pass (by omega)
  | none => simpa using Fair.ok (hq.1.drop (by omega)) hq.2

theorem parseOccUpper_fair (hc : CF rec) (h : Fare p0 c p) (he : p.cur ≠ .EOF) {u} :
    (parseOccUpper rec u p).wp (Fair p0 c) := by
  unfold parseOccUpper
  split
  · rename_i hp
    refine Out.wp_bind.mpr ?_
    intro q hq
    have hcur : q.cur ≠ .EOF := by rw [(next_fields hq).1, hp.1]; decide
    refine Out.wp_bind.mpr (parseUintType_state.mono ?_)
    rintro ⟨x, e, q'⟩ hq'
    dsimp only at hq' ⊢
    subst hq'
    split
    · simpa using Fair.err (h.skip hq) hcur
    · exact parseOccItem_fair hc (h.next he hq)
  · refine Out.wp_bind.mpr ?_
    intro q hq
    exact parseOccItem_fair hc (h.next he hq)

theorem parseOccurrence_fair (hc : CF rec) (h : Fare p0 c p) (he : p.cur ≠ .EOF) :
    (parseOccurrence rec left p).wp (Fair p0 c) := by
  unfold parseOccurrence
  split
  · exact parseOccUpper_fair hc h he
  · split
    · simpa using Fair.err h he
    · exact parseOccUpper_fair hc h he
  · refine Out.wp_bind.mpr (Out.wp_true.mono ?_)
    intro s _
    refine Out.wp_bind.mpr (Out.wp_true.mono ?_)
    intro e _
    simpa using Fair.err h he

theorem parseSizeOperator_fair (hc : CF rec) (h : Fare p0 c p) (he : p.cur ≠ .EOF) :
    (parseSizeOperator rec left p).wp (Fair p0 c) := by
  unfold parseSizeOperator
  split
  all_goals first
    | (refine simple_fair hc h he fun x e q => ?_
       cases e <;> simp)
    | simpa using Fair.err h he

theorem parseRegexp_fair (hc : CF rec) (h : Fare p0 c p) (he : p.cur ≠ .EOF) :
    (parseRegexp rec left p).wp (Fair p0 c) := by
  unfold parseRegexp
  split
  · split
    · simpa using Fair.err h he
    · refine simple_fair hc h he fun x e q => ?_
      cases e <;> simp
  · simp

theorem parseBits_fair (hc : CF rec) (h : Fare p0 c p) (he : p.cur ≠ .EOF) :
    (parseBits rec left p).wp (Fair p0 c) := by
  unfold parseBits
  refine simple_fair hc h he fun x e q => ?_
  cases e with
  | none => simp
  | some d =>
    refine Out.wp_bind.mpr (Out.wp_true.mono ?_)
    intro b _
    simp

theorem parseList_fair (hc : CF rec) (h : Fare p0 c p) (he : p.cur ≠ .EOF) {close keep} (hE : close ≠ .EOF) :
    (parseList rec n close keep p).wp fun r => match r.2.1 with
      | none => Fare p0 c r.2.2 ∧ r.2.2.cur ≠ .EOF
      | some d => Fare p0 c r.2.2 ∧ (r.2.2.cur = .EOF → AtEnd d) := by
  unfold parseList
  refine Out.wp_bind.mpr ?_
  intro q hq
  refine loopOut_wp (I := fun s => Fare p0 (c + 1) s.2) ?_ n _ (h.next he hq)
  intro s hs
  unfold listStep
  split
  · rename_i hcl
    simp only [Out.wp_ok]
    exact ⟨hs.drop (by omega), by rw [hcl]; exact hE⟩
  · refine Out.wp_bind.mpr ((rec_fair hc hs _).mono ?_)
    rintro ⟨x, e, q⟩ hq
    cases e with
    | some d => simp only [Out.wp_ok]; exact hq
    | none =>
      refine Out.wp_bind.mpr ?_
      intro q' hq'
      simp only [Out.wp_ok]
      exact (hq.1.next hq.2 hq').drop (by omega)

theorem parseComparatorOp_fair (hc : CF rec) (h : Fare p0 c p) (he : p.cur ≠ .EOF) :
    (parseComparatorOp rec left p).wp (Fair p0 c) := by
  unfold parseComparatorOp
  split
  all_goals first
    | (refine simple_fair hc h he fun x e q => ?_
       cases e <;> simp)
    | simpa using Fair.err h he

theorem parseBound_fair (hc : CF rec) (h : Fare p0 c p) (he : p.cur ≠ .EOF) :
    (parseBound rec left p).wp (Fair p0 c) := by
  have task : ∀ {x q} (t : Task), Fare p0 c q → q.cur ≠ .EOF →
      Fair p0 c (x, none, q.addTask t) := fun t hq hE => ⟨hq.task t, hE⟩
  unfold parseBound
  split
  · unfold parseIntBound
    refine pass_fair hc h he ?_ ?_
    · intro x e q hq
      simpa using hq.pass (by omega)
    · intro x q hq hE
      dsimp only
      split <;> simp only [Out.wp_ok] <;> first | exact .ok hq hE | exact .err hq hE | exact task _ hq hE
  · unfold parseFloatBound
    refine pass_fair hc h he ?_ ?_
    · intro x e q hq
      simpa using hq.pass (by omega)
    · intro x q hq hE
      dsimp only
      split <;> simp only [Out.wp_ok] <;> first | exact .ok hq hE | exact .err hq hE | exact task _ hq hE
  · unfold parseIdentBound
    refine pass_fair hc h he ?_ ?_
    · intro x e q hq
      simpa using hq.pass (by omega)
    · intro x q hq hE
      simp only [Out.wp_ok]
      exact task _ hq hE
  · simpa using Fair.ok h he

theorem nudOf_fair (hc : CF rec) (h : Fare p0 c p) {f} (hf : nudOf rec n p.cur = some f) :
    (f p).wp (Fair p0 c) := by
  have he : p.cur ≠ .EOF := by
    intro he; rw [he] at hf; cases hf
  have eqs : ∀ {g : PState → PRes}, (g p).wp (fun r => r.2.2 = p) → (g p).wp (Fair p0 c) :=
    fun hg => hg.mono fun ⟨x, e, q⟩ hr => by
      cases hr
      cases e
      · exact .ok h he
      · exact .err h he
  have lists : ∀ {F : List Node → Node} {close keep}, close ≠ .EOF →
      ((parseList rec n close keep p) >>= fun r => (.ok (F r.1, r.2.1, r.2.2) : PRes)).wp (Fair p0 c) := by
    intro F close keep hcl
    refine Out.wp_bind.mpr ((parseList_fair hc h he hcl).mono ?_)
    rintro ⟨x, e, q⟩ hq
    simp only [Out.wp_ok]
    cases e with
    | none => exact .ok hq.1 hq.2
    | some d => exact hq
  generalize hcur : p.cur = tok at hf
  unfold nudOf at hf
  split at hf <;> cases hf
  · unfold parseNamedIdentifier
    split
    · simp
    · split
      · simp only [Out.wp_ok]; exact ⟨h.task _, he⟩
      · simpa using Fair.ok h he
  · simpa [parseBooleanType] using Fair.ok h he
  · exact eqs parseBooleanLiteral_state
  · exact eqs parseBooleanLiteral_state
  · simpa [parseTstrType] using Fair.ok h he
  · simpa [parseTstrType] using Fair.ok h he
  · simpa [parseTextLiteral] using Fair.ok h he
  · exact eqs parseFloatType_state
  · exact eqs parseFloatType_state
  · exact eqs parseFloatType_state
  · exact eqs parseFloatType_state
  · exact eqs parseUintType_state
  · exact eqs parseIntegerType_state
  · simpa [parseNegativeIntegerType] using Fair.ok h he
  · simpa [parseBstrType] using Fair.ok h he
  · simpa [parseBytesType] using Fair.ok h he
  · simpa [parseNullType] using Fair.ok h he
  · simpa [parseNullType] using Fair.ok h he
  · exact lists (F := .map p.pos) (by decide)
  · exact lists (F := .group p.pos) (by decide)
  · exact lists (F := .array p.pos) (by decide)
  · refine (parseComment_fair h he).mono ?_
    rintro ⟨x, e, q⟩ ⟨h1, h2, h3⟩
    cases h3
    exact .ok h1 h2
  · exact simple_fair hc h he fun x e q => by cases e <;> simp
  · exact parseOccurrence_fair hc h he
  · exact parseOccurrence_fair hc h he
  · exact simple_fair hc h he fun x e q => by cases e <;> simp
  · exact parseTag_fair hc h he
  · exact simple_fair hc h he fun x e q => by cases e <;> simp

theorem ledOf_fair (hc : CF rec) (h : Fare p0 c p) {f} (hf : ledOf rec p.cur = some f) :
    (f left p).wp (Fair p0 c) := by
  have he : p.cur ≠ .EOF := by
    intro he; rw [he] at hf; cases hf
  generalize hcur : p.cur = tok at hf
  unfold ledOf at hf
  split at hf <;> cases hf
  all_goals first
    | exact parseColon_fair hc h he
    | exact parseTypeChoice_fair hc h he
    | exact parseComparatorOp_fair hc h he
    | exact parseSizeOperator_fair hc h he
    | exact parseRegexp_fair hc h he
    | exact parseBits_fair hc h he
    | exact parseBound_fair hc h he
    | exact parseOccurrence_fair hc h he
    | simpa [parseComma] using Fair.ok h he

theorem skipComment_fair (h : Fare p0 c p) : (skipComment n p).wp (fun q => Fare p0 c q) := by
  unfold skipComment
  split
  · rename_i hp
    refine Out.wp_bind.mpr ((parseComment_fair h (by rw [hp]; decide)).mono ?_)
    rintro ⟨x, e, q⟩ hq r hr
    exact hq.1.skip hr
  · simpa using h

theorem parseEntryBody_fair (hc : CF rec) (prec : Nat) {p p' : PState} (h : Fare p (-1) p') :
    (parseEntryBody rec n prec p').wp (Fair p (-1)) := by
  unfold parseEntryBody
  refine Out.wp_bind.mpr ((skipComment_fair h).mono ?_)
  intro q hq
  dsimp only
  split
  · simp only [Out.wp_ok]
    exact ⟨hq, fun he => ⟨q.pos, by rw [← he]; rfl⟩⟩
  · rename_i f hf
    have hnud : (f q).wp (Fair p (-1)) := by
      unfold selectNud at hf
      split at hf
      · rename_i hi
        cases hf; simpa [parseIdentifier] using Fair.ok hq (by rw [hi.1]; decide)
      · exact nudOf_fair hc hq hf
    refine Out.wp_bind.mpr (hnud.mono ?_)
    rintro ⟨x, e, q'⟩ hq'
    cases e with
    | some d => simpa using (hq' : Fair p (-1) (x, some d, q'))
    | none =>
      refine loopOut_wp (I := fun s => Fare p (-1) s.2 ∧ s.2.cur ≠ .EOF) ?_ n _ ⟨hq'.1, hq'.2⟩
      intro s hs
      unfold ledStep
      split
      · split
        · simp only [Out.wp_ok]; exact hs
        · rename_i g hg
          refine Out.wp_bind.mpr ?_
          intro r hr
          rw [← (next_fields hr).1] at hg
          refine Out.wp_bind.mpr ((ledOf_fair hc (hs.1.skip hr) hg).mono ?_)
          rintro ⟨x, e, q⟩ hq
          cases e with
          | some d => simp only [Out.wp_ok]; exact hq
          | none => simp only [Out.wp_ok]; exact hq
      · simp only [Out.wp_ok]; exact hs

theorem notedEntry_fair (d : Diag) (n : Nat) : CF (Spec.notedEntry d n) := by
  induction n with
  | zero => intro prec p; exact Out.wp_hang.mpr trivial
  | succ n ih => exact fun prec p => parseEntryBody_fair ih prec ((Fare.refl p).note d)

theorem parseEntry_fair (n : Nat) : CF (parseEntry n) := by
  induction n with
  | zero => intro prec p; exact Out.wp_hang.mpr trivial
  | succ n ih => exact fun prec p => parseEntryBody_fair ih prec ((Fare.refl p).drop (by omega))

/-- The parser has read `ts`, and has no more diagnostics than these are, less `c`. -/
def Covers (l : Lexer) (c : Int) (p : PState) : Prop :=
  ∃ ts, Synced l ts p ∧ (p.errors.length : Int) + c ≤ counted ts

theorem Covers.fare {l : Lexer} {d} (hw : Covers l d p) (h : Fare p c q) : Covers l (d + c) q := by
  induction h with
  | refl => simpa using hw
  | @next q r c _ he hn ih =>
    obtain ⟨ts, h1, h2⟩ := ih
    refine ⟨_, synced_next h1 hn, ?_⟩
    obtain ⟨-, -, -, -, -, g1, -⟩ := next_fields hn
    rw [g1, counted_append]
    have : counted [q.curTok] = 1 := by simp [counted, PState.curTok, he]
    omega
  | skip _ hn ih =>
    obtain ⟨ts, h1, h2⟩ := ih
    refine ⟨_, synced_next h1 hn, ?_⟩
    obtain ⟨-, -, -, -, -, g1, -⟩ := next_fields hn
    rw [g1, counted_append]
    omega
  | task t _ ih => exact ih
  | note d _ ih =>
    obtain ⟨ts, h1, h2⟩ := ih
    refine ⟨ts, h1, ?_⟩
    simp only [addError, List.length_append, List.length_singleton]
    omega
  | drop _ _ ih =>
    obtain ⟨ts, h1, h2⟩ := ih
    exact ⟨ts, h1, by omega⟩

theorem Covers.error {l : Lexer} {d} (hw : Covers l c p) : Covers l (c - 1) (p.addError d) := by
  obtain ⟨ts, h1, h2⟩ := hw
  refine ⟨ts, h1, ?_⟩
  simp only [addError, List.length_append, List.length_singleton]
  omega

theorem Covers.mono {l : Lexer} {d} (hw : Covers l c p) (h : d ≤ c) : Covers l d p := by
  obtain ⟨ts, h1, h2⟩ := hw
  exact ⟨ts, h1, by omega⟩

theorem Covers.next {l : Lexer} (hw : Covers l c p) (h : p.next = .ok q) : Covers l c q := by
  simpa using hw.fare (.skip (.refl p) h)

theorem declare_covers {l : Lexer} (hw : Covers l c p) {name x} :
    (declare name x p).wp (Covers l (c - 1)) := by
  unfold declare
  split
  · simp only [Out.wp_ok]
    obtain ⟨ts, h1, h2⟩ := hw
    exact ⟨ts, h1, by simp only; omega⟩
  · refine Out.wp_bind.mpr (Out.wp_true.mono ?_)
    intro s _
    simp only [Out.wp_ok]
    refine Covers.error ?_
    obtain ⟨ts, h1, h2⟩ := hw
    exact ⟨ts, h1, by simpa using h2⟩

theorem ruleTrailing_covers {l : Lexer} (hw : Covers l c p) :
    (ruleTrailing p).wp fun r => Covers l c r.2 := by
  unfold ruleTrailing
  split
  · refine Out.wp_bind.mpr ?_
    intro q hq
    refine Out.wp_bind.mpr ?_
    intro r hr
    simp only [Out.wp_ok]
    exact (hw.next hq).next hr
  · simpa using hw

/-- A rule with its diagnostic, if any, is paid by its tokens, or by the one that follows if it consists of one
only. -/
theorem ruleWith_covers (hc : CF rec) {l : Lexer} (hw : Covers l 0 p) (he : p.cur ≠ .EOF) :
    (Spec.ruleWith rec n p).wp fun r => match r.2.1 with
      | none => Covers l 0 r.2.2
      | some _ => Covers l 0 r.2.2 ∧ (r.2.2.cur ≠ .EOF ∨ Covers l 1 r.2.2) := by
  have w1 : ∀ {q}, p.next = .ok q → Covers l 1 q := fun hq => by
    simpa using hw.fare (.next (.refl p) he hq)
  unfold Spec.ruleWith
  split
  · refine (parseComment_fair (.refl p) he).mono ?_
    rintro ⟨x, e, q⟩ ⟨h1, h2, h3⟩
    cases h3
    simpa using hw.fare h1
  · refine Out.wp_bind.mpr ?_
    intro p1 h1
    have hw1 := w1 h1
    dsimp only
    split
    · rename_i ha
      refine pass_fair hc (.refl p1) (by rw [ha]; decide) ?_ ?_
      · intro x e q hq
        simp only [Out.wp_ok]
        have := hw1.fare hq.1
        exact ⟨this.mono (by omega), .inr (this.mono (by omega))⟩
      · intro x q hq hE
        refine Out.wp_bind.mpr ((ruleTrailing_covers (hw1.fare hq)).mono ?_)
        rintro ⟨tc, p4⟩ h4
        refine Out.wp_bind.mpr ((declare_covers h4).mono ?_)
        intro p5 h5
        simpa using h5
    all_goals first
      | (rename_i ha
         refine Out.wp_bind.mpr ?_
         intro p2 h2
         have hw2 := hw1.fare (.next (.refl p1) (by rw [ha]; decide) h2)
         refine Out.wp_bind.mpr ((hc 0 p2).mono ?_)
         rintro ⟨x, e, q⟩ hq
         cases e with
         | some d =>
           simp only [Out.wp_ok]
           have := hw2.fare hq.1
           exact ⟨this.mono (by omega), .inr (this.mono (by omega))⟩
         | none =>
           refine Out.wp_bind.mpr ((ruleTrailing_covers (hw2.fare hq.1)).mono ?_)
           rintro ⟨tc, p4⟩ h4
           simp only [Out.wp_ok]
           exact h4.mono (by omega))
      | (simp only [Out.wp_ok]
         exact ⟨hw1.mono (by omega), .inr hw1⟩)
  · simp only [Out.wp_ok]
    exact ⟨hw, .inl he⟩

theorem stepWith_covers (hc : CF rec) {l : Lexer} {s : List Node × PState} (hw : Covers l 0 s.2) :
    (Spec.stepWith rec n s).wp fun r => match r with
      | .inl t => Covers l 0 t.2
      | .inr t => Covers l 0 t.2 ∧ t.2.cur = .EOF := by
  unfold Spec.stepWith
  split
  · rename_i he
    simpa using ⟨hw, he⟩
  · rename_i he
    refine Out.wp_bind.mpr ((ruleWith_covers hc hw he).mono ?_)
    rintro ⟨x, e, q⟩ hq
    refine Out.wp_bind.mpr ?_
    cases e with
    | none =>
      intro r hr
      simp only [Out.wp_ok]
      exact Covers.next hq hr
    | some d =>
      intro r hr
      simp only [Out.wp_ok]
      obtain ⟨h1, h2 | h2⟩ := hq
      · exact (h1.error (d := d)).fare (.next (.refl _) h2 hr)
      · exact ((h2.error (d := d)).mono (by omega)).next hr

end PState

open PState

/-! ### The parser with notes is the parser -/

/-- The same parsers up to notes. -/
def notedTwins (d : Diag) : Twins where
  gone _ := False
  near p m := ∃ es k, es.Perm (p.errors ++ List.replicate k d) ∧
    m = ⟨p.lx, p.peek, p.peekPos, p.peekLit, es, p.env, p.tasks⟩
  gone_next h _ := h
  gone_task h := h
  gone_declare h _ := h
  near_next := by
    rintro p q m ⟨es, k, h1, rfl⟩ hn
    obtain ⟨t, x, s, l, h3, rfl⟩ := next_scan hn
    refine .inr ⟨_, ⟨es, k, h1, rfl⟩, ?_⟩
    dsimp only [PState.next]
    rw [h3]
    rfl
  near_task := by
    rintro p m t ⟨es, k, h1, rfl⟩
    exact ⟨es, k, h1, rfl⟩
  near_declare := by
    rintro p q m i x ⟨es, k, h1, rfl⟩ hd
    refine .inr ?_
    unfold declare at hd ⊢
    dsimp only
    split at hd
    · rename_i env he
      cases hd
      exact ⟨_, ⟨es, k, h1, rfl⟩, rfl⟩
    · rename_i env he
      obtain ⟨s, hs, hd⟩ := Out.bind_eq_ok.mp hd
      cases hd
      rw [hs]
      refine ⟨_, ⟨es ++ [_], k, ?_, rfl⟩, rfl⟩
      simp only [addError]
      rw [List.append_assoc]
      refine (h1.append_right _).trans ?_
      rw [List.append_assoc]
      exact (List.Perm.refl _).append List.perm_append_comm
  look := by
    rintro p m ⟨es, k, h1, rfl⟩
    exact .inl rfl

variable {d : Diag} {p q : PState} {m : Side} {n : Nat}

theorem noted_entry (n : Nat) : RecR (notedTwins d) (parseEntry n) (Spec.notedEntry d n) := by
  refine ⟨parseEntry_reach n, ?_⟩
  induction n with
  | zero => intro _ _ _ _; exact .hang
  | succ n ih =>
    rintro prec p m ⟨es, k, h1, rfl⟩
    refine R_body (T := notedTwins d) (m := ⟨p.lx, p.peek, p.peekPos, p.peekLit, es ++ [d], p.env, p.tasks⟩)
      ⟨parseEntry_reach n, ih⟩ n prec ⟨es ++ [d], k + 1, ?_, rfl⟩
    rw [List.replicate_succ', ← List.append_assoc]
    exact h1.append_right _

theorem noted_file (k : Nat) {acc rules : List Node} (ht : (notedTwins d).near p m)
    (h : loopOut (fileStep n) k (acc, p) = .ok (rules, q)) :
    ∃ m', (notedTwins d).near q m' ∧ loopOut (Spec.stepWith (Spec.notedEntry d n) n) k (acc, p⟪m⟫) = .ok (rules, q⟪m'⟫) := by
  have hrel : Rel (notedTwins d) (loopOut (fileStep n) k (acc, p))
      (loopOut (Spec.stepWith (Spec.notedEntry d n) n) k (HasLx.set (acc, p) m)) := by
    refine rel_loop (T := notedTwins d) (fun _ h => (h : False).elim) ?_ k ht
    rintro ⟨acc, p⟩ m h
    unfold fileStep Spec.stepWith
    dsimp only [HasLx.set, HasLx.get] at h ⊢
    split
    · exact .ok (a := (Sum.inr (acc, p) : (List Node × PState) ⊕ (List Node × PState))) h
    · rw [parseRule_with]
      refine Rel.bind (R_ruleWith (noted_entry n) h) (fun _ h => (h : False).elim) ?_
      rintro ⟨e, err, q⟩ m h
      dsimp only [HasLx.set, HasLx.get] at h ⊢
      cases err with
      | none =>
        exact Rel.bind (rel_next h) (fun _ h => (h : False).elim) fun q m h =>
          .ok (a := (Sum.inl (_, q) : (List Node × PState) ⊕ (List Node × PState))) h
      | some f =>
        obtain ⟨es, k, h1, rfl⟩ := h
        refine Rel.bind (rel_next (p := q.addError f)
          (m := ⟨q.lx, q.peek, q.peekPos, q.peekLit, es ++ [f], q.env, q.tasks⟩) ⟨es ++ [f], k, ?_, rfl⟩)
          (fun _ h => (h : False).elim) fun q m h => .ok (a := (Sum.inl (_, q) : (List Node × PState) ⊕ (List Node × PState))) h
        simp only [addError]
        rw [List.append_assoc]
        refine (h1.append_right _).trans ?_
        rw [List.append_assoc]
        exact (List.Perm.refl _).append List.perm_append_comm
  rcases hrel _ h with hg | ⟨m', h1, h2⟩
  · exact hg.elim
  · exact ⟨m', h1, h2⟩

end Cddlc
