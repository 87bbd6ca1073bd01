import Verif.Lemmas.Wp

/-! Parsing an entry only reads tokens and adds tasks. -/

namespace Cddlc
variable [Unicode]

/-- `q` is obtained from `p` by reading tokens and adding tasks. -/
inductive Reach : PState → PState → Prop
  | refl (p) : Reach p p
  | next {p q r} : Reach p q → q.next = .ok r → Reach p r
  | task {p q} (t) : Reach p q → Reach p (q.addTask t)

theorem Reach.trans {p q r : PState} (h : Reach p q) (h' : Reach q r) : Reach p r := by
  induction h' with
  | refl => exact h
  | next _ hn ih => exact ih.next hn
  | task t _ ih => exact ih.task t

namespace PState

/-- The recursive call only reaches. -/
def RC (rec : Rec) : Prop := ∀ prec p, (rec prec p).wp (fun r => Reach p r.2.2)

variable {rec : Rec} {p0 p : PState} {n : Nat} {left : Node}

theorem next_reach (h : Reach p0 p) : (p.next).wp (fun q => Reach p0 q) := fun _ hq => h.next hq

theorem rec_reach (hc : RC rec) (h : Reach p0 p) (prec) : (rec prec p).wp (fun r => Reach p0 r.2.2) :=
  (hc prec p).mono fun _ hr => h.trans hr

theorem nextEntry_reach (hc : RC rec) (h : Reach p0 p) :
    (nextEntry rec p).wp (fun r => Reach p0 r.2.2) := by
  unfold nextEntry
  refine Out.wp_bind.mpr ((next_reach h).mono ?_)
  intro q hq
  exact rec_reach hc hq _

theorem parseComment_reach (h : Reach p0 p) : (parseComment n p).wp (fun r => Reach p0 r.2.2) := by
  unfold parseComment
  refine Out.wp_bind.mpr ((loopOut_wp (I := fun s => Reach p0 s.2) (Q := fun s => Reach p0 s.2)
    ?_ n _ h).mono ?_)
  · intro s hs
    unfold commentStep
    split
    · refine Out.wp_bind.mpr ((next_reach hs).mono ?_)
      intro q hq
      simpa using hq
    · simpa using hs
  · rintro ⟨cs, q⟩ hq
    dsimp only
    split <;> simpa using hq

theorem parseColon_reach (hc : RC rec) (h : Reach p0 p) :
    (parseColon rec left p).wp (fun r => Reach p0 r.2.2) := by
  unfold parseColon
  dsimp only
  split
  · simpa using h
  · refine Out.wp_bind.mpr ((nextEntry_reach hc h).mono ?_)
    rintro ⟨x, e, q⟩ hq
    dsimp only at hq ⊢
    split
    · simpa using hq
    · split
      · refine Out.wp_bind.mpr ((next_reach hq).mono ?_)
        intro q' hq'
        simpa using hq'
      · simpa using hq

theorem parseTypeChoice_reach (hc : RC rec) (h : Reach p0 p) :
    (parseTypeChoice rec left p).wp (fun r => Reach p0 r.2.2) := by
  unfold parseTypeChoice
  refine Out.wp_bind.mpr ((nextEntry_reach hc h).mono ?_)
  rintro ⟨x, e, q⟩ hq
  dsimp only at hq ⊢
  split <;> simpa using hq

theorem parseUnwrap_reach (hc : RC rec) (h : Reach p0 p) :
    (parseUnwrap rec p).wp (fun r => Reach p0 r.2.2) := by
  unfold parseUnwrap
  refine Out.wp_bind.mpr ((nextEntry_reach hc h).mono ?_)
  rintro ⟨x, e, q⟩ hq
  dsimp only at hq ⊢
  split <;> simpa using hq

theorem parseTagItem_reach (hc : RC rec) (h : Reach p0 p) {pos tok major number} :
    (parseTagItem rec pos tok major number p).wp (fun r => Reach p0 r.2.2) := by
  unfold parseTagItem
  split
  · refine Out.wp_bind.mpr ((next_reach h).mono ?_)
    intro q hq
    refine Out.wp_bind.mpr ((nextEntry_reach hc hq).mono ?_)
    rintro ⟨x, e, q⟩ hq
    dsimp only at hq ⊢
    split
    · simpa using hq
    · refine Out.wp_bind.mpr ?_
      unfold expectPeek
      split
      · simpa using hq
      · refine (next_reach hq).mono ?_
        intro q' hq'
        simpa using hq'
  · simpa using h

theorem parseTag_reach (hc : RC rec) (h : Reach p0 p) :
    (parseTag rec p).wp (fun r => Reach p0 r.2.2) := by
  unfold parseTag
  split
  · refine Out.wp_bind.mpr ((next_reach h).mono ?_)
    intro q hq
    split
    · simpa using hq
    · exact parseTagItem_reach hc hq
  · refine Out.wp_bind.mpr ((next_reach h).mono ?_)
    intro q hq
    split
    · simpa using hq
    · exact parseTagItem_reach hc hq
  · exact parseTagItem_reach hc h

theorem parseEnumeration_reach (hc : RC rec) (h : Reach p0 p) :
    (parseEnumeration rec p).wp (fun r => Reach p0 r.2.2) := by
  unfold parseEnumeration
  refine Out.wp_bind.mpr ((nextEntry_reach hc h).mono ?_)
  rintro ⟨x, e, q⟩ hq
  dsimp only at hq ⊢
  split <;> simpa using hq

theorem parseOptional_reach (hc : RC rec) (h : Reach p0 p) :
    (parseOptional rec p).wp (fun r => Reach p0 r.2.2) := by
  unfold parseOptional
  refine Out.wp_bind.mpr ((nextEntry_reach hc h).mono ?_)
  rintro ⟨x, e, q⟩ hq
  dsimp only at hq ⊢
  split <;> simpa using hq

theorem parseOccItem_reach (hc : RC rec) (h : Reach p0 p) {pos tok a b} :
    (parseOccItem rec pos tok a b p).wp (fun r => Reach p0 r.2.2) := by
  unfold parseOccItem
  refine Out.wp_bind.mpr ((rec_reach hc h _).mono ?_)
  rintro ⟨x, e, q⟩ hq
  dsimp only at hq ⊢
  split <;> simpa using hq

omit [Unicode] in
theorem parseUintLiteral_state : (parseUintLiteral p).wp (fun r => r.2.2 = p) := by
  unfold parseUintLiteral
  split
  · split <;> simp
  · simp

omit [Unicode] in
theorem parseUintType_state : (parseUintType p).wp (fun r => r.2.2 = p) := by
  unfold parseUintType
  split
  · exact parseUintLiteral_state
  · simp

omit [Unicode] in
theorem parseIntegerType_state : (parseIntegerType p).wp (fun r => r.2.2 = p) := by
  unfold parseIntegerType parseIntegerLiteral
  split
  · split <;> simp
  · simp

omit [Unicode] in
theorem parseFloatType_state : (parseFloatType p).wp (fun r => r.2.2 = p) := by
  unfold parseFloatType parseFloatLiteral
  split
  · split <;> simp
  · simp

omit [Unicode] in
theorem parseBooleanLiteral_state : (parseBooleanLiteral p).wp (fun r => r.2.2 = p) := by
  unfold parseBooleanLiteral
  split
  · simp
  · split <;> simp

theorem parseOccUpper_reach (hc : RC rec) (h : Reach p0 p) {u} :
    (parseOccUpper rec u p).wp (fun r => Reach p0 r.2.2) := by
  unfold parseOccUpper
  split
  · refine Out.wp_bind.mpr ((next_reach h).mono ?_)
    intro q hq
    refine Out.wp_bind.mpr (parseUintType_state.mono ?_)
    rintro ⟨x, e, q'⟩ hq'
    dsimp only at hq' ⊢
    subst hq'
    split
    · simpa using hq
    · exact parseOccItem_reach hc hq
  · refine Out.wp_bind.mpr ((next_reach h).mono ?_)
    intro q hq
    exact parseOccItem_reach hc hq

theorem parseOccurrence_reach (hc : RC rec) (h : Reach p0 p) :
    (parseOccurrence rec left p).wp (fun r => Reach p0 r.2.2) := by
  unfold parseOccurrence
  split
  · exact parseOccUpper_reach hc h
  · split
    · simpa using h
    · exact parseOccUpper_reach hc h
  · refine Out.wp_bind.mpr (Out.wp_true.mono ?_)
    intro s _
    refine Out.wp_bind.mpr (Out.wp_true.mono ?_)
    intro e _
    simpa using h

theorem parseSizeOperator_reach (hc : RC rec) (h : Reach p0 p) :
    (parseSizeOperator rec left p).wp (fun r => Reach p0 r.2.2) := by
  unfold parseSizeOperator
  split
  all_goals first
    | (refine Out.wp_bind.mpr ((nextEntry_reach hc h).mono ?_)
       rintro ⟨x, e, q⟩ hq
       dsimp only at hq ⊢
       split <;> simpa using hq)
    | simpa using h

theorem parseRegexp_reach (hc : RC rec) (h : Reach p0 p) :
    (parseRegexp rec left p).wp (fun r => Reach p0 r.2.2) := by
  unfold parseRegexp
  split
  · split
    · simpa using h
    · refine Out.wp_bind.mpr ((nextEntry_reach hc h).mono ?_)
      rintro ⟨x, e, q⟩ hq
      dsimp only at hq ⊢
      split <;> simpa using hq
  · simp

theorem parseBits_reach (hc : RC rec) (h : Reach p0 p) :
    (parseBits rec left p).wp (fun r => Reach p0 r.2.2) := by
  unfold parseBits
  refine Out.wp_bind.mpr ((nextEntry_reach hc h).mono ?_)
  rintro ⟨x, e, q⟩ hq
  dsimp only at hq ⊢
  split
  · refine Out.wp_bind.mpr (Out.wp_true.mono ?_)
    intro b _
    simpa using hq
  · simpa using hq

theorem parseList_reach (hc : RC rec) (h : Reach p0 p) {close keep} :
    (parseList rec n close keep p).wp (fun r => Reach p0 r.2.2) := by
  unfold parseList
  refine Out.wp_bind.mpr ((next_reach h).mono ?_)
  intro q hq
  refine loopOut_wp (I := fun s => Reach p0 s.2) ?_ n _ hq
  intro s hs
  unfold listStep
  split
  · simpa using hs
  · refine Out.wp_bind.mpr ((rec_reach hc hs _).mono ?_)
    rintro ⟨x, e, q⟩ hq
    dsimp only at hq ⊢
    split
    · simpa using hq
    · refine Out.wp_bind.mpr ((next_reach hq).mono ?_)
      intro q' hq'
      simpa using hq'

theorem parseComparatorOp_reach (hc : RC rec) (h : Reach p0 p) :
    (parseComparatorOp rec left p).wp (fun r => Reach p0 r.2.2) := by
  unfold parseComparatorOp
  split
  all_goals first
    | (refine Out.wp_bind.mpr ((nextEntry_reach hc h).mono ?_)
       rintro ⟨x, e, q⟩ hq
       dsimp only at hq ⊢
       split <;> simpa using hq)
    | simpa using h

theorem parseBound_reach (hc : RC rec) (h : Reach p0 p) :
    (parseBound rec left p).wp (fun r => Reach p0 r.2.2) := by
  unfold parseBound
  split
  · unfold parseIntBound
    refine Out.wp_bind.mpr ((nextEntry_reach hc h).mono ?_)
    rintro ⟨x, e, q⟩ hq
    dsimp only at hq ⊢
    split
    · simpa using hq
    · split <;> first | simpa using hq | simpa using hq.task _
  · unfold parseFloatBound
    refine Out.wp_bind.mpr ((nextEntry_reach hc h).mono ?_)
    rintro ⟨x, e, q⟩ hq
    dsimp only at hq ⊢
    split
    · simpa using hq
    · split <;> first | simpa using hq | simpa using hq.task _
  · unfold parseIdentBound
    refine Out.wp_bind.mpr ((nextEntry_reach hc h).mono ?_)
    rintro ⟨x, e, q⟩ hq
    dsimp only at hq ⊢
    split
    · simpa using hq
    · simpa using hq.task _
  · simpa using h

theorem nudOf_reach (hc : RC rec) (h : Reach p0 p) {tok f} (hf : nudOf rec n tok = some f) :
    (f p).wp (fun r => Reach p0 r.2.2) := by
  have eqs : ∀ {g : PState → PRes}, (g p).wp (fun r => r.2.2 = p) → (g p).wp (fun r => Reach p0 r.2.2) :=
    fun hg => hg.mono fun r hr => by rw [hr]; exact h
  unfold nudOf at hf
  split at hf <;> cases hf
  · unfold parseNamedIdentifier
    split
    · simp
    · split
      · simpa using h.task _
      · simpa using h
  · simpa [parseBooleanType] using h
  · exact eqs parseBooleanLiteral_state
  · exact eqs parseBooleanLiteral_state
  · simpa [parseTstrType] using h
  · simpa [parseTstrType] using h
  · simpa [parseTextLiteral] using h
  · exact eqs parseFloatType_state
  · exact eqs parseFloatType_state
  · exact eqs parseFloatType_state
  · exact eqs parseFloatType_state
  · exact eqs parseUintType_state
  · exact eqs parseIntegerType_state
  · simpa [parseNegativeIntegerType] using h
  · simpa [parseBstrType] using h
  · simpa [parseBytesType] using h
  · simpa [parseNullType] using h
  · simpa [parseNullType] using h
  · unfold parseMap
    refine Out.wp_bind.mpr ((parseList_reach hc h).mono ?_)
    rintro ⟨x, e, q⟩ hq; simpa using hq
  · unfold parseGroup
    refine Out.wp_bind.mpr ((parseList_reach hc h).mono ?_)
    rintro ⟨x, e, q⟩ hq; simpa using hq
  · unfold parseArray
    refine Out.wp_bind.mpr ((parseList_reach hc h).mono ?_)
    rintro ⟨x, e, q⟩ hq; simpa using hq
  · exact parseComment_reach h
  · exact parseOptional_reach hc h
  · exact parseOccurrence_reach hc h
  · exact parseOccurrence_reach hc h
  · exact parseUnwrap_reach hc h
  · exact parseTag_reach hc h
  · exact parseEnumeration_reach hc h

theorem ledOf_reach (hc : RC rec) (h : Reach p0 p) {tok f} (hf : ledOf rec tok = some f) :
    (f left p).wp (fun r => Reach p0 r.2.2) := by
  unfold ledOf at hf
  split at hf <;> cases hf
  all_goals first
    | exact parseColon_reach hc h
    | exact parseTypeChoice_reach hc h
    | exact parseComparatorOp_reach hc h
    | exact parseSizeOperator_reach hc h
    | exact parseRegexp_reach hc h
    | exact parseBits_reach hc h
    | exact parseBound_reach hc h
    | exact parseOccurrence_reach hc h
    | simpa [parseComma] using h

theorem skipComment_reach (h : Reach p0 p) : (skipComment n p).wp (fun q => Reach p0 q) := by
  unfold skipComment
  split
  · refine Out.wp_bind.mpr ((parseComment_reach h).mono ?_)
    rintro ⟨x, e, q⟩ hq
    exact next_reach hq
  · simpa using h

theorem parseEntryBody_reach (hc : RC rec) : RC (parseEntryBody rec n) := by
  intro prec p
  unfold parseEntryBody
  refine Out.wp_bind.mpr ((skipComment_reach (.refl p)).mono ?_)
  intro q hq
  dsimp only
  split
  · simpa using hq
  · rename_i f hf
    have hnud : (f q).wp (fun r => Reach p r.2.2) := by
      unfold selectNud at hf
      split at hf
      · cases hf; simpa [parseIdentifier] using hq
      · exact nudOf_reach hc hq hf
    refine Out.wp_bind.mpr (hnud.mono ?_)
    rintro ⟨x, e, q'⟩ hq'
    dsimp only at hq' ⊢
    split
    · simpa using hq'
    · refine loopOut_wp (I := fun s => Reach p s.2) ?_ n _ hq'
      intro s hs
      unfold ledStep
      split
      · split
        · simpa using hs
        · rename_i g hg
          refine Out.wp_bind.mpr ((next_reach hs).mono ?_)
          intro r hr
          refine Out.wp_bind.mpr ((ledOf_reach hc hr hg).mono ?_)
          rintro ⟨x, e, q⟩ hq
          dsimp only at hq ⊢
          split <;> simpa using hq
      · simpa using hs

/-- Parsing an entry only reads tokens and adds tasks. -/
theorem parseEntry_reach (n : Nat) : RC (parseEntry n) := by
  induction n with
  | zero => intro prec p; exact Out.wp_hang.mpr trivial
  | succ n ih => exact parseEntryBody_reach ih

end PState
end Cddlc
