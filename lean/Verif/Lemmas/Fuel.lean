import Verif.Lemmas.Wp

/-! More fuel never changes a result other than `hang`. -/

namespace Cddlc

/-- `o` is `hang`, or the same as `o'`. -/
def Out.Le {α : Type} (o o' : Out α) : Prop := o = .hang ∨ o = o'

namespace Out.Le
variable {α β : Type}

theorem rfl' {o : Out α} : o.Le o := Or.inr rfl
theorem hang {o : Out α} : (Out.hang : Out α).Le o := Or.inl rfl

theorem bind {o o' : Out α} {f f' : α → Out β} (h : o.Le o') (hf : ∀ a, (f a).Le (f' a)) :
    (o >>= f).Le (o' >>= f') := by
  rcases h with rfl | rfl
  · exact Or.inl rfl
  · cases o with
    | ok a => exact hf a
    | panic w => exact Or.inr rfl
    | hang => exact Or.inl rfl

theorem of_ne {o o' : Out α} (h : o.Le o') (hn : o ≠ .hang) : o' = o :=
  h.elim (fun h => absurd h hn) Eq.symm

end Out.Le

theorem loopOut_le {σ ρ : Type} {step step' : σ → Out (σ ⊕ ρ)} (h : ∀ s, (step s).Le (step' s))
    {n m : Nat} (hm : n ≤ m) (s : σ) : (loopOut step n s).Le (loopOut step' m s) := by
  induction n generalizing m s with
  | zero => exact .hang
  | succ n ih =>
    obtain ⟨m, rfl⟩ : ∃ k, m = k + 1 := ⟨m - 1, by omega⟩
    rw [loopOut, loopOut]
    rcases h s with h | h
    · rw [h]; exact .hang
    · rw [← h]
      cases step s with
      | ok r =>
        cases r with
        | inl s' => exact ih (by omega) s'
        | inr r => exact .rfl'
      | panic w => exact .rfl'
      | hang => exact .rfl'

namespace PState
variable [Unicode]

/-- The second recursive call returns whatever the first does. -/
def RM (rec rec' : Rec) : Prop := ∀ prec p, (rec prec p).Le (rec' prec p)

variable {rec rec' : Rec} {p : PState} {n m : Nat} {left : Node}

theorem nextEntry_le (h : RM rec rec') : (nextEntry rec p).Le (nextEntry rec' p) :=
  .bind .rfl' fun _ => h _ _

/-- Closes goals about functions built from `next`, the recursive call and case distinctions. -/
macro "le_tac" h:term : tactic => `(tactic|
  repeat' first
    | exact Out.Le.rfl'
    | exact nextEntry_le $h
    | exact $h _ _
    | (refine Out.Le.bind ?_ (fun _ => ?_))
    | split)

theorem parseColon_le (h : RM rec rec') : (parseColon rec left p).Le (parseColon rec' left p) := by
  unfold parseColon; dsimp only; le_tac h

theorem parseTypeChoice_le (h : RM rec rec') :
    (parseTypeChoice rec left p).Le (parseTypeChoice rec' left p) := by
  unfold parseTypeChoice; le_tac h

theorem parseUnwrap_le (h : RM rec rec') : (parseUnwrap rec p).Le (parseUnwrap rec' p) := by
  unfold parseUnwrap; le_tac h

theorem parseTagItem_le (h : RM rec rec') {pos tok a b} :
    (parseTagItem rec pos tok a b p).Le (parseTagItem rec' pos tok a b p) := by
  unfold parseTagItem; le_tac h

theorem parseTag_le (h : RM rec rec') : (parseTag rec p).Le (parseTag rec' p) := by
  unfold parseTag
  split
  · refine .bind .rfl' fun _ => ?_
    split
    · exact .rfl'
    · exact parseTagItem_le h
  · refine .bind .rfl' fun _ => ?_
    split
    · exact .rfl'
    · exact parseTagItem_le h
  · exact parseTagItem_le h

theorem parseEnumeration_le (h : RM rec rec') :
    (parseEnumeration rec p).Le (parseEnumeration rec' p) := by
  unfold parseEnumeration; le_tac h

theorem parseOptional_le (h : RM rec rec') : (parseOptional rec p).Le (parseOptional rec' p) := by
  unfold parseOptional; le_tac h

omit [Unicode] in
theorem parseOccItem_le (h : RM rec rec') {pos tok a b} :
    (parseOccItem rec pos tok a b p).Le (parseOccItem rec' pos tok a b p) := by
  unfold parseOccItem; le_tac h

theorem parseOccUpper_le (h : RM rec rec') {u} :
    (parseOccUpper rec u p).Le (parseOccUpper rec' u p) := by
  unfold parseOccUpper
  split
  · refine .bind .rfl' fun _ => .bind .rfl' fun _ => ?_
    dsimp only
    split
    · exact .rfl'
    · exact parseOccItem_le h
  · exact .bind .rfl' fun _ => parseOccItem_le h

theorem parseOccurrence_le (h : RM rec rec') :
    (parseOccurrence rec left p).Le (parseOccurrence rec' left p) := by
  unfold parseOccurrence
  split
  · exact parseOccUpper_le h
  · split
    · exact .rfl'
    · exact parseOccUpper_le h
  · exact .rfl'

theorem parseSizeOperator_le (h : RM rec rec') :
    (parseSizeOperator rec left p).Le (parseSizeOperator rec' left p) := by
  unfold parseSizeOperator; le_tac h

theorem parseRegexp_le (h : RM rec rec') :
    (parseRegexp rec left p).Le (parseRegexp rec' left p) := by
  unfold parseRegexp; le_tac h

theorem parseBits_le (h : RM rec rec') : (parseBits rec left p).Le (parseBits rec' left p) := by
  unfold parseBits; le_tac h

theorem listStep_le (h : RM rec rec') {close keep} (s) :
    (listStep rec close keep s).Le (listStep rec' close keep s) := by
  unfold listStep; le_tac h

theorem parseList_le (h : RM rec rec') (hm : n ≤ m) {close keep} :
    (parseList rec n close keep p).Le (parseList rec' m close keep p) :=
  .bind .rfl' fun _ => loopOut_le (listStep_le h) hm _

theorem parseComparatorOp_le (h : RM rec rec') :
    (parseComparatorOp rec left p).Le (parseComparatorOp rec' left p) := by
  unfold parseComparatorOp; le_tac h

theorem parseBound_le (h : RM rec rec') : (parseBound rec left p).Le (parseBound rec' left p) := by
  unfold parseBound parseIntBound parseFloatBound parseIdentBound; le_tac h

theorem parseComment_le (hm : n ≤ m) : (parseComment n p).Le (parseComment m p) := by
  unfold parseComment
  exact .bind (loopOut_le (fun _ => .rfl') hm _) fun _ => .rfl'

theorem nudOf_le (h : RM rec rec') (hm : n ≤ m) (t : Tok) :
    (nudOf rec n t = none ∧ nudOf rec' m t = none) ∨
    ∃ f f', nudOf rec n t = some f ∧ nudOf rec' m t = some f' ∧ ∀ p, (f p).Le (f' p) := by
  unfold nudOf
  split
  case h_29 => exact Or.inl ⟨rfl, rfl⟩
  all_goals refine Or.inr ⟨_, _, rfl, rfl, fun p => ?_⟩
  all_goals first
    | exact .rfl'
    | exact .bind (parseList_le h hm) fun _ => .rfl'
    | exact parseComment_le hm
    | exact parseOptional_le h
    | exact parseOccurrence_le h
    | exact parseUnwrap_le h
    | exact parseTag_le h
    | exact parseEnumeration_le h

theorem ledOf_le (h : RM rec rec') (t : Tok) :
    (ledOf rec t = none ∧ ledOf rec' t = none) ∨
    ∃ f f', ledOf rec t = some f ∧ ledOf rec' t = some f' ∧ ∀ x p, (f x p).Le (f' x p) := by
  unfold ledOf
  split
  case h_19 => exact Or.inl ⟨rfl, rfl⟩
  all_goals refine Or.inr ⟨_, _, rfl, rfl, fun x p => ?_⟩
  all_goals first
    | exact .rfl'
    | exact parseColon_le h
    | exact parseTypeChoice_le h
    | exact parseComparatorOp_le h
    | exact parseSizeOperator_le h
    | exact parseRegexp_le h
    | exact parseBits_le h
    | exact parseBound_le h
    | exact parseOccurrence_le h

theorem ledStep_le (h : RM rec rec') {prec} (s) : (ledStep rec prec s).Le (ledStep rec' prec s) := by
  unfold ledStep
  split
  · rcases ledOf_le h s.2.peek with ⟨h1, h2⟩ | ⟨f, f', h1, h2, hf⟩
    · rw [h1, h2]; exact .rfl'
    · rw [h1, h2]
      refine .bind .rfl' fun q => .bind (hf _ _) fun r => ?_
      exact .rfl'
  · exact .rfl'

theorem skipComment_le (hm : n ≤ m) : (skipComment n p).Le (skipComment m p) := by
  unfold skipComment
  split
  · exact .bind (parseComment_le hm) fun _ => .rfl'
  · exact .rfl'

theorem selectNud_le (h : RM rec rec') (hm : n ≤ m) :
    (selectNud rec n p = none ∧ selectNud rec' m p = none) ∨
    ∃ f f', selectNud rec n p = some f ∧ selectNud rec' m p = some f' ∧ ∀ p, (f p).Le (f' p) := by
  unfold selectNud
  split
  · exact Or.inr ⟨_, _, rfl, rfl, fun _ => .rfl'⟩
  · exact nudOf_le h hm _

theorem parseEntryBody_le (h : RM rec rec') (hm : n ≤ m) :
    RM (parseEntryBody rec n) (parseEntryBody rec' m) := by
  intro prec p
  unfold parseEntryBody
  refine .bind (skipComment_le hm) fun q => ?_
  dsimp only
  rcases selectNud_le h hm (p := q) with ⟨h1, h2⟩ | ⟨f, f', h1, h2, hf⟩
  · rw [h1, h2]; exact .rfl'
  · rw [h1, h2]
    refine .bind (hf q) fun r => ?_
    obtain ⟨x, e, q'⟩ := r
    dsimp only
    cases e with
    | some e => exact .rfl'
    | none => exact loopOut_le (ledStep_le h) hm _

/-- More fuel does not change the result of parsing an entry. -/
theorem parseEntry_le (hm : n ≤ m) : RM (parseEntry n) (parseEntry m) := by
  induction n generalizing m with
  | zero => intro prec p; exact .hang
  | succ n ih =>
    obtain ⟨m, rfl⟩ : ∃ k, m = k + 1 := ⟨m - 1, by omega⟩
    exact parseEntryBody_le (ih (by omega)) (by omega)

theorem parseRule_le (hm : n ≤ m) : (parseRule n p).Le (parseRule m p) := by
  unfold parseRule
  split
  · exact parseComment_le hm
  · refine .bind .rfl' fun q => ?_
    dsimp only
    split
    · refine .bind (nextEntry_le (parseEntry_le hm)) fun _ => .rfl'
    all_goals first
      | exact .rfl'
      | exact .bind .rfl' fun _ => .bind (parseEntry_le hm _ _) fun _ => .rfl'
  · exact .rfl'

theorem fileStep_le (hm : n ≤ m) (s) : (fileStep n s).Le (fileStep m s) := by
  unfold fileStep
  split
  · exact .rfl'
  · exact .bind (parseRule_le hm) fun _ => .rfl'

theorem parseFile_le (hm : n ≤ m) : (parseFile n p).Le (parseFile m p) := by
  unfold parseFile
  split
  · exact .rfl'
  · exact .bind (loopOut_le (fileStep_le hm) hm _) fun _ => .rfl'

end PState

/-- More fuel does not change the result of parsing a source. -/
theorem parseSource_le [Unicode] {n m : Nat} (hm : n ≤ m) {src : Bytes} {env : Env} :
    (parseSource n src env).Le (parseSource m src env) :=
  .bind .rfl' fun _ => PState.parseFile_le hm

end Cddlc
