import Verif.Model.Validators

/-! Properties of the validators (C47, C48). -/

namespace Cddlc

/-! ### C47: ranges -/

/-- **C47**: on integers, the validators decide the open interval, the closed interval and the two
open half-lines. -/
theorem C47_integers (v l u : Int) :
    (inExclusiveRange v l u = true ↔ l < v ∧ v < u) ∧ (inInclusiveRange v l u = true ↔ l ≤ v ∧ v ≤ u) ∧
    (isLessThan v u = true ↔ v < u) ∧ (isGreaterThan v l = true ↔ l < v) := by
  simp [inExclusiveRange, inInclusiveRange, isLessThan, isGreaterThan, GoNumeric.lt, GoNumeric.le]

example : inInclusiveRange (255 : Int) 0 255 = true ∧ inExclusiveRange (255 : Int) 0 255 = false := by decide

/-- **C47**: the exclusive range consists of the inclusive one without the limits. -/
theorem C47_exclusive_inclusive (v l u : Int) :
    inExclusiveRange v l u = true ↔ inInclusiveRange v l u = true ∧ v ≠ l ∧ v ≠ u := by
  simp only [(C47_integers v l u).1, (C47_integers v l u).2.1]
  omega

/-- The place of a floating point number on the line of the extended reals, if it has one: negative
infinity, a number, or positive infinity. -/
inductive Place : GoFloat → Int → Rat → Prop
  | neg : Place .negInf (-1) 0
  | num (a : Rat) : Place (.num a) 0 a
  | pos : Place .posInf 1 0

/-- One floating point number lies before another: by its infinity, else by its value. -/
def Before (x y : GoFloat) : Prop :=
  ∃ i a j b, Place x i a ∧ Place y j b ∧ (i < j ∨ i = j ∧ a < b)

theorem lt_before (x y : GoFloat) : GoNumeric.lt x y = true ↔ Before x y := by
  constructor
  · intro h
    cases x <;> cases y <;> first | (cases h; done) | skip
    · exact ⟨_, _, _, _, .neg, .pos, Or.inl (by decide)⟩
    · exact ⟨_, _, _, _, .neg, .num _, Or.inl (by decide)⟩
    · exact ⟨_, _, _, _, .num _, .pos, Or.inl (by decide)⟩
    · exact ⟨_, _, _, _, .num _, .num _, Or.inr ⟨rfl, of_decide_eq_true h⟩⟩
  · rintro ⟨i, a, j, b, hx, hy, h⟩
    have irr : ¬ ((0 : Rat) < 0) := by decide
    cases hx <;> cases hy <;> simp at h <;> first | rfl | exact decide_eq_true h | exact absurd h irr

theorem le_before (x y : GoFloat) : GoNumeric.le x y = true ↔ Before x y ∨ (x = y ∧ x ≠ .nan) := by
  rw [← lt_before]
  cases x <;> cases y <;> simp [GoNumeric.lt, GoNumeric.le]
  rename_i a b
  exact Rat.le_iff_lt_or_eq

/-- **C47**: on floating point numbers, the validators decide the same intervals of the extended
reals; with a not-a-number among the arguments, all are false. -/
theorem C47_floats (v l u : GoFloat) :
    (inExclusiveRange v l u = true ↔ Before l v ∧ Before v u) ∧
    (inInclusiveRange v l u = true ↔ (Before l v ∨ (l = v ∧ l ≠ .nan)) ∧ (Before v u ∨ (v = u ∧ v ≠ .nan))) ∧
    (isLessThan v u = true ↔ Before v u) ∧ (isGreaterThan v l = true ↔ Before l v) := by
  simp only [inExclusiveRange, inInclusiveRange, isLessThan, isGreaterThan, Bool.and_eq_true, lt_before,
    le_before]
  simp

example : inInclusiveRange (.num 1 : GoFloat) .negInf (.num 1) = true ∧
    inInclusiveRange (.nan : GoFloat) .nan .nan = false := by decide

/-- **C47**: a value that is neither less nor greater than a limit is equal to it, except for
not-a-number: among integers there is no such exception. -/
theorem C47_trichotomy (v l : Int) (h1 : isLessThan v l = false) (h2 : isGreaterThan v l = false) : v = l := by
  simp [isLessThan, isGreaterThan, GoNumeric.lt] at h1 h2
  omega

example : isLessThan (.nan : GoFloat) (.num 0) = false ∧ isGreaterThan (.nan : GoFloat) (.num 0) = false := by decide

/-! ### C48: sizes -/

/-- **C48**: the result of `CheckSize` depends on the dynamic type of the value alone. -/
theorem C48_content_ignored (t : GoType) (c c' : Bytes) (size : Nat) :
    checkSize (.mk t c) size = checkSize (.mk t c') size := rfl

/-- **C48**: texts are accepted exactly if the bound exceeds 16 and byte strings if it exceeds 24,
whatever their length. -/
theorem C48_texts (c : Bytes) (size : Nat) :
    (checkSize (.mk .string c) size = .ok true ↔ 16 < size) ∧
    (checkSize (.mk .bytes c) size = .ok true ↔ 24 < size) := by
  refine ⟨⟨fun h => ?_, fun h => congrArg Out.ok (decide_eq_true h)⟩,
    ⟨fun h => ?_, fun h => congrArg Out.ok (decide_eq_true h)⟩⟩ <;>
  · injection h with h
    exact of_decide_eq_true h

/-- **C48**: so no bound makes `CheckSize` decide the length of texts: neither as an upper bound,
inclusive or not, nor as the exact length. -/
theorem C48_not_length (size : Nat) (R : Nat → Prop) (h : ∀ c, checkSize (.mk .string c) size = .ok true ↔ R c.length) :
    (∀ n, R n) ∨ (∀ n, ¬ R n) := by
  by_cases hs : 16 < size
  · refine Or.inl fun n => ?_
    have := (h (List.replicate n 0)).1 ((C48_texts _ size).1.2 hs)
    rwa [List.length_replicate] at this
  · refine Or.inr fun n hn => hs ((C48_texts (List.replicate n 0) size).1.1 ((h _).2 ?_))
    rwa [List.length_replicate]

example : checkSize (.mk .string b!"far longer than twenty bytes in any case") 20 = .ok true ∧
    checkSize (.mk .string b!"x") 4 = .ok false := ⟨rfl, rfl⟩

/-- **C48**: a nil value makes `CheckSize` panic, and nothing else does. -/
theorem C48_panics_iff (v : GoAny) (size : Nat) : (checkSize v size).isPanic = true ↔ v = .nil := by
  cases v <;> simp [checkSize, Out.isPanic]

end Cddlc
