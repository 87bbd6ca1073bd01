import Verif.Model.Parser

/-! Partial-correctness reasoning about `Out`: what holds of a result if there is one. -/

namespace Cddlc

/-- `Q` holds of the result, if the call returns. -/
def Out.wp {α : Type} (o : Out α) (Q : α → Prop) : Prop := ∀ a, o = .ok a → Q a

namespace Out

@[simp] theorem wp_ok {α : Type} {a : α} {Q : α → Prop} : (Out.ok a).wp Q ↔ Q a := by
  constructor
  · intro h; exact h a rfl
  · intro h b hb; cases hb; exact h

@[simp] theorem wp_panic {α : Type} {w} {Q : α → Prop} : (Out.panic w : Out α).wp Q ↔ True := by
  constructor
  · intro _; trivial
  · intro _ b hb; cases hb

@[simp] theorem wp_hang {α : Type} {Q : α → Prop} : (Out.hang : Out α).wp Q ↔ True := by
  constructor
  · intro _; trivial
  · intro _ b hb; cases hb

theorem bind_def {α β : Type} (o : Out α) (f : α → Out β) : (o >>= f) = o.bind f := rfl

theorem wp_bind {α β : Type} {o : Out α} {f : α → Out β} {Q : β → Prop} :
    (o >>= f).wp Q ↔ o.wp (fun a => (f a).wp Q) := by
  rw [bind_def]
  cases o with
  | ok a => simp [Out.bind]
  | panic w => simp [Out.bind]
  | hang => simp [Out.bind]

theorem wp.mono {α : Type} {o : Out α} {P Q : α → Prop} (h : o.wp P) (hpq : ∀ a, P a → Q a) :
    o.wp Q := fun a ha => hpq a (h a ha)

theorem wp.and {α : Type} {o : Out α} {P Q : α → Prop} (h : o.wp P) (h' : o.wp Q) :
    o.wp (fun a => P a ∧ Q a) := fun a ha => ⟨h a ha, h' a ha⟩

theorem wp_true {α : Type} {o : Out α} : o.wp (fun _ => True) := fun _ _ => trivial

end Out

/-- Invariants of loops. -/
theorem loopOut_wp {σ ρ : Type} {step : σ → Out (σ ⊕ ρ)} {I : σ → Prop} {Q : ρ → Prop}
    (h : ∀ s, I s → (step s).wp (fun r => match r with | .inl s' => I s' | .inr r => Q r)) :
    ∀ n s, I s → (loopOut step n s).wp Q := by
  intro n
  induction n with
  | zero => intro s _; exact Out.wp_hang.mpr trivial
  | succ n ih =>
    intro s hs
    have := h s hs
    rw [loopOut]
    cases hst : step s with
    | ok r =>
      rw [hst] at this
      have := Out.wp_ok.mp this
      cases r with
      | inl s' => exact ih s' this
      | inr r => exact Out.wp_ok.mpr this
    | panic w => exact Out.wp_panic.mpr trivial
    | hang => exact Out.wp_hang.mpr trivial

end Cddlc
