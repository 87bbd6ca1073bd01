import Verif.Model.Print
import Verif.Spec.Print

/-! Facts about the tree printer. -/

namespace Cddlc
open Spec

/-- Induction along the nodes the printer looks at. -/
theorem print_ind {P : Node → Prop}
    (hc : ∀ pos tok a b, P a → P b → P (.typeChoice pos tok a b))
    (he : ∀ pos tok a, P a → P (.enumeration pos tok a))
    (ho : ∀ n, (∀ pos tok a b, n ≠ .typeChoice pos tok a b) →
      (∀ pos tok a, n ≠ .enumeration pos tok a) → P n) (n : Node) : P n := by
  cases n
  case typeChoice pos tok a b => exact hc _ _ _ _ (print_ind hc he ho a) (print_ind hc he ho b)
  case enumeration pos tok a => exact he _ _ _ (print_ind hc he ho a)
  all_goals exact ho _ (fun _ _ _ _ h => by cases h) (fun _ _ _ h => by cases h)
termination_by sizeOf n

theorem noTabs_append (a b : Bytes) : noTabs (a ++ b) = noTabs a ++ noTabs b := List.filter_append ..

theorem noTabs_level (p : Printer) : noTabs p.spaceLevel = [] := by
  unfold noTabs Printer.spaceLevel
  rw [List.filter_eq_nil_iff]
  intro c hc
  rw [(List.mem_replicate.1 hc).2]
  decide

/-- What `format` does at any level: it panics on a nil pointer of a printed kind, or it restores
the level, and the text depends on the level only in its tabs. -/
theorem format_run (float : FloatVal → Bytes) (n : Node) :
    ((∃ x, Printed n x ∧ NilPrinted x) ∧ ∀ p, Printer.format float n p = .panic .nilDeref) ∨
    ((∀ x, Printed n x → ¬ NilPrinted x) ∧
      ∃ t, ∀ p, ∃ s, Printer.format float n p = .ok (s, p) ∧ noTabs s = t) := by
  induction n using print_ind with
  | hc pos tok a b iha ihb =>
    rcases iha with ⟨⟨x, h1, h2⟩, h3⟩ | ⟨h1, t, h2⟩
    · exact Or.inl ⟨⟨x, .first h1, h2⟩, fun p => by simp only [Printer.format, h3]; rfl⟩
    · rcases ihb with ⟨⟨x, g1, g2⟩, g3⟩ | ⟨g1, u, g2⟩
      · refine Or.inl ⟨⟨x, .second g1, g2⟩, fun p => ?_⟩
        obtain ⟨s, hs, _⟩ := h2 ⟨p.level + 1⟩
        simp only [Printer.format, hs, Out.bind, g3]
      · refine Or.inr ⟨?_, noTabs (b!"TypeChoice " ++ Printer.formatPosition pos ++ b!" (\n" ++ b!"First  : " ++
          t ++ b!", \n" ++ b!"Second : " ++ u ++ b!"\n)"), fun p => ?_⟩
        · intro x hx
          cases hx with
          | root => rintro ⟨k, hk, _⟩; cases hk
          | first h => exact h1 x h
          | second h => exact g1 x h
        · obtain ⟨s, hs, ht⟩ := h2 ⟨p.level + 1⟩
          obtain ⟨s', gs, gt⟩ := g2 ⟨p.level + 1⟩
          simp only [Printer.format, hs, Out.bind, gs]
          refine ⟨_, rfl, ?_⟩
          subst ht gt
          simp only [noTabs_append, noTabs_level, List.nil_append, List.append_assoc]
          simp only [noTabs, List.filter_filter, Bool.and_self]
  | he pos tok a iha =>
    rcases iha with ⟨⟨x, h1, h2⟩, h3⟩ | ⟨h1, t, h2⟩
    · exact Or.inl ⟨⟨x, .value h1, h2⟩, fun p => by simp only [Printer.format, h3]; rfl⟩
    · refine Or.inr ⟨?_, noTabs (b!"Enumeration " ++ Printer.formatPosition pos ++ b!" (\n" ++ b!"Value: " ++
          t ++ b!"\n" ++ b!")"), fun p => ?_⟩
      · intro x hx
        cases hx with
        | root => rintro ⟨k, hk, _⟩; cases hk
        | value h => exact h1 x h
      · obtain ⟨s, hs, ht⟩ := h2 ⟨p.level + 1⟩
        simp only [Printer.format, hs, Out.bind]
        refine ⟨_, rfl, ?_⟩
        subst ht
        simp only [noTabs_append, noTabs_level, List.nil_append, List.append_assoc]
        simp only [noTabs, List.filter_filter, Bool.and_self]
  | ho n h1 h2 =>
    have only : ∀ x, Printed n x → x = n := by
      intro x hx
      cases hx with
      | root => rfl
      | first _ => exact absurd rfl (h1 _ _ _ _)
      | second _ => exact absurd rfl (h1 _ _ _ _)
      | value _ => exact absurd rfl (h2 _ _ _)
    cases n
    case typeChoice => exact absurd rfl (h1 _ _ _ _)
    case enumeration => exact absurd rfl (h2 _ _ _)
    case typedNil k =>
      by_cases hk : k ∈ [NodeKind.ident, .typeChoice, .intLit, .floatLit, .intType, .floatType,
          .enumeration, .group]
      · exact Or.inl ⟨⟨_, .root _, k, rfl, hk⟩, fun p => by simp only [Printer.format]; rw [if_pos hk]⟩
      · refine Or.inr ⟨?_, _, fun p => ⟨_, by simp only [Printer.format]; rw [if_neg hk]; rfl, rfl⟩⟩
        intro x hx
        rw [only x hx]
        rintro ⟨k', h, h'⟩
        cases h; exact hk h'
    case group pos entries =>
      refine Or.inr ⟨fun x hx => ?_, noTabs (b!"Group " ++ Printer.formatPosition pos ++ b!" (\n" ++
        b!"Entries: " ++ decNat entries.length ++ b!"\n" ++ b!")"), fun p => ⟨_, rfl, ?_⟩⟩
      · rw [only x hx]; rintro ⟨k, hk, _⟩; cases hk
      · simp only [Printer.formatGroup, noTabs_append, noTabs_level, List.nil_append, List.append_assoc]
        simp [noTabs]
    all_goals
      refine Or.inr ⟨fun x hx => ?_, _, fun p => ⟨_, rfl, rfl⟩⟩
      rw [only x hx]
      rintro ⟨k, hk, _⟩
      cases hk

end Cddlc
