import Verif.Lemmas.Print
import Verif.Lemmas.Real
import Verif.Props.Parser

/-! Properties of the tree printer (C38). -/

namespace Cddlc
open Spec

/-- The tree of the examples: `int / (a / &(1 2))`. -/
def demoPrint : Node :=
  .typeChoice ⟨4, 1, 5, []⟩ .TYPE_CHOICE (.intType ⟨0, 1, 1, []⟩ .INT)
    (.typeChoice ⟨9, 1, 10, []⟩ .TYPE_CHOICE (.ident ⟨⟨7, 1, 8, []⟩, b!"a"⟩)
      (.enumeration ⟨11, 1, 12, []⟩ .AMPERSAND (.group ⟨12, 1, 13, []⟩ [.nil, .nil])))

/-- **C38**: whatever the level it starts with, `format` restores it. -/
theorem C38_level_restored (float : FloatVal → Bytes) (n : Node) (p q : Printer) (s : Bytes)
    (h : Printer.format float n p = .ok (s, q)) : q = p := by
  rcases format_run float n with ⟨_, h1⟩ | ⟨_, t, h1⟩
  · rw [h1] at h; cases h
  · obtain ⟨s', h2, _⟩ := h1 p
    rw [h2] at h; cases h; rfl

/-- **C38**: what is printed for a node is the same at every level, except for its tabs. -/
theorem C38_level_only_tabs (float : FloatVal → Bytes) (n : Node) (p p' q q' : Printer) (s s' : Bytes)
    (h : Printer.format float n p = .ok (s, q)) (h' : Printer.format float n p' = .ok (s', q')) :
    noTabs s = noTabs s' := by
  rcases format_run float n with ⟨_, h1⟩ | ⟨_, t, h1⟩
  · rw [h1] at h; cases h
  · obtain ⟨_, h2, h3⟩ := h1 p
    obtain ⟨_, h4, h5⟩ := h1 p'
    rw [h2] at h; rw [h4] at h'
    cases h; cases h'
    rw [h3, h5]

/-- **C38**: `Format` panics iff it gets to a nil pointer of a kind it prints with its fields;
otherwise it returns. -/
theorem C38_panics_iff (float : FloatVal → Bytes) (n : Node) :
    ((formatNode float n).isPanic = true ↔ ∃ x, Printed n x ∧ NilPrinted x) ∧
    ((formatNode float n).isOk = true ↔ ∀ x, Printed n x → ¬ NilPrinted x) := by
  unfold formatNode
  rcases format_run float n with ⟨h, h1⟩ | ⟨h, t, h1⟩
  · rw [h1]
    obtain ⟨x, h2, h3⟩ := h
    exact ⟨⟨fun _ => ⟨x, h2, h3⟩, fun _ => rfl⟩, ⟨nofun, fun h => absurd h3 (h x h2)⟩⟩
  · obtain ⟨s, h2, _⟩ := h1 ⟨0⟩
    rw [h2]
    exact ⟨⟨nofun, fun ⟨x, h3, h4⟩ => absurd h4 (h x h3)⟩, ⟨fun _ => h, fun _ => rfl⟩⟩

theorem real_printed {n x : Node} (h : Printed n x) : Real n → ¬ NilPrinted x := by
  have self : ∀ {n : Node}, Real n → ¬ NilPrinted n := by
    rintro n hn ⟨k, rfl, _⟩
    exact hn.1 k rfl
  have kid : ∀ {n k : Node}, Real n → n.isNil = false → (∀ p t o a b, n ≠ .comparator p t o a b) →
      (k.isNil = false → k ∈ kids n) → (∀ y ∈ subs k, y ∈ subs n) → Real k := by
    intro n k hn hnil hc hk hs
    by_cases hkn : k.isNil = true
    · cases k <;> first | (cases hkn; done) | exact real_nil
    · simp only [Bool.not_eq_true] at hkn
      exact ⟨hn.2.1 n (mem_subs_self hnil) hc k (hk hkn), fun y hy => hn.2.1 y (hs y hy),
        fun p t o a b h => hn.2.2 p t o a b (hs _ h)⟩
  induction h with
  | root n => exact self
  | first _ ih =>
    exact fun hn => ih (kid hn rfl (fun _ _ _ _ _ h => by cases h)
      (fun h => by simp [kids, kids.present, h]) fun y hy => by simp [subs, hy])
  | second _ ih =>
    exact fun hn => ih (kid hn rfl (fun _ _ _ _ _ h => by cases h)
      (fun h => by simp [kids, kids.present, h]) fun y hy => by simp [subs, hy])
  | value _ ih =>
    exact fun hn => ih (kid hn rfl (fun _ _ _ _ _ h => by cases h)
      (fun h => by simp [kids, kids.present, h]) fun y hy => by simp [subs, hy])

/-- **C38** on what `ParseFile` binds: `Format` never panics on a value of the environment after
parsing a file into a new one, nor on a rule or comment of the file. -/
theorem C38_parsed [Unicode] (float : FloatVal → Bytes) {m : Nat} {src : Bytes} {res : PState.FileResult}
    (h : parseSource m src = .ok res) :
    (∀ k, (formatNode float (res.final.env.get k)).isOk = true) ∧
    ∀ rules, res.cddl = some rules → ∀ e ∈ rules, (formatNode float e).isOk = true := by
  constructor
  · intro k
    exact (C38_panics_iff float _).2.2 fun x hx => real_printed hx (bound_real h k real_nil)
  · intro rules ht e he
    obtain ⟨p, q, _, _, _, _, hrun, _⟩ := tree_run h ht
    exact (C38_panics_iff float _).2.2 fun x hx => real_printed hx (run_real hrun e he)

example : (∀ x, Printed demoPrint x → ¬ NilPrinted x) ∧
    (formatNode (fun _ => []) demoPrint).isOk = true ∧
    (Printer.format (fun _ => []) (.group {} []) ⟨3⟩).isOk = true := by
  refine ⟨(C38_panics_iff (fun _ => []) demoPrint).2.1 rfl, rfl, rfl⟩

example : formatNode (fun _ => []) (.enumeration {} .AMPERSAND (.group {} [])) =
    .ok b!"Enumeration { Column: 0, Line: 0 } (\n\tValue: Group { Column: 0, Line: 0 } (\n\t\t\tEntries: 0\n\t\t)\n\t)" := by
  rfl

example : Printed (.enumeration {} .AMPERSAND (.typedNil .intType)) (.typedNil .intType) ∧
    (formatNode (fun _ => []) (.enumeration {} .AMPERSAND (.typedNil .intType))).isPanic = true :=
  ⟨.value (.root _), rfl⟩

end Cddlc
