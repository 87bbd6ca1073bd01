import Verif.Lemmas.Wp
import Verif.Lemmas.LexInv

/-! Running the model in examples. -/

namespace Cddlc

/-- The call returns and its result passes the test. -/
def Out.check {α : Type} (o : Out α) (f : α → Bool) : Bool :=
  match o with
  | .ok a => f a
  | _ => false

theorem Out.of_check {α : Type} {o : Out α} {f : α → Bool} (h : o.check f = true) :
    ∃ a, o = .ok a ∧ f a = true := by
  cases o with
  | ok a => exact ⟨a, rfl, h⟩
  | panic w => cases h
  | hang => cases h

/-- The call panics. -/
def Out.panics {α : Type} (o : Out α) : Bool :=
  match o with
  | .panic _ => true
  | _ => false

theorem Out.of_panics {α : Type} {o : Out α} (h : o.panics = true) : ∃ w, o = .panic w := by
  cases o with
  | panic w => exact ⟨w, rfl⟩
  | ok a => cases h
  | hang => cases h

/-- The result of a parse passes the test: there is a tree, and tree and diagnostics pass. -/
def parses [Unicode] (n : Nat) (src : Bytes) (f : List Node → List Diag → Bool) : Bool :=
  (parseSource n src).check fun res => match res.cddl with
    | some rules => f rules res.errs
    | none => false

theorem of_parses [Unicode] {n : Nat} {src : Bytes} {f} (h : parses n src f = true) :
    ∃ res rules, parseSource n src = .ok res ∧ res.cddl = some rules ∧ f rules res.errs = true := by
  obtain ⟨res, h1, h2⟩ := Out.of_check h
  split at h2
  · rename_i rules hr; exact ⟨res, rules, h1, hr, h2⟩
  · cases h2

theorem ff_not_mem_enc {c : Char} : (255 : UInt8) ∉ String.utf8EncodeChar c := by
  have hv : c.val.toNat = c.toNat := rfl
  have hr := char_range c
  have key : ∀ {n : Nat}, (255 : UInt8) = UInt8.ofNat n → n % 256 = 255 := by
    intro n hn
    have := congrArg UInt8.toNat hn
    simpa using this.symm
  simp only [String.utf8EncodeChar, hv]
  split
  · intro hm; simp only [List.mem_singleton] at hm; have := key hm; omega
  split
  · intro hm; simp only [List.mem_cons, List.not_mem_nil, or_false] at hm
    rcases hm with hm | hm <;> (have := key hm; omega)
  split
  · intro hm; simp only [List.mem_cons, List.not_mem_nil, or_false] at hm
    rcases hm with hm | hm | hm <;> (have := key hm; omega)
  · intro hm; simp only [List.mem_cons, List.not_mem_nil, or_false] at hm
    rcases hm with hm | hm | hm | hm <;> (have := key hm; omega)

/-- A source with a byte 255 is not UTF-8. -/
theorem not_clean_ff {src : Bytes} (h : 255 ∈ src) : ¬ Clean src := by
  rintro ⟨cs, _, rfl⟩
  unfold enc at h
  obtain ⟨c, _, hc⟩ := List.mem_flatMap.mp h
  exact ff_not_mem_enc hc

end Cddlc
