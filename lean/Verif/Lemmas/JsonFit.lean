import Verif.Lemmas.JsonTree
import Verif.Lemmas.Real
import Verif.Lemmas.Spelled
import Verif.Props.Parser
import Verif.Props.Lexer

/-! Trees made by the parser, from sources whose strings are all terminated, can be read back from the JSON
text. -/

set_option linter.unusedSectionVars false

namespace Cddlc
open Spec

theorem utf8_enc (cs : List Char) : Utf8 (enc cs) := ⟨cs, rfl⟩
theorem utf8_bytes {s : Bytes} {cs : List Char} (h : enc cs = s) : Utf8 s := ⟨cs, h.symm⟩

theorem utf8_decNat (n : Nat) : Utf8 (decNat n) := by
  have dig : ∀ k, k < 10 → ∃ c, enc [c] = [UInt8.ofNat (48 + k)] := by
    intro k hk
    refine ⟨Char.ofNat (48 + k), ?_⟩
    have : ∀ k : Fin 10, enc [Char.ofNat (48 + k.val)] = [UInt8.ofNat (48 + k.val)] := by decide +kernel
    exact this ⟨k, hk⟩
  induction n using Nat.strongRecOn with
  | _ n ih =>
    by_cases h : n < 10
    · obtain ⟨c, hc⟩ := dig n h
      exact ⟨[c], by rw [decNat_small h, hc]⟩
    · obtain ⟨cs, hcs⟩ := ih (n / 10) (by omega)
      obtain ⟨c, hc⟩ := dig (n % 10) (by omega)
      refine ⟨cs ++ [c], ?_⟩
      rw [decNat_step (by omega), hcs, ← hc]
      simp [enc]

theorem utf8_decInt (v : Int) : Utf8 (decInt v) := by
  cases v with
  | ofNat k => exact utf8_decNat k
  | negSucc k =>
    obtain ⟨cs, h⟩ := utf8_decNat (k + 1)
    refine ⟨'-' :: cs, ?_⟩
    change 45 :: decNat (k + 1) = _
    rw [h]
    rfl

variable [Unicode]

theorem lexeme_utf8 {r : List Char} {x : Lexeme} (h : lexeme r = some x) : Utf8 x.lit ∨ x.err = true := by
  have num : ∀ r, Utf8 (number r).lit := by
    intro r
    unfold number
    simp only []
    split <;> exact utf8_enc _
  unfold lexeme at h
  match r, h with
  | [], h => cases h; exact Or.inl (utf8_enc [])
  | c :: t, h =>
    have lit : ∀ {s : Bytes}, s ∈ [b!"=>", b!"/=", b!"//=", b!"//", b!"...", b!".."] → Utf8 s := by
      intro s hs
      simp only [List.mem_cons, List.not_mem_nil, or_false] at hs
      rcases hs with rfl | rfl | rfl | rfl | rfl | rfl
      · exact utf8_bytes (cs := "=>".toList) (by decide +kernel)
      · exact utf8_bytes (cs := "/=".toList) (by decide +kernel)
      · exact utf8_bytes (cs := "//=".toList) (by decide +kernel)
      · exact utf8_bytes (cs := "//".toList) (by decide +kernel)
      · exact utf8_bytes (cs := "...".toList) (by decide +kernel)
      · exact utf8_bytes (cs := "..".toList) (by decide +kernel)
    have str : ∀ {t : List Char}, string t = some x → Utf8 x.lit ∨ x.err = true := by
      intro t h
      unfold string at h
      simp only [] at h
      repeat' split at h
      · cases h; exact Or.inl (utf8_enc _)
      · cases h
      · cases h; exact Or.inr rfl
    simp only [] at h
    by_cases h1 : idStart c = true
    · rw [if_pos h1] at h; cases h; exact Or.inl (utf8_enc _)
    rw [if_neg h1] at h
    split at h
    · cases h; exact Or.inl (num _)
    split at h
    · cases h; exact Or.inl (utf8_enc _)
    split at h
    · exact str h
    split at h
    · cases h; exact Or.inl (lit (by simp))
    split at h
    · cases h; exact Or.inl (lit (by simp))
    split at h
    · cases h; exact Or.inl (lit (by simp))
    split at h
    · cases h; exact Or.inl (lit (by simp))
    split at h
    · cases h; exact Or.inl (lit (by simp))
    split at h
    · cases h; exact Or.inl (lit (by simp))
    split at h
    · cases h; exact Or.inl (utf8_enc _)
    · cases h; exact Or.inl (utf8_enc _)

theorem scans_utf8 {cs done r : List Char} {l l' : Lexer} {ts} (hc : Lexer.Clean cs l done r)
    (hs : Scans l ts l') : l.errors <+: l'.errors ∧ (l'.errors = l.errors → ∀ t ∈ ts, Utf8 t.lit) := by
  induction hs generalizing done r with
  | nil => exact ⟨List.prefix_rfl, fun _ => by simp⟩
  | cons h1 _ ih =>
    obtain ⟨x, hx, _, hl, _, hc', he⟩ := Lexer.clean_scan_ok hc h1
    obtain ⟨i1, i2⟩ := ih hc'
    rw [he] at i1
    have hp := (List.prefix_append _ _).trans i1
    refine ⟨hp, fun hee t ht => ?_⟩
    rw [hee] at i1
    have : x.err = false := by
      cases hb : x.err with
      | false => rfl
      | true =>
        rw [hb] at i1
        have := i1.length_le
        simp at this
        omega
    rcases List.mem_cons.1 ht with rfl | ht
    · rcases lexeme_utf8 hx with h | h
      · rw [← hl]; exact h
      · rw [this] at h; cases h
    · exact i2 (by rw [hee, he, this]; simp) t ht

theorem tk_utf8 {src : Bytes} (hc : Clean src) (he : NoLexErrors src) {t : Token}
    (h : Tk (Lexer.new src) t) : Utf8 t.lit := by
  obtain ⟨ts, l, hs⟩ := h
  obtain ⟨cs, hcs, rfl⟩ := hc
  exact (scans_utf8 (Lexer.clean_new hcs) hs).2 (by rw [he _ _ hs, he _ _ (.nil _)]) t (by simp)

theorem tk_file {src : Bytes} {t : Token} (h : Tk (Lexer.new src) t) : t.pos.file = [] := by
  obtain ⟨ts, l, hs⟩ := h
  obtain ⟨o, _, h⟩ := C04_positions hs t (by simp)
  rw [h]

theorem tkAt_file {src : Bytes} {t : Tok} {pos : Pos} (h : TkAt (Lexer.new src) t pos) : pos.file = [] := by
  obtain ⟨_, h⟩ := h
  exact tk_file h

omit [Unicode] in
theorem real_kid {n k : Node} (hn : Real n) (hnil : n.isNil = false)
    (hc : ∀ p t o a b, n ≠ .comparator p t o a b)
    (hk : k.isNil = false → k ∈ kids n) (hs : ∀ y ∈ subs k, y ∈ subs n) : Real k := by
  by_cases hkn : k.isNil = true
  · cases k <;> first | (cases hkn; done) | exact real_nil
  · simp only [Bool.not_eq_true] at hkn
    exact ⟨hn.2.1 n (mem_subs_self hnil) hc k (hk hkn), fun y hy => hn.2.1 y (hs y hy),
      fun p t o a b h => hn.2.2 p t o a b (hs _ h)⟩

theorem uint_not_number {src : Bytes} {u : UintLit} {lit : Bytes} (h1 : Tk (Lexer.new src) ⟨.UINT, u.pos, lit⟩)
    (h2 : parseUint lit = .ok u.value) : False := by
  obtain ⟨ts, l, hs⟩ := h1
  have := (scans_spelled hs ⟨.UINT, u.pos, lit⟩ (by simp)).1 (by simp)
  have e : lit = b!"uint" := this
  rw [e] at h2
  have e' : (parseUint b!"uint").isOk = false := by decide +kernel
  rw [h2] at e'
  cases e'

section
variable {src : Bytes} (hu : ∀ t, Tk (Lexer.new src) t → Utf8 t.lit)
include hu

mutual
theorem fit_of : ∀ (x : Node), Real x → (∀ y ∈ subs x, FromTokens (Lexer.new src) y) → Fit x
  | .nil, _, _ => trivial
  | .typedNil _, hr, _ => absurd rfl (hr.1 _)
  | .array p es, hr, h => by
    have hs := h _ (mem_subs_self rfl)
    have sub : ∀ e ∈ es, ∀ y ∈ subs e, y ∈ subs (.array p es) := fun e he y hy =>
      List.mem_cons_of_mem _ (mem_subsList.2 ⟨e, he, hy⟩)
    exact ⟨tkAt_file hs.1, fitL_of es (fun e he => real_kid hr rfl (fun _ _ _ _ _ h => by cases h)
      (fun _ => by simp [kids, he]) (sub e he)) fun e he y hy => h y (sub e he y hy)⟩
  | .group p es, hr, h => by
    have hs := h _ (mem_subs_self rfl)
    have sub : ∀ e ∈ es, ∀ y ∈ subs e, y ∈ subs (.group p es) := fun e he y hy =>
      List.mem_cons_of_mem _ (mem_subsList.2 ⟨e, he, hy⟩)
    exact ⟨tkAt_file hs.1, fitL_of es (fun e he => real_kid hr rfl (fun _ _ _ _ _ h => by cases h)
      (fun _ => by simp [kids, he]) (sub e he)) fun e he y hy => h y (sub e he y hy)⟩
  | .map p es, hr, h => by
    have hs := h _ (mem_subs_self rfl)
    have sub : ∀ e ∈ es, ∀ y ∈ subs e, y ∈ subs (.map p es) := fun e he y hy =>
      List.mem_cons_of_mem _ (mem_subsList.2 ⟨e, he, hy⟩)
    exact ⟨tkAt_file hs.1, fitL_of es (fun e he => real_kid hr rfl (fun _ _ _ _ _ h => by cases h)
      (fun _ => by simp [kids, he]) (sub e he)) fun e he y hy => h y (sub e he y hy)⟩
  | .boolType p t, hr, h => by
    have hs := h _ (mem_subs_self rfl)
    exact ⟨tkAt_file hs.2, hs.1⟩
  | .bstr p t, hr, h => by
    have hs := h _ (mem_subs_self rfl)
    exact ⟨tkAt_file hs.2, hs.1⟩
  | .bytes p t, hr, h => by
    have hs := h _ (mem_subs_self rfl)
    exact ⟨tkAt_file hs.2, hs.1⟩
  | .nintType p t, hr, h => by
    have hs := h _ (mem_subs_self rfl)
    exact ⟨tkAt_file hs.2, hs.1⟩
  | .intType p t, hr, h => by
    have hs := h _ (mem_subs_self rfl)
    exact ⟨tk_file hs.2, hs.1⟩
  | .floatType p t, hr, h => by
    have hs := h _ (mem_subs_self rfl)
    exact ⟨tk_file hs.2, hs.1⟩
  | .null p t, hr, h => by
    have hs := h _ (mem_subs_self rfl)
    exact ⟨tkAt_file hs.2, hs.1⟩
  | .boolLit r b, hr, h => by
    obtain ⟨_, _, h1, h2⟩ := h _ (mem_subs_self rfl)
    exact ⟨tk_file h1, by rw [h2]; exact tk_file h1⟩
  | .floatLit r t v, hr, h => by
    obtain ⟨_, h1, _, _, h2⟩ := h _ (mem_subs_self rfl)
    exact ⟨tk_file h1, by rw [h2]; exact tk_file h1⟩
  | .uintType r t, hr, h => by
    obtain ⟨_, h1, h2⟩ := h _ (mem_subs_self rfl)
    exact ⟨tk_file h1, by rw [h2]; exact tk_file h1⟩
  | .uintLit u, hr, h => by
    obtain ⟨_, h1, h2⟩ := h _ (mem_subs_self rfl)
    exact (uint_not_number h1 h2).elim
  | .intLit p t v, hr, h => by
    obtain ⟨h1, _, h2, _⟩ := h _ (mem_subs_self rfl)
    exact ⟨tk_file h2, h1⟩
  | .ident i, hr, h => by
    have hs := h _ (mem_subs_self rfl)
    exact ⟨tk_file hs, hu _ hs⟩
  | .tstr t, hr, h => by
    have hs := h _ (mem_subs_self rfl)
    exact ⟨tkAt_file hs.2, hs.1⟩
  | .textLit p t l, hr, h => by
    have hs := h _ (mem_subs_self rfl)
    exact ⟨tk_file hs.2, hs.1, hu _ hs.2⟩
  | .bits p t a b, hr, h => by
    have hs := h _ (mem_subs_self rfl)
    exact ⟨tkAt_file hs.2.1, hs.1, fit_of a (real_kid hr rfl (fun _ _ _ _ _ h => by cases h) (fun hn => by simp [kids, kids.present, hn]) fun y hy => by simp [subs, hy]) fun y hy => h y (by simp [subs, hy]),
      fit_of b (real_kid hr rfl (fun _ _ _ _ _ h => by cases h) (fun hn => by simp [kids, kids.present, hn]) fun y hy => by simp [subs, hy]) fun y hy => h y (by simp [subs, hy])⟩
  | .size p t a b, hr, h => by
    have hs := h _ (mem_subs_self rfl)
    exact ⟨tkAt_file hs.2.1, hs.1, fit_of a (real_kid hr rfl (fun _ _ _ _ _ h => by cases h) (fun hn => by simp [kids, kids.present, hn]) fun y hy => by simp [subs, hy]) fun y hy => h y (by simp [subs, hy]),
      fit_of b (real_kid hr rfl (fun _ _ _ _ _ h => by cases h) (fun hn => by simp [kids, kids.present, hn]) fun y hy => by simp [subs, hy]) fun y hy => h y (by simp [subs, hy])⟩
  | .typeChoice p t a b, hr, h => by
    have hs := h _ (mem_subs_self rfl)
    exact ⟨tkAt_file hs.2.1, hs.1, fit_of a (real_kid hr rfl (fun _ _ _ _ _ h => by cases h) (fun hn => by simp [kids, kids.present, hn]) fun y hy => by simp [subs, hy]) fun y hy => h y (by simp [subs, hy]),
      fit_of b (real_kid hr rfl (fun _ _ _ _ _ h => by cases h) (fun hn => by simp [kids, kids.present, hn]) fun y hy => by simp [subs, hy]) fun y hy => h y (by simp [subs, hy])⟩
  | .optional p t i, hr, h => by
    have hs := h _ (mem_subs_self rfl)
    exact ⟨tkAt_file hs.2.1, hs.1, fit_of i (real_kid hr rfl (fun _ _ _ _ _ h => by cases h) (fun hn => by simp [kids, kids.present, hn]) fun y hy => by simp [subs, hy]) fun y hy => h y (by simp [subs, hy])⟩
  | .unwrap p t i, hr, h => by
    have hs := h _ (mem_subs_self rfl)
    exact ⟨tkAt_file hs.2.1, hs.1, fit_of i (real_kid hr rfl (fun _ _ _ _ _ h => by cases h) (fun hn => by simp [kids, kids.present, hn]) fun y hy => by simp [subs, hy]) fun y hy => h y (by simp [subs, hy])⟩
  | .enumeration p t i, hr, h => by
    have hs := h _ (mem_subs_self rfl)
    exact ⟨tkAt_file hs.2.1, hs.1, fit_of i (real_kid hr rfl (fun _ _ _ _ _ h => by cases h) (fun hn => by simp [kids, kids.present, hn]) fun y hy => by simp [subs, hy]) fun y hy => h y (by simp [subs, hy])⟩
  | .comparator p t o a b, hr, h => by
    obtain ⟨h1, h2, h3, _⟩ := h _ (mem_subs_self rfl)
    have hb : Real b := ⟨hr.2.2 p t o a b (mem_subs_self rfl), fun y hy => hr.2.1 y (by simp [subs, hy]),
      fun p t o a b hy => hr.2.2 p t o a b (by simp [subs, hy])⟩
    exact ⟨tk_file h2, h1, hu _ h2, h3, fit_of b hb fun y hy => h y (by simp [subs, hy])⟩
  | .regexp p t b r, hr, h => by
    have hs := h _ (mem_subs_self rfl)
    have hb : FromTokens (Lexer.new src) (.tstr b) := h _ (by simp [subs])
    exact ⟨tkAt_file hs.2.1, hs.1, tkAt_file hb.2, fit_of r (real_kid hr rfl (fun _ _ _ _ _ h => by cases h) (fun hn => by simp [kids, kids.present, hn]) fun y hy => by simp [subs, hy]) fun y hy => h y (by simp [subs, hy])⟩
  | .entry p n v c, hr, h => by
    obtain ⟨h1, _, h2, h3⟩ := h _ (mem_subs_self rfl)
    have hp : p.file = [] := by rcases h1 with h1 | h1 <;> exact tkAt_file h1
    refine ⟨hp, ?_, fun x hx => ⟨tk_file (h3 x hx), hu _ (h3 x hx)⟩, fit_of v (real_kid hr rfl (fun _ _ _ _ _ h => by cases h) (fun hn => by simp [kids, kids.present, hn]) fun y hy => by simp [subs, hy]) fun y hy => h y (by simp [subs, hy])⟩
    rcases h2 with h2 | ⟨_, _, _, _, _, rfl⟩
    · exact ⟨tk_file h2, hu _ h2⟩
    · exact ⟨hp, utf8_decInt _⟩
  | .nm p t n m i, hr, h => by
    obtain ⟨h1, h2, _, ⟨u, rfl, h3⟩, h4⟩ := h _ (mem_subs_self rfl)
    refine ⟨tkAt_file h2, h1, ?_, fun x hx => ?_, fit_of i (real_kid hr rfl (fun _ _ _ _ _ h => by cases h) (fun hn => by simp [kids, kids.present, hn]) fun y hy => by simp [subs, hy]) fun y hy => h y (by simp [subs, hy])⟩
    · intro x hx
      cases hx
      rcases h3 with ⟨h3, _⟩ | ⟨_, h3, _⟩ | ⟨_, h3, _⟩
      · rw [h3]; exact tkAt_file h2
      · exact tk_file h3
      · exact tk_file h3
    · obtain ⟨_, h5, _⟩ := h4 x hx
      exact tk_file h5
  | .range p t a b, hr, h => by
    have ha := fit_of a (real_kid hr rfl (fun _ _ _ _ _ h => by cases h) (fun hn => by simp [kids, kids.present, hn]) fun y hy => by simp [subs, hy]) fun y hy => h y (by simp [subs, hy])
    have hb := fit_of b (real_kid hr rfl (fun _ _ _ _ _ h => by cases h) (fun hn => by simp [kids, kids.present, hn]) fun y hy => by simp [subs, hy]) fun y hy => h y (by simp [subs, hy])
    rcases h _ (mem_subs_self rfl) with ⟨rfl, h1, _⟩ | ⟨h1, h2, _⟩
    · exact ⟨rfl, Or.inl h1, ha, hb⟩
    · exact ⟨tkAt_file h2, Or.inr h1, ha, hb⟩
  | .tag p t a b i, hr, h => by
    obtain ⟨h1, h2, h3⟩ := h _ (mem_subs_self rfl)
    refine ⟨tkAt_file h2, h1, ?_, ?_, fit_of i (real_kid hr rfl (fun _ _ _ _ _ h => by cases h) (fun hn => by simp [kids, kids.present, hn]) fun y hy => by simp [subs, hy]) fun y hy => h y (by simp [subs, hy])⟩
    · rcases h3 with ⟨rfl, _⟩ | ⟨_, u, _, _, rfl, h3, _⟩ | ⟨u, v, _, _, _, rfl, _, h3, _⟩
      · simp
      · intro x hx; cases hx; rw [h3]
      · intro x hx; cases hx; exact tk_file h3
    · rcases h3 with ⟨_, rfl⟩ | ⟨rfl, _⟩ | ⟨u, v, _, _, _, _, rfl, h3, h4, _⟩
      · simp
      · simp
      · intro x hx; cases hx; rw [h4]; exact tk_file h3
  | .badNode .., _, h => (h _ (mem_subs_self rfl)).elim
  | .cddl .., _, h => (h _ (mem_subs_self rfl)).elim
  | .comment _, _, h => (h _ (mem_subs_self rfl)).elim
  | .commentGroup _, _, h => (h _ (mem_subs_self rfl)).elim
  | .groupChoice .., _, h => (h _ (mem_subs_self rfl)).elim
  | .rule .., _, h => (h _ (mem_subs_self rfl)).elim
theorem fitL_of : ∀ (xs : List Node), (∀ x ∈ xs, Real x) →
    (∀ x ∈ xs, ∀ y ∈ subs x, FromTokens (Lexer.new src) y) → FitL xs
  | [], _, _ => trivial
  | x :: xs, hr, h => ⟨fit_of x (hr x List.mem_cons_self) (h x List.mem_cons_self),
      fitL_of xs (fun e he => hr e (List.mem_cons_of_mem _ he)) fun e he => h e (List.mem_cons_of_mem _ he)⟩
end
end

/-- A test that the lexer finds no error. -/
def errFree : Nat → Lexer → Bool
  | 0, _ => false
  | n + 1, l => decide (l.errors = []) && match l.scan with
    | .ok (t, _, _, l') => if t = .EOF ∧ l' = l then true else errFree n l'
    | _ => true

theorem noLexErrors_of_check {n : Nat} {src : Bytes} (h : errFree n (Lexer.new src) = true) : NoLexErrors src := by
  intro ts l hs
  generalize Lexer.new src = l0 at h hs
  induction hs generalizing n with
  | nil l =>
    cases n with
    | zero => cases h
    | succ n =>
      simp only [errFree, Bool.and_eq_true, decide_eq_true_eq] at h
      exact h.1
  | cons h1 h2 ih =>
    cases n with
    | zero => cases h
    | succ n =>
      have h' := h
      simp only [errFree, h1, Bool.and_eq_true, decide_eq_true_eq] at h
      obtain ⟨_, h⟩ := h
      split at h
      · rename_i hc
        rw [hc.2] at ih
        exact ih h'
      · exact ih h

end Cddlc
