import Verif.Lemmas.LexStep
import Verif.Spec.Scans

/-! Facts about `scan` on every source, clean or not. -/

namespace Cddlc

theorem Out.ok_inj {α : Type} {a b : α} (h : Out.ok a = Out.ok b) : a = b := by cases h; rfl

namespace Lexer
open Spec

/-- `l'` is reached from `l` by reading characters other than newlines. -/
inductive Adv : Lexer → Lexer → Prop
  | refl (l) : Adv l l
  | step {l l'} : l.chr ≠ 10 → Adv l.next l' → Adv l l'

theorem Adv.trans {a b c : Lexer} (h : Adv a b) (h' : Adv b c) : Adv a c := by
  induction h with
  | refl => exact h'
  | step hc _ ih => exact .step hc (ih h')

theorem Adv.one {l : Lexer} (h : l.chr ≠ 10) : Adv l l.next := .step h (.refl _)

theorem while_adv {p : Int → Bool} (hp : p 10 = false) {n : Nat} {l l' : Lexer}
    (h : whileOut (fun l => p l.chr) next n l = .ok l') : Adv l l' ∧ p l'.chr = false := by
  induction n generalizing l with
  | zero => cases h
  | succ n ih =>
    rw [whileOut] at h
    by_cases hc : p l.chr = true
    · rw [if_pos hc] at h
      have := ih h
      exact ⟨.step (by rintro he; rw [he, hp] at hc; cases hc) this.1, this.2⟩
    · rw [if_neg hc] at h
      cases h
      exact ⟨.refl _, by simpa using hc⟩

theorem scanWhile_adv {p : Int → Bool} (hp : p 10 = false) {l l' : Lexer} {lit}
    (h : scanWhile p l = .ok (lit, l')) : Adv l l' := by
  unfold scanWhile at h
  obtain ⟨l1, h1, h⟩ := Out.bind_eq_ok.mp h
  obtain ⟨lit', h2, h⟩ := Out.bind_eq_ok.mp h
  cases h
  exact (while_adv hp h1).1

theorem scanRadix_adv {p : Int → Bool} (hp : p 10 = false) {l l' : Lexer} {pre tok lit}
    (h : scanRadix pre p l = .ok (tok, lit, l')) : Adv l l' ∧ tok = .INT := by
  unfold scanRadix at h
  obtain ⟨⟨ds, l1⟩, h1, h⟩ := Out.bind_eq_ok.mp h
  cases h
  exact ⟨scanWhile_adv hp h1, rfl⟩

variable [Unicode]

theorem decWhile_adv {n : Nat} {s s' : Lexer × Tok}
    (h : whileOut
      (fun s : Lexer × Tok =>
        uniIsDigit s.1.chr || (s.1.chr = 46 && uniIsDigit (s.1.peek.toNat : Int)))
      (fun s : Lexer × Tok =>
        let l := s.1.next
        (l, if l.chr = 46 && l.peek ≠ 46 then Tok.FLOAT else s.2)) n s = .ok s') :
    Adv s.1 s'.1 ∧ (s.2 ≠ .EOF → s'.2 ≠ .EOF) := by
  induction n generalizing s with
  | zero => cases h
  | succ n ih =>
    rw [whileOut] at h
    split at h
    · rename_i hc
      have := ih h
      refine ⟨.step ?_ this.1, fun hs => this.2 ?_⟩
      · intro he
        rw [he] at hc
        rw [show uniIsDigit 10 = false from rfl] at hc
        simp at hc
      · simp only []; split
        · simp
        · exact hs
    · cases h; exact ⟨.refl _, id⟩

theorem scanDecimal_adv {pre : Nat} {l l' : Lexer} {tok lit}
    (h : scanDecimal pre l = .ok (tok, lit, l')) : Adv l l' ∧ tok ≠ .EOF := by
  unfold scanDecimal at h
  obtain ⟨⟨l1, t1⟩, h1, h⟩ := Out.bind_eq_ok.mp h
  obtain ⟨lit', h2, h⟩ := Out.bind_eq_ok.mp h
  cases h
  have := decWhile_adv h1
  exact ⟨this.1, this.2 (by simp)⟩

theorem scanNumber_adv {l l' : Lexer} {tok lit}
    (h : scanNumber l = .ok (tok, lit, l')) : Adv l l' ∧ tok ≠ .EOF := by
  unfold scanNumber at h
  split at h
  · rename_i hc
    rw [Bool.and_eq_true] at hc
    have h48 : l.chr = 48 := of_decide_eq_true hc.1
    have hl : l.chr ≠ 10 := by rw [h48]; decide
    simp only [] at h
    split at h
    · rename_i h1
      have := scanRadix_adv rfl h
      exact ⟨.step hl (.step (by rw [h1]; decide) this.1), by rw [this.2]; simp⟩
    split at h
    · rename_i h1
      have := scanRadix_adv rfl h
      exact ⟨.step hl (.step (by rw [h1]; decide) this.1), by rw [this.2]; simp⟩
    split at h
    · rename_i h1
      have := scanRadix_adv rfl h
      exact ⟨.step hl (.step (by rw [h1]; decide) this.1), by rw [this.2]; simp⟩
    · have := scanDecimal_adv h
      exact ⟨.step hl this.1, this.2⟩
  · exact scanDecimal_adv h

/-- `l'` is reached from `l` by reading characters other than newlines and possibly recording
an error. -/
def AdvE (l l' : Lexer) : Prop := ∃ l1, Adv l l1 ∧ (l' = l1 ∨ ∃ o m, l' = l1.error o m)

omit [Unicode] in
theorem Adv.toE {l l' : Lexer} (h : Adv l l') : AdvE l l' := ⟨l', h, Or.inl rfl⟩
omit [Unicode] in
theorem AdvE.after {a b c : Lexer} (h : Adv a b) : AdvE b c → AdvE a c
  | ⟨l1, h1, h2⟩ => ⟨l1, h.trans h1, h2⟩

omit [Unicode] in
theorem scanString_adv {l l' : Lexer} {lit} (h : scanString l = .ok (lit, l')) : AdvE l l' := by
  unfold scanString at h
  obtain ⟨l1, h1, h⟩ := Out.bind_eq_ok.mp h
  obtain ⟨lit', h2, h⟩ := Out.bind_eq_ok.mp h
  cases h
  have h3 := while_adv (p := strP) rfl h1
  split
  · exact ⟨l1, h3.1, Or.inr ⟨_, _, rfl⟩⟩
  · rename_i hc
    refine (h3.1.trans (.one ?_)).toE
    intro he; rw [he] at hc; exact hc (by decide)

omit [Unicode] in
theorem peek_next {l : Lexer} {v : UInt8} (h : l.peek = v) (h0 : v ≠ 0) (h1 : v.toNat < 128) :
    l.next.chr = v.toNat := by
  unfold peek at h
  split at h
  · rename_i w hw
    subst h
    have hlt : l.rdOffset < l.src.length := by
      by_cases hh : l.rdOffset < l.src.length
      · exact hh
      · rw [List.getElem?_eq_none (by omega)] at hw; cases hw
    have hd : l.src.drop l.rdOffset = w :: l.src.drop (l.rdOffset + 1) := by
      rw [List.drop_eq_getElem_cons hlt]
      rw [List.getElem?_eq_getElem hlt] at hw
      cases hw; rfl
    unfold next
    rw [if_neg (by omega), hd]
    have : decodeRune (w :: l.src.drop (l.rdOffset + 1)) = (w.toNat, 1) := by
      show (if w.toNat < 128 then _ else _) = _
      rw [if_pos h1]
    rw [this]
    simp only []
    rw [if_neg (by show ¬ w.toNat = 65533; omega)]
  · exact absurd h.symm h0

omit [Unicode] in
theorem lookup_ne_eof (s : Bytes) : lookup s ≠ .EOF := by
  unfold lookup
  have : ∀ e ∈ keywords, e.2 ≠ .EOF := by decide
  have hf : ∀ (l : List (Bytes × Tok)) t, assocFind s l = some t → ∃ e ∈ l, e.2 = t := by
    intro l
    induction l with
    | nil => intro t h; cases h
    | cons e l ih =>
      intro t h
      rw [assocFind] at h
      split at h
      · cases h; exact ⟨e, by simp, rfl⟩
      · obtain ⟨e', h1, h2⟩ := ih t h
        exact ⟨e', by simp [h1], h2⟩
  split
  · rename_i t ht
    obtain ⟨e, h1, h2⟩ := hf _ _ ht
    rw [← h2]; exact this e h1
  · simp

omit [Unicode] in
theorem ite_or {α : Type} {c : Prop} [Decidable c] {a b x : α} (h : (if c then a else b) = x) :
    (c ∧ a = x) ∨ (¬ c ∧ b = x) := by
  by_cases hc : c
  · left; rw [if_pos hc] at h; exact ⟨hc, h⟩
  · right; rw [if_neg hc] at h; exact ⟨hc, h⟩

theorem scanOther_adv {chr : Int} {l l' : Lexer} {tok lit}
    (h : scanOther chr l = .ok (tok, lit, l')) : AdvE l l' ∧ (tok = .EOF → chr = -1) := by
  have hone : ∀ k : Int, k ≠ 10 → l.chr = k → AdvE l l.next := by
    intro k hk hl
    exact (Adv.one (by rw [hl]; exact hk)).toE
  have hsimple : ∀ {t : Tok} {b : Bytes}, (Out.ok (t, b, l) : Out (Tok × Bytes × Lexer)) =
      .ok (tok, lit, l') → t ≠ .EOF → AdvE l l' ∧ (tok = .EOF → chr = -1) := by
    intro t b h ht
    cases h
    exact ⟨(Adv.refl _).toE, fun h => absurd h ht⟩
  have hnext : ∀ {t : Tok} {b : Bytes} {k : Int}, l.chr = k →
      (Out.ok (t, b, l.next) : Out (Tok × Bytes × Lexer)) = .ok (tok, lit, l') → k ≠ 10 →
      t ≠ .EOF → AdvE l l' ∧ (tok = .EOF → chr = -1) := by
    intro t b k hk h hk' ht
    cases h
    exact ⟨hone k hk' hk, fun h => absurd h ht⟩
  have hnext2 : ∀ {t : Tok} {b : Bytes} {k : Int} {v : UInt8}, l.chr = k ∧ l.peek = v →
      (Out.ok (t, b, l.next.next) : Out (Tok × Bytes × Lexer)) = .ok (tok, lit, l') → k ≠ 10 →
      v ≠ 0 → v.toNat < 128 → v.toNat ≠ 10 →
      t ≠ .EOF → AdvE l l' ∧ (tok = .EOF → chr = -1) := by
    intro t b k v hk h hk' hv0 hv1 hv2 ht
    cases h
    refine ⟨(Adv.step (by rw [hk.1]; exact hk') (.one ?_)).toE, fun h => absurd h ht⟩
    rw [peek_next hk.2 hv0 hv1]; omega
  unfold scanOther at h
  simp only [] at h
  rcases ite_or h with ⟨hh, h⟩ | ⟨hh, h⟩
  · exact hsimple h (by simp)
  rcases ite_or h with ⟨hh, h⟩ | ⟨hh, h⟩
  · exact hsimple h (by simp)
  rcases ite_or h with ⟨hh, h⟩ | ⟨hh, h⟩
  · obtain ⟨⟨c, l1⟩, h1, h⟩ := Out.bind_eq_ok.mp h
    cases h
    exact ⟨(scanWhile_adv rfl h1).toE, by simp⟩
  rcases ite_or h with ⟨hh, h⟩ | ⟨hh, h⟩
  · exact hsimple h (by simp)
  rcases ite_or h with ⟨hh, h⟩ | ⟨hh, h⟩
  · exact hsimple h (by simp)
  rcases ite_or h with ⟨hh, h⟩ | ⟨hh, h⟩
  · exact hsimple h (by simp)
  rcases ite_or h with ⟨hh, h⟩ | ⟨hh, h⟩
  · exact hsimple h (by simp)
  rcases ite_or h with ⟨hh, h⟩ | ⟨hh, h⟩
  · exact hsimple h (by simp)
  rcases ite_or h with ⟨hh, h⟩ | ⟨hh, h⟩
  · exact hsimple h (by simp)
  rcases ite_or h with ⟨hh, h⟩ | ⟨hh, h⟩
  · exact hsimple h (by simp)
  rcases ite_or h with ⟨hh, h⟩ | ⟨hh, h⟩
  · exact hsimple h (by simp)
  rcases ite_or h with ⟨hh, h⟩ | ⟨hh, h⟩
  · exact hsimple h (by simp)
  rcases ite_or h with ⟨hh, h⟩ | ⟨hh, h⟩
  · exact hsimple h (by simp)
  rcases ite_or h with ⟨hh, h⟩ | ⟨hh, h⟩
  · exact hsimple h (by simp)
  rcases ite_or h with ⟨hh, h⟩ | ⟨hh, h⟩
  · exact hsimple h (by simp)
  rcases ite_or h with ⟨hh, h⟩ | ⟨hh, h⟩
  · exact hsimple h (by simp)
  rcases ite_or h with ⟨hh, h⟩ | ⟨hh, h⟩
  · rcases ite_or h with ⟨hk, h⟩ | ⟨hk, h⟩
    · exact hnext hk h (by decide) (by simp)
    · exact hsimple h (by simp)
  rcases ite_or h with ⟨hh, h⟩ | ⟨hh, h⟩
  · exact hsimple h (by simp)
  rcases ite_or h with ⟨hh, h⟩ | ⟨hh, h⟩
  · exact hsimple h (by simp)
  rcases ite_or h with ⟨hh, h⟩ | ⟨hh, h⟩
  · rcases ite_or h with ⟨hk, h⟩ | ⟨hk, h⟩
    · exact hnext hk h (by decide) (by simp)
    rcases ite_or h with ⟨hk, h⟩ | ⟨hk, h⟩
    · exact hnext2 hk h (by decide) (by decide) (by decide) (by decide) (by simp)
    rcases ite_or h with ⟨hk, h⟩ | ⟨hk, h⟩
    · exact hnext hk h (by decide) (by simp)
    · exact hsimple h (by simp)
  rcases ite_or h with ⟨hh, h⟩ | ⟨hh, h⟩
  · rcases ite_or h with ⟨hk, h⟩ | ⟨hk, h⟩
    · exact hnext2 hk h (by decide) (by decide) (by decide) (by decide) (by simp)
    rcases ite_or h with ⟨hk, h⟩ | ⟨hk, h⟩
    · exact hnext hk h (by decide) (by simp)
    rcases ite_or h with ⟨hk, h⟩ | ⟨hk, h⟩
    · obtain ⟨⟨c, l1⟩, h1, h⟩ := Out.bind_eq_ok.mp h
      cases h
      exact ⟨(scanWhile_adv rfl h1).toE, fun h => absurd h (lookup_ne_eof _)⟩
    · exact hsimple h (by simp)
  rcases ite_or h with ⟨hh, h⟩ | ⟨hh, h⟩
  · obtain ⟨⟨c, l1⟩, h1, h⟩ := Out.bind_eq_ok.mp h
    cases h
    exact ⟨scanString_adv h1, by simp⟩
  rcases ite_or h with ⟨hh, h⟩ | ⟨hh, h⟩
  · cases h; exact ⟨(Adv.refl _).toE, fun _ => hh⟩
  · exact hsimple h (by simp)

theorem scanTok_adv {l l' : Lexer} {tok lit} (hl : l.chr ≠ 10)
    (h : scanTok l = .ok (tok, lit, l')) : AdvE l l' ∧ (tok = .EOF → l.chr = -1) := by
  unfold scanTok at h
  split at h
  · obtain ⟨⟨c, l1⟩, h1, h⟩ := Out.bind_eq_ok.mp h
    cases h
    refine ⟨(scanWhile_adv rfl h1).toE, fun h => ?_⟩
    split at h
    · exact absurd h (lookup_ne_eof _)
    · cases h
  split at h
  · have := scanNumber_adv h
    exact ⟨this.1.toE, fun h => absurd h this.2⟩
  · have := scanOther_adv h
    exact ⟨this.1.after (.one hl), this.2⟩

end Lexer
end Cddlc
