import Verif.Lemmas.IdentBytes
import Verif.Spec.Tree

/-! How keywords and numbers are spelled, on every source. -/

namespace Cddlc
open Spec

/-- What is known of the spelling of a token. -/
def Spelled (tok : Tok) (lit : Bytes) : Prop :=
  (tok ∈ [Tok.TRUE, .FALSE, .UINT, .FLOAT16, .FLOAT32, .FLOAT64, .BOOL, .TSTR,
    .TEXT, .NINT, .BSTR, .BYTES, .NULL, .NIL] → lit = tok.text) ∧
  (tok = .INT ∨ tok = .FLOAT → lit = tok.text ∨ ∀ c, lit.head? = some c → 48 ≤ c ∧ c ≤ 57)

namespace Lexer
variable [Unicode] {src : Bytes} {cs : List Char} {bad : Bytes} {l l' : Lexer}

omit [Unicode] in
theorem lookup_spelled (s : Bytes) : Spelled (lookup s) s := by
  have key : ∀ e ∈ keywords, e.1 = e.2.text := by decide
  have hf : ∀ (l : List (Bytes × Tok)) t, assocFind s l = some t → (s, t) ∈ l := by
    intro l
    induction l with
    | nil => intro t h; cases h
    | cons e l ih =>
      intro t h
      rw [assocFind] at h
      split at h
      · rename_i he; cases h; simp [← he]
      · exact List.mem_cons_of_mem _ (ih t h)
  unfold lookup
  split
  · rename_i t ht
    have := key _ (hf _ _ ht)
    exact ⟨fun _ => this, fun _ => Or.inl this⟩
  · exact ⟨fun h => by simp at h, fun h => by simp at h⟩

omit [Unicode] in
theorem spelled_other {t : Tok} {lit} (h : t ∉ [Tok.TRUE, .FALSE, .UINT, .FLOAT16, .FLOAT32, .FLOAT64, .BOOL,
    .TSTR, .TEXT, .NINT, .BSTR, .BYTES, .NULL, .NIL, .INT, .FLOAT]) :
    Spelled t lit :=
  ⟨fun hm => absurd (List.mem_append_left [Tok.INT, .FLOAT] hm) h, fun hm => by
    rcases hm with rfl | rfl <;> exact absurd (by decide) h⟩

omit [Unicode] in
/-- What is sliced from where the lexer stands begins with the character it stands on. -/
theorem slice_head (h : Inv src cs bad l) (hc : isDigit l.chr = true) {s : Bytes} (hs0 : s = (init src).src) {hi lit}
    (hs : slice s l.offset hi = .ok lit) : ∀ c, lit.head? = some c → 48 ≤ c ∧ c ≤ 57 := by
  obtain ⟨hd, b, pre, rest, hb, he, rfl, _⟩ := h
  have hdb : Dec b.src cs bad := by rw [hb]; exact hd
  cases rest with
  | nil =>
    exfalso
    unfold at_ at hc
    simp only at hc
    split at hc <;> simp [isDigit] at hc
  | cons c r =>
    rw [at_chr_cons] at hc
    have hd : 48 ≤ c.toNat ∧ c.toNat ≤ 57 := by
      unfold isDigit at hc
      simp only [Bool.and_eq_true, decide_eq_true_eq] at hc
      omega
    unfold slice at hs
    split at hs
    · cases hs
      rw [at_offset_cons, hs0, ← hb, hdb.eq, he]
      simp only [Int.toNat_natCast]
      rw [drop_enc, enc_cons, enc_ascii (by omega)]
      intro v hv
      rw [List.cons_append, List.cons_append] at hv
      generalize hi.toNat - blen pre = k at hv
      cases k with
      | zero => cases hv
      | succ k =>
        simp only [List.take_succ_cons, List.head?_cons, Option.some.injEq] at hv
        subst hv
        constructor <;>
          (rw [UInt8.le_iff_toNat_le, UInt8.toNat_ofNat', Nat.mod_eq_of_lt (by omega)]; simp; omega)
    · cases hs

omit [Unicode] in
theorem Inv.src_eq (h : Inv src cs bad l) : l.src = (init src).src := by
  obtain ⟨_, b, pre, rest, hb, _, rfl, _⟩ := h
  rw [at_src, hb]

theorem decWhile_num {n : Nat} {s s' : Lexer × Tok}
    (h : whileOut
      (fun s : Lexer × Tok =>
        uniIsDigit s.1.chr || (s.1.chr = 46 && uniIsDigit (s.1.peek.toNat : Int)))
      (fun s : Lexer × Tok =>
        let l := s.1.next
        (l, if l.chr = 46 && l.peek ≠ 46 then Tok.FLOAT else s.2)) n s = .ok s')
    (hs : s.2 = .INT ∨ s.2 = .FLOAT) : s'.2 = .INT ∨ s'.2 = .FLOAT := by
  induction n generalizing s with
  | zero => cases h
  | succ n ih =>
    rw [whileOut] at h
    split at h
    · refine ih h ?_
      simp only []; split
      · simp
      · exact hs
    · cases h; exact hs

omit [Unicode] in
theorem spelled_num {t : Tok} {lit : Bytes} (ht : t = .INT ∨ t = .FLOAT)
    (h : ∀ c, lit.head? = some c → 48 ≤ c ∧ c ≤ 57) : Spelled t lit :=
  ⟨fun hm => by rcases ht with rfl | rfl <;> simp at hm, fun _ => Or.inr h⟩

theorem scanDecimal_spelled (h : Inv src cs bad l) (hc : isDigit l.chr = true) {l0 : Lexer} (hl : Adv l l0)
    {tok lit} (hs : scanDecimal l.offset l0 = .ok (tok, lit, l')) : Spelled tok lit := by
  have hadv := scanDecimal_adv hs
  unfold scanDecimal at hs
  obtain ⟨⟨l1, t1⟩, h1, hs⟩ := Out.bind_eq_ok.mp hs
  obtain ⟨lit', h2, hs⟩ := Out.bind_eq_ok.mp hs
  cases hs
  exact spelled_num (decWhile_num h1 (Or.inl rfl))
    (slice_head h hc (inv_adv (inv_adv h hl) hadv.1).src_eq h2)

theorem scanNumber_spelled (h : Inv src cs bad l) (hc : isDigit l.chr = true)
    {tok lit} (hs : scanNumber l = .ok (tok, lit, l')) : Spelled tok lit := by
  have key : ∀ {c v p l}, scanRadix (48 :: v) p l = .ok (tok, lit, l') → c = 0 → Spelled tok lit := by
    intro _ v p l h _
    unfold scanRadix at h
    obtain ⟨⟨ds, l1⟩, h1, h⟩ := Out.bind_eq_ok.mp h
    cases h
    refine spelled_num (Or.inl rfl) fun c hc => ?_
    simp only [List.cons_append, List.head?_cons, Option.some.injEq] at hc
    subst hc; decide
  have hn : l.chr ≠ 10 := by
    intro he; rw [he] at hc; simp [isDigit] at hc
  unfold scanNumber at hs
  split at hs
  · simp only [] at hs
    split at hs
    · exact key hs (rfl : (0 : Nat) = 0)
    split at hs
    · exact key hs (rfl : (0 : Nat) = 0)
    split at hs
    · exact key hs (rfl : (0 : Nat) = 0)
    · exact scanDecimal_spelled h hc (.one hn) hs
  · exact scanDecimal_spelled h hc (.refl _) hs

theorem scanTok_spelled (h : Inv src cs bad l) {tok lit} (hs : scanTok l = .ok (tok, lit, l')) :
    Spelled tok lit := by
  unfold scanTok at hs
  split at hs
  · obtain ⟨⟨c, l1⟩, h1, hs⟩ := Out.bind_eq_ok.mp hs
    simp only [Out.ok.injEq, Prod.mk.injEq] at hs
    obtain ⟨rfl, rfl, rfl⟩ := hs
    split
    · exact lookup_spelled _
    · exact spelled_other (by decide)
  split at hs
  · exact scanNumber_spelled h (by assumption) hs
  · unfold scanOther at hs
    simp only [] at hs
    repeat
      rcases ite_or hs with ⟨hh, hs⟩ | ⟨hh, hs⟩
      · first
        | (cases hs; exact spelled_other (by decide))
        | (obtain ⟨⟨c, l1⟩, h1, hs⟩ := Out.bind_eq_ok.mp hs; cases hs; exact spelled_other (by decide))
        | (repeat
            rcases ite_or hs with ⟨hk, hs⟩ | ⟨hk, hs⟩
            · first
              | (cases hs; exact spelled_other (by decide))
              | (obtain ⟨⟨c, l1⟩, h1, hs⟩ := Out.bind_eq_ok.mp hs
                 simp only [Out.ok.injEq, Prod.mk.injEq] at hs
                 obtain ⟨rfl, rfl, rfl⟩ := hs
                 exact lookup_spelled _)
           cases hs; exact spelled_other (by decide))
    cases hs; exact spelled_other (by decide)

end Lexer

variable [Unicode]

/-- All tokens of `l` are spelled as they should be. -/
def Spells (l : Lexer) : Prop := ∀ t, Tk l t → Spelled t.tok t.lit

theorem scans_spelled {src : Bytes} {ts l} (hs : Scans (Lexer.new src) ts l) : ∀ t ∈ ts, Spelled t.tok t.lit := by
  obtain ⟨cs, bad, hd, _, _⟩ := init_dec src
  have hi := Lexer.inv_new hd
  generalize Lexer.new src = l0 at hs hi
  induction hs with
  | nil => simp
  | cons h1 _ ih =>
    obtain ⟨l1, h2, h3, h4, h5, _⟩ := Lexer.inv_scan hi h1
    intro t ht
    rcases List.mem_cons.1 ht with rfl | ht
    · exact Lexer.scanTok_spelled h2 h4
    · exact ih h5 t ht

theorem new_spells (src : Bytes) : Spells (Lexer.new src) := by
  rintro t ⟨ts, l', h⟩
  exact scans_spelled h t (by simp)

omit [Unicode] in
/-- The numbers of INT tokens are not negative. -/
theorem Spelled.int_nonneg {lit : Bytes} (h : Spelled .INT lit) {v} (hv : parseInt lit = .ok v) : 0 ≤ v := by
  rcases h.2 (Or.inl rfl) with rfl | h
  · rw [show parseInt (Tok.INT.text) = .error .syntax by rfl] at hv; cases hv
  · cases lit with
    | nil => cases hv
    | cons c rest =>
      have hc := h c rfl
      have hne : c ≠ 45 := by rintro rfl; revert hc; decide
      unfold parseInt at hv
      simp only [hne, decide_false] at hv
      split at hv
      · cases hv
      · cases hv
      · rename_i un _
        by_cases hu : 2 ^ 63 ≤ un
        · simp [hu] at hv
        · simp [hu] at hv
          subst hv; exact Int.natCast_nonneg un

end Cddlc
