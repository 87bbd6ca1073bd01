import Verif.Lemmas.LexInv
import Verif.Lemmas.LexTok

/-! The bytes of identifiers, on every source. -/

namespace Cddlc.Lexer
open Spec
variable {src : Bytes} {cs : List Char} {bad : Bytes} {l l' : Lexer}

/-- Where reading while `p` holds gets to. -/
theorem while_reads {b : Lexer} (h : Dec b.src cs bad) {p : Int → Bool} (h1 : p (-1) = false) (h0 : p 0 = false)
    (h32 : p 32 = false) {n : Nat} {pre rest : List Char} (e : cs = pre ++ rest)
    (hw : whileOut (fun l => p l.chr) next n (at_ b bad pre rest) = .ok l') :
    ∃ ds rest', rest = ds ++ rest' ∧ (∀ d ∈ ds, p (d.toNat : Int) = true) ∧ l' = at_ b bad (pre ++ ds) rest' ∧
      (ds = [] ∨ rest' ≠ []) := by
  induction n generalizing pre rest with
  | zero => cases hw
  | succ n ih =>
    rw [whileOut] at hw
    by_cases hc : p (at_ b bad pre rest).chr = true
    · rw [if_pos hc] at hw
      match rest, hc, e, hw with
      | [], hc, _, _ =>
        exfalso
        unfold at_ at hc
        simp only at hc
        split at hc
        · rw [h1] at hc; cases hc
        · rw [h0] at hc; cases hc
      | [c], hc, e, hw =>
        by_cases hb : bad = []
        · exfalso
          subst hb
          obtain ⟨cs0, hl⟩ := h.last rfl
          rw [e] at hl
          have : c = ' ' := by simpa using List.append_inj_right' hl (by simp)
          subst this
          rw [at_chr_cons] at hc
          exact absurd hc (by rw [show ((' ').toNat : Int) = 32 from rfl, h32]; simp)
        · rw [next_at_stuck h hb e] at hw
          exact ih e hw
      | c :: c' :: r, hc, e, hw =>
        rw [next_at_cons2 h e] at hw
        obtain ⟨ds, rest', h2, h3, h4, h5⟩ := ih (pre := pre ++ [c]) (rest := c' :: r) (by simpa using e) hw
        refine ⟨c :: ds, rest', by rw [h2]; rfl, ?_, by simpa using h4, Or.inr ?_⟩
        · intro d hd
          rcases List.mem_cons.1 hd with rfl | hd
          · exact hc
          · exact h3 d hd
        · rcases h5 with rfl | h5
          · rw [List.nil_append] at h2; rw [← h2]; simp
          · exact h5
    · rw [if_neg hc] at hw
      cases hw
      exact ⟨[], rest, rfl, nofun, by simp, Or.inl rfl⟩

/-- The bytes of ASCII characters of a class are of that class. -/
theorem enc_bytes {p : Int → Bool} (hp : ∀ x, p x = true → x < 128) {ds : List Char}
    (h3 : ∀ d ∈ ds, p (d.toNat : Int) = true) : ∀ c ∈ enc ds, p (c.toNat : Int) = true := by
  intro c hc
  induction ds with
  | nil => simp [enc_nil] at hc
  | cons d ds ih =>
    rw [enc_cons, List.mem_append] at hc
    rcases hc with hc | hc
    · have hd := h3 d (List.mem_cons_self ..)
      have hlt : d.toNat < 128 := by have := hp _ hd; omega
      rw [enc_ascii hlt, List.mem_singleton] at hc
      subst hc
      rw [UInt8.toNat_ofNat', Nat.mod_eq_of_lt (by omega)]
      exact hd
    · exact ih (fun x hx => h3 x (List.mem_cons_of_mem _ hx)) hc

/-- So all bytes read while a class of ASCII characters lasts are of that class. -/
theorem scanWhile_bytes (h : Inv src cs bad l) {p : Int → Bool} (h1 : p (-1) = false) (h0 : p 0 = false) (h32 : p 32 = false)
    (hp : ∀ x, p x = true → x < 128) {lit} (hs : scanWhile p l = .ok (lit, l')) :
    ∀ c ∈ lit, p (c.toNat : Int) = true := by
  obtain ⟨hd, b, pre, rest, hb, he, rfl, _⟩ := h
  have hdb : Dec b.src cs bad := by rw [hb]; exact hd
  unfold scanWhile at hs
  obtain ⟨l1, hw, hs⟩ := Out.bind_eq_ok.mp hs
  obtain ⟨lit', hsl, hs⟩ := Out.bind_eq_ok.mp hs
  have hs' := Out.ok_inj hs
  cases hs'
  clear hs
  obtain ⟨ds, rest', h2, h3, rfl, h5⟩ := while_reads hdb h1 h0 h32 he hw
  have hlit : lit = enc ds := by
    unfold slice at hsl
    split at hsl
    · cases hsl
      cases ds with
      | nil =>
        rw [List.nil_append] at h2
        subst h2
        simp [enc_nil]
      | cons d ds =>
        rcases h5 with h5 | h5
        · cases h5
        · obtain ⟨r, rest', rfl⟩ := List.exists_cons_of_ne_nil h5
          subst h2
          rw [at_offset_cons, List.cons_append, at_offset_cons, at_src, hdb.eq, he]
          simp only [Int.toNat_natCast]
          rw [drop_enc, List.cons_append, blen_append, Nat.add_sub_cancel_left, ← List.cons_append, enc_append, blen,
            List.append_assoc, List.take_left]
    · cases hsl
  rw [hlit]
  exact enc_bytes hp h3

theorem isLetter_body {x : Int} (h : isLetter x = true) : isIdentBody x = true := by
  unfold isLetter at h
  unfold isIdentBody isIdentStart
  simp only [Bool.or_eq_true, Bool.and_eq_true, decide_eq_true_eq] at h ⊢
  omega

variable [Unicode]

theorem decWhile_tok {n : Nat} {s s' : Lexer × Tok}
    (h : whileOut
      (fun s : Lexer × Tok =>
        uniIsDigit s.1.chr || (s.1.chr = 46 && uniIsDigit (s.1.peek.toNat : Int)))
      (fun s : Lexer × Tok =>
        let l := s.1.next
        (l, if l.chr = 46 && l.peek ≠ 46 then Tok.FLOAT else s.2)) n s = .ok s') (hs : s.2 ≠ .IDENT) : s'.2 ≠ .IDENT := by
  induction n generalizing s with
  | zero => cases h
  | succ n ih =>
    rw [whileOut] at h
    split at h
    · refine ih h ?_
      simp only []; split
      · simp
      · exact hs
    · cases h; exact hs

theorem scanDecimal_tok {pre : Nat} {l l' : Lexer} {tok lit} (h : scanDecimal pre l = .ok (tok, lit, l')) : tok ≠ .IDENT := by
  unfold scanDecimal at h
  obtain ⟨⟨l1, t1⟩, h1, h⟩ := Out.bind_eq_ok.mp h
  obtain ⟨lit', h2, h⟩ := Out.bind_eq_ok.mp h
  cases h
  exact decWhile_tok h1 (by simp)

theorem scanNumber_tok {l l' : Lexer} {tok lit} (h : scanNumber l = .ok (tok, lit, l')) : tok ≠ .IDENT := by
  have key : ∀ {pre p l}, scanRadix pre p l = .ok (tok, lit, l') → tok ≠ .IDENT := by
    intro pre p l h
    unfold scanRadix at h
    obtain ⟨⟨ds, l1⟩, h1, h⟩ := Out.bind_eq_ok.mp h
    cases h
    simp
  unfold scanNumber at h
  split at h
  · simp only [] at h
    split at h
    · exact key h
    split at h
    · exact key h
    split at h
    · exact key h
    · exact scanDecimal_tok h
  · exact scanDecimal_tok h

theorem scanTok_ident (h : Inv src cs bad l) (hl : l.chr ≠ 10) {lit} (hs : scanTok l = .ok (.IDENT, lit, l')) :
    ∀ c ∈ lit, isIdentBody (c.toNat : Int) = true := by
  unfold scanTok at hs
  split at hs
  · obtain ⟨⟨c, l1⟩, h1, hs⟩ := Out.bind_eq_ok.mp hs
    simp only [Out.ok.injEq, Prod.mk.injEq] at hs
    obtain ⟨_, rfl, rfl⟩ := hs
    refine scanWhile_bytes h rfl rfl rfl (fun x hx => ?_) h1
    unfold isIdentBody isIdentStart isDigit at hx
    simp only [Bool.or_eq_true, Bool.and_eq_true, decide_eq_true_eq] at hx
    omega
  split at hs
  · exact absurd rfl (scanNumber_tok hs)
  · have hi := inv_next h hl
    unfold scanOther at hs
    simp only [] at hs
    repeat
      rcases ite_or hs with ⟨hh, hs⟩ | ⟨hh, hs⟩
      · first
        | (cases hs; done)
        | (obtain ⟨⟨c, l1⟩, h1, hs⟩ := Out.bind_eq_ok.mp hs; cases hs; done)
        | (repeat
            rcases ite_or hs with ⟨hk, hs⟩ | ⟨hk, hs⟩
            · first
              | (cases hs; done)
              | (obtain ⟨⟨c, l1⟩, h1, hs⟩ := Out.bind_eq_ok.mp hs
                 simp only [Out.ok.injEq, Prod.mk.injEq] at hs
                 obtain ⟨_, rfl, rfl⟩ := hs
                 have hb := scanWhile_bytes hi rfl rfl rfl (fun x hx => (by
                   unfold isLetter at hx
                   simp only [Bool.or_eq_true, Bool.and_eq_true, decide_eq_true_eq] at hx
                   omega)) h1
                 intro c hc
                 rcases List.mem_append.1 hc with hc | hc
                 · rw [hh] at hc
                   rw [show encodeRune 46 = [46] from rfl, List.mem_singleton] at hc
                   subst hc
                   rfl
                 · exact isLetter_body (hb c hc))
           cases hs; done)
    cases hs

/-- **Identifiers**: on every source, all bytes of the spelling of an identifier are letters, digits, or
among `@`, `_`, `$`, `-` and `.`. -/
theorem ident_bytes {src : Bytes} {ts l} (hs : Scans (new src) ts l) : ∀ t ∈ ts, t.tok = .IDENT →
    ∀ c ∈ t.lit, isIdentBody (c.toNat : Int) = true := by
  obtain ⟨cs, bad, hd, _, _⟩ := init_dec src
  have hi := inv_new hd
  generalize new src = l0 at hs hi
  induction hs with
  | nil => nofun
  | cons h1 _ ih =>
    obtain ⟨l1, h2, h3, h4, h5, _⟩ := inv_scan hi h1
    intro t ht hk
    rcases List.mem_cons.1 ht with rfl | ht
    · simp only at hk
      subst hk
      exact scanTok_ident h2 (fun he => by rw [he] at h3; cases h3) h4
    · exact ih h5 t ht hk

end Cddlc.Lexer
