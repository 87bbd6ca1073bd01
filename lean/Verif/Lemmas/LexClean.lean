import Verif.Lemmas.Cursor
import Verif.Spec.Lex

/-! On a clean source the lexer computes `Spec.lexeme`. -/

namespace Cddlc

/-- The state of `NewLexer` before its call of `next`. -/
def Lexer.init (src : Bytes) : Lexer :=
  { src := src ++ [32], chr := 0, offset := 0, rdOffset := 0, errCount := 0, errors := [],
    lineLast := -1, linePrev := [] }

theorem enc_space : enc [' '] = [32] := by rfl

theorem enc_last_ne_space {c : Char} {x : Bytes} (h : String.utf8EncodeChar c = x ++ [32]) : c = ' ' := by
  have hv : c.val.toNat = c.toNat := rfl
  have hr := char_range c
  have key : ∀ {n : Nat}, (UInt8.ofNat n) = 32 → n % 256 = 32 := by
    intro n hn
    have := congrArg UInt8.toNat hn
    simpa using this
  have hlast : (String.utf8EncodeChar c).getLast? = some 32 := by rw [h]; simp
  simp only [String.utf8EncodeChar, hv] at hlast
  apply char_toNat_inj
  show c.toNat = 32
  split at hlast
  · simp only [List.getLast?_singleton, Option.some.injEq] at hlast
    have := key hlast; omega
  split at hlast
  · simp only [List.getLast?_cons_cons, List.getLast?_singleton, Option.some.injEq] at hlast
    have := key hlast; omega
  split at hlast
  · simp only [List.getLast?_cons_cons, List.getLast?_singleton, Option.some.injEq] at hlast
    have := key hlast; omega
  · simp only [List.getLast?_cons_cons, List.getLast?_singleton, Option.some.injEq] at hlast
    have := key hlast; omega

theorem decodeRune_append_space {bad : Bytes} (hb : bad ≠ []) (h : (decodeRune bad).1 = runeError) :
    (decodeRune (bad ++ [32])).1 = runeError := by
  by_cases hc : (decodeRune (bad ++ [32])).1 = runeError
  · exact hc
  · exfalso
    obtain ⟨c, rest, e, hc⟩ := decodeRune_ne_error hc
    rcases List.eq_nil_or_concat rest with rfl | ⟨r', x, rfl⟩
    · rw [List.append_nil] at e
      have := enc_last_ne_space e.symm
      subst this
      have h2 : String.utf8EncodeChar ' ' = [32] := rfl
      rw [h2] at e
      have := congrArg List.length e
      simp at this; exact hb this
    · rw [List.concat_eq_append, ← List.append_assoc] at e
      have e1 := List.append_inj_left' e (by simp)
      rw [e1, decodeRune_encChar] at h
      exact hc (char_toNat_inj h)

/-- The source handed to the lexer, decoded. -/
theorem init_dec (src : Bytes) : ∃ cs bad, Dec (Lexer.init src).src cs bad ∧
    (∀ cs0, '�' ∉ cs0 → src = enc cs0 → cs = cs0 ++ [' '] ∧ bad = []) ∧
    (¬ Clean src → bad ≠ []) := by
  obtain ⟨cs0, bad0, e, g, s⟩ := exists_dec src
  by_cases hb : bad0 = []
  · subst hb
    refine ⟨cs0 ++ [' '], [], ⟨?_, ?_, by simp, fun _ => ⟨cs0, rfl⟩⟩, ?_, ?_⟩
    · simp [Lexer.init, e, enc_append, enc_space]
    · simp [g]
    · intro cs1 g1 e1
      have := enc_append_inj (cs := cs0) (cs' := cs1) (bad := []) (bad' := [])
        (by rw [← e, e1]; simp) g g1 s s
      simp [this.1]
    · intro hc; exact absurd ⟨cs0, g, by simpa using e⟩ hc
  · refine ⟨cs0, bad0 ++ [32], ⟨?_, g, ?_, by simp⟩, ?_, by simp⟩
    · simp [Lexer.init, e]
    · intro _; exact decodeRune_append_space hb (s hb)
    · intro cs1 g1 e1
      have := enc_append_inj (cs := cs0) (cs' := cs1) (bad := bad0) (bad' := [])
        (by rw [← e, e1]; simp) g g1 s (by simp)
      exact absurd this.2 hb

namespace Lexer

theorem new_at {src : Bytes} {cs bad} (h : Dec (init src).src cs bad) :
    new src = at_ (init src) bad [] cs := by
  have hne : (init src).src ≠ [] := by simp [init]
  have h0 : 0 < (init src).src.length := List.length_pos_iff.mpr hne
  show next (init src) = _
  unfold next
  rw [if_neg (by simp [init])]
  cases cs with
  | nil =>
    have e : (init src).src = bad := by rw [h.eq]; simp [enc]
    have hb : bad ≠ [] := by rw [← e]; exact hne
    show (if (decodeRune ((init src).src.drop 0)).1 = runeError then _ else _) = _
    rw [List.drop_zero, e, if_pos (h.stuck hb)]
    simp only [at_, hb, if_false]
    rfl
  | cons c r =>
    have e : (init src).src = String.utf8EncodeChar c ++ (enc r ++ bad) := by
      rw [h.eq, enc_cons, List.append_assoc]
    have hc : c.toNat ≠ runeError := by
      intro hh
      have : c = '�' := char_toNat_inj hh
      exact h.good (by simp [this])
    show (if (decodeRune ((init src).src.drop 0)).1 = runeError then _ else _) = _
    have hd : decodeRune ((init src).src.drop 0) = (c.toNat, (String.utf8EncodeChar c).length) := by
      rw [List.drop_zero, e, decodeRune_encChar]
    rw [hd, if_neg hc]
    show ({ init src with chr := _, offset := _, rdOffset := _ } : Lexer) = _
    rw [show (decodeRune ((init src).src.drop (init src).rdOffset)) = _ from hd]
    simp [at_, blen_nil, blen_single, init]

variable {b : Lexer} {cs pre rest : List Char}

theorem next_clean (h : Dec b.src cs []) {c : Char} (e : cs = pre ++ c :: rest) :
    (at_ b [] pre (c :: rest)).next = at_ b [] (pre ++ [c]) rest := by
  cases rest with
  | nil => exact next_at_last h e
  | cons c' r => exact next_at_cons2 h e

theorem next_eof (h : Dec b.src cs []) : (at_ b [] cs []).next = at_ b [] cs [] :=
  next_at_nil h rfl (by simp)

/-- A loop reading characters, with extra state `σ` updated at each step. -/
theorem while_clean (h : Dec b.src cs []) (p : Int → Bool) (hp : p (-1) = false)
    (e : cs = pre ++ rest) (n : Nat) (hn : rest.length + 1 ≤ n) :
    whileOut (fun l => p l.chr) next n (at_ b [] pre rest) =
      .ok (at_ b [] (pre ++ rest.takeWhile (fun c => p c.toNat))
        (rest.dropWhile (fun c => p c.toNat))) := by
  induction rest generalizing pre n with
  | nil =>
    obtain ⟨m, rfl⟩ : ∃ m, n = m + 1 := ⟨n - 1, by simp at hn; omega⟩
    simp [whileOut, hp]
  | cons c r ih =>
    obtain ⟨m, rfl⟩ : ∃ m, n = m + 1 := ⟨n - 1, by simp at hn; omega⟩
    by_cases hc : p c.toNat
    · rw [whileOut, if_pos (show p (at_ b [] pre (c :: r)).chr = true from hc), next_clean h e, ih (by simp [e]) m (by simp at hn; omega)]
      simp [hc]
    · rw [whileOut, if_neg (show ¬ p (at_ b [] pre (c :: r)).chr = true from hc)]
      simp [hc]

theorem fuel_clean (h : Dec b.src cs []) (e : cs = pre ++ rest) :
    rest.length + 1 ≤ (at_ b [] pre rest).fuel := by
  have hl : b.src.length = blen pre + blen rest := by
    rw [h.eq, e]; simp [blen, enc_append]
  unfold fuel
  cases rest with
  | nil => simp
  | cons c r =>
    have := length_le_blen r
    rw [blen_cons] at hl
    simp only [hl, List.length_cons, at_]
    omega

theorem slice_enc {s : Bytes} {a w z : List Char} (e : s = enc (a ++ w ++ z)) (lo hi : Int)
    (hlo : lo = blen a) (hhi : hi = blen (a ++ w)) : slice s lo hi = .ok (enc w) := by
  unfold slice
  rw [if_pos]
  · subst e
    have : (enc (a ++ w ++ z)).drop lo.toNat = enc (w ++ z) := by
      rw [hlo, List.append_assoc]
      simpa using drop_enc a (w ++ z) []
    rw [this, hlo, hhi, blen_append, enc_append, List.take_left']
    simp only [blen]; omega
  · subst e
    rw [hlo, hhi]
    refine ⟨by omega, by rw [blen_append]; omega, ?_⟩
    rw [show (enc (a ++ w ++ z)).length = blen (a ++ w ++ z) from rfl, blen_append (a ++ w)]
    omega

end Lexer
end Cddlc
