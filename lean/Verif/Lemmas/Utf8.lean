import Verif.Model.Utf8
import Verif.Spec.Source

/-! The model of `utf8.DecodeRune` inverts core's UTF-8 encoding, and only that. -/

namespace Cddlc

theorem enc_nil : enc [] = [] := rfl
theorem enc_cons (c : Char) (cs : List Char) : enc (c :: cs) = String.utf8EncodeChar c ++ enc cs := by
  simp [enc]
theorem enc_append (a b : List Char) : enc (a ++ b) = enc a ++ enc b := by simp [enc]

theorem char_range (c : Char) : c.toNat < 0xD800 ∨ (0xDFFF < c.toNat ∧ c.toNat < 0x110000) := c.valid

theorem encChar_length_pos (c : Char) : 0 < (String.utf8EncodeChar c).length := by
  simpa using Char.utf8Size_pos c

theorem length_le_enc (cs : List Char) : cs.length ≤ (enc cs).length := by
  induction cs with
  | nil => simp
  | cons c cs ih =>
    have := encChar_length_pos c
    simp only [enc_cons, List.length_cons, List.length_append]; omega

theorem decodeRune_encChar (c : Char) (rest : Bytes) :
    decodeRune (String.utf8EncodeChar c ++ rest) = (c.toNat, (String.utf8EncodeChar c).length) := by
  have hr := char_range c
  have hv : c.val.toNat = c.toNat := rfl
  unfold String.utf8EncodeChar
  simp only [hv]
  generalize c.toNat = v at hr
  by_cases h1 : v ≤ 0x7f
  · simp only [h1, if_true, List.cons_append, List.nil_append, decodeRune, UInt8.toNat_ofNat']
    have : v % 2 ^ 8 = v := by omega
    simp only [this]
    rw [if_pos (by omega)]; simp
  · by_cases h2 : v ≤ 0x7ff
    · simp only [h1, h2, if_true, if_false, List.cons_append, List.nil_append, decodeRune,
        UInt8.toNat_ofNat', isCont]
      have a1 : (v / 64 % 32 + 192) % 2 ^ 8 = v / 64 + 192 := by omega
      have a2 : (v % 64 + 128) % 2 ^ 8 = v % 64 + 128 := by omega
      simp only [a1, a2]
      rw [if_neg (by omega), if_neg (by omega), if_pos (by omega), if_pos (by simp; omega)]
      ext <;> simp; omega
    · by_cases h3 : v ≤ 0xffff
      · simp only [h1, h2, h3, if_true, if_false, List.cons_append, List.nil_append, decodeRune,
          UInt8.toNat_ofNat', isCont]
        have a1 : (v / 4096 % 16 + 224) % 2 ^ 8 = v / 4096 + 224 := by omega
        have a2 : (v / 64 % 64 + 128) % 2 ^ 8 = v / 64 % 64 + 128 := by omega
        have a3 : (v % 64 + 128) % 2 ^ 8 = v % 64 + 128 := by omega
        simp only [a1, a2, a3]
        rw [if_neg (by omega), if_neg (by omega), if_neg (by omega), if_pos (by omega), if_pos]
        · ext <;> simp; omega
        · simp only [Bool.and_eq_true, decide_eq_true_eq]
          refine ⟨⟨?_, ?_⟩, ?_, ?_⟩ <;> (try split) <;> omega
      · simp only [h1, h2, h3, if_false, List.cons_append, List.nil_append, decodeRune,
          UInt8.toNat_ofNat', isCont]
        have a1 : (v / 262144 % 8 + 240) % 2 ^ 8 = v / 262144 + 240 := by omega
        have a2 : (v / 4096 % 64 + 128) % 2 ^ 8 = v / 4096 % 64 + 128 := by omega
        have a3 : (v / 64 % 64 + 128) % 2 ^ 8 = v / 64 % 64 + 128 := by omega
        have a4 : (v % 64 + 128) % 2 ^ 8 = v % 64 + 128 := by omega
        simp only [a1, a2, a3, a4]
        rw [if_neg (by omega), if_neg (by omega), if_neg (by omega), if_neg (by omega),
          if_pos (by omega), if_pos]
        · ext <;> simp; omega
        · simp only [Bool.and_eq_true, decide_eq_true_eq]
          refine ⟨⟨⟨?_, ?_⟩, ?_, ?_⟩, ?_, ?_⟩ <;> (try split) <;> omega

/-- A scalar value as a character. -/
theorem exists_char {v : Nat} (h : v < 0xD800 ∨ (0xDFFF < v ∧ v < 0x110000)) :
    ∃ c : Char, c.toNat = v := by
  refine ⟨Char.ofNatAux v h, ?_⟩
  simp only [Char.toNat, Char.ofNatAux]
  rfl

theorem ofNat_toNat_eq {b : UInt8} {n : Nat} (h : n = b.toNat) : UInt8.ofNat n = b := by
  subst h; simp

/-- Unless decoding reports an invalid byte, the bytes start with the encoding of a character. -/
theorem decodeRune_char {bs : Bytes} (h0 : bs ≠ []) (h : decodeRune bs ≠ (runeError, 1)) :
    ∃ (c : Char) (rest : Bytes), bs = String.utf8EncodeChar c ++ rest := by
  unfold decodeRune at h
  split at h
  · exact (h0 rfl).elim
  · rename_i a rest
    have ha : a.toNat < 256 := a.toNat_lt
    simp only at h
    split at h
    · obtain ⟨c, hc⟩ := exists_char (v := a.toNat) (by omega)
      refine ⟨c, rest, ?_⟩
      have : c.val.toNat = a.toNat := hc
      simp only [String.utf8EncodeChar, this]
      rw [if_pos (by omega)]; simp
    split at h
    · simp at h
    split at h
    · split at h
      · rename_i b tl
        split at h
        · rename_i hb
          simp only [isCont, Bool.and_eq_true, decide_eq_true_eq] at hb
          obtain ⟨c, hc⟩ := exists_char (v := (a.toNat - 0xC0) * 64 + (b.toNat - 0x80)) (by omega)
          refine ⟨c, tl, ?_⟩
          · have : c.val.toNat = _ := hc
            simp only [String.utf8EncodeChar, this]
            rw [if_neg (by omega), if_pos (by omega), ofNat_toNat_eq (b := a) (by omega),
              ofNat_toNat_eq (b := b) (by omega)]
            rfl
        · simp at h
      · simp at h
    split at h
    · split at h
      · rename_i b c0 tl
        generalize hlo : (if a.toNat = 0xE0 then 0xA0 else 0x80) = lo at h
        generalize hhi : (if a.toNat = 0xED then 0x9F else 0xBF) = hi at h
        split at h
        · rename_i hb
          simp only [isCont, Bool.and_eq_true, decide_eq_true_eq] at hb
          obtain ⟨⟨hb1, hb2⟩, hb3, hb4⟩ := hb
          have e1 : 0x80 ≤ b.toNat ∧ (a.toNat = 0xE0 → 0xA0 ≤ b.toNat) := by
            split at hlo <;> omega
          have e2 : b.toNat ≤ 0xBF ∧ (a.toNat = 0xED → b.toNat ≤ 0x9F) := by
            split at hhi <;> omega
          clear hb1 hb2 hlo hhi
          obtain ⟨c, hc⟩ := exists_char
            (v := (a.toNat - 0xE0) * 4096 + (b.toNat - 0x80) * 64 + (c0.toNat - 0x80)) (by omega)
          refine ⟨c, tl, ?_⟩
          · have : c.val.toNat = _ := hc
            simp only [String.utf8EncodeChar, this]
            rw [if_neg (by omega), if_neg (by omega), if_pos (by omega),
              ofNat_toNat_eq (b := a) (by omega), ofNat_toNat_eq (b := b) (by omega),
              ofNat_toNat_eq (b := c0) (by omega)]
            rfl
        · simp at h
      · simp at h
    split at h
    · split at h
      · rename_i b c0 d0 tl
        generalize hlo : (if a.toNat = 0xF0 then 0x90 else 0x80) = lo at h
        generalize hhi : (if a.toNat = 0xF4 then 0x8F else 0xBF) = hi at h
        split at h
        · rename_i hb
          simp only [isCont, Bool.and_eq_true, decide_eq_true_eq] at hb
          obtain ⟨⟨⟨hb1, hb2⟩, hb3, hb4⟩, hb5, hb6⟩ := hb
          have e1 : 0x80 ≤ b.toNat ∧ (a.toNat = 0xF0 → 0x90 ≤ b.toNat) := by
            split at hlo <;> omega
          have e2 : b.toNat ≤ 0xBF ∧ (a.toNat = 0xF4 → b.toNat ≤ 0x8F) := by
            split at hhi <;> omega
          clear hb1 hb2 hlo hhi
          obtain ⟨c, hc⟩ := exists_char
            (v := (a.toNat - 0xF0) * 262144 + (b.toNat - 0x80) * 4096 + (c0.toNat - 0x80) * 64
              + (d0.toNat - 0x80)) (by omega)
          refine ⟨c, tl, ?_⟩
          · have : c.val.toNat = _ := hc
            simp only [String.utf8EncodeChar, this]
            rw [if_neg (by omega), if_neg (by omega), if_neg (by omega),
              ofNat_toNat_eq (b := a) (by omega), ofNat_toNat_eq (b := b) (by omega),
              ofNat_toNat_eq (b := c0) (by omega), ofNat_toNat_eq (b := d0) (by omega)]
            rfl
        · simp at h
      · simp at h
    · simp at h

/-- If decoding does not give U+FFFD, the bytes start with the encoding of that character. -/
theorem decodeRune_ne_error {bs : Bytes} (h : (decodeRune bs).1 ≠ runeError) :
    ∃ (c : Char) (rest : Bytes), bs = String.utf8EncodeChar c ++ rest ∧ c ≠ '�' := by
  obtain ⟨c, rest, rfl⟩ := decodeRune_char (bs := bs) (by rintro rfl; exact h rfl) (by intro e; rw [e] at h; exact h rfl)
  refine ⟨c, rest, rfl, ?_⟩
  rintro rfl
  rw [decodeRune_encChar] at h
  exact h rfl

end Cddlc
