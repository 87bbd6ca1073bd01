import Verif.Lemmas.LexChars

/-! `scanTok` on a clean source computes `Spec.lexeme`. -/

namespace Cddlc.Lexer
open Spec
variable {b : Lexer} {cs pre r : List Char}

theorem src_of_dec (h : Dec b.src cs []) : b.src = enc cs := by simpa using h.eq

theorem split_pad (q : Char → Bool) (pre r : List Char) :
    pre ++ (r ++ [' ']) = pre ++ r.takeWhile q ++ (r.dropWhile q ++ [' ']) := by
  conv => lhs; rw [← List.takeWhile_append_dropWhile (p := q) (l := r)]
  simp only [List.append_assoc]

/-- Reading while `p`, a class not containing the padding. -/
theorem scanWhile_in (h : Dec b.src cs []) (p : Int → Bool) (q : Char → Bool)
    (hq : ∀ c : Char, p c.toNat = q c) (hp : p (-1) = false) (hs : q ' ' = false)
    (e : cs = pre ++ (r ++ [' '])) :
    scanWhile p (at_ b [] pre (r ++ [' '])) =
      .ok (enc (r.takeWhile q), at_ b [] (pre ++ r.takeWhile q) (r.dropWhile q ++ [' '])) := by
  have hpq : (fun c : Char => p c.toNat) = q := funext hq
  unfold scanWhile
  rw [while_clean h p hp e _ (fuel_clean h e), hpq, takeWhile_pad hs, dropWhile_pad hs]
  simp only [Out.bind_ok]
  rw [slice_enc (a := pre) (w := r.takeWhile q) (z := r.dropWhile q ++ [' '])]
  · rfl
  · rw [at_src, src_of_dec h, e]
    rw [split_pad q]
  · cases r <;> rfl
  · cases r.dropWhile q <;> rfl

/-- Reading while `p`, a class containing the padding but not EOF. -/
theorem scanWhile_out (h : Dec b.src cs []) (p : Int → Bool) (q : Char → Bool)
    (hq : ∀ c : Char, p c.toNat = q c) (hp : p (-1) = false) (hs : q ' ' = true)
    (e : cs = pre ++ (r ++ [' '])) :
    ∃ pre' rest', scanWhile p (at_ b [] pre (r ++ [' '])) =
      .ok (enc (r.takeWhile q), at_ b [] pre' rest') ∧ cs = pre' ++ rest' ∧
      Tail (r.dropWhile q) rest' := by
  have hpq : (fun c : Char => p c.toNat) = q := funext hq
  unfold scanWhile
  rw [while_clean h p hp e _ (fuel_clean h e), hpq]
  simp only [Out.bind_ok]
  rcases pad_cases hs r with ⟨h1, h2, h3, h4⟩ | ⟨h1, h2, h3⟩
  · rw [h3, h4, h2]
    refine ⟨pre ++ (r ++ [' ']), [], ?_, by simp [e], by simp [Tail, h1]⟩
    rw [slice_enc (a := pre) (w := r) (z := [' '])]
    · rfl
    · rw [at_src, src_of_dec h, e, List.append_assoc]
    · cases r <;> rfl
    · rw [at_offset_nil, ← List.append_assoc, blen_append (pre ++ r)]
      have : blen [' '] = 1 := rfl
      omega
  · rw [h2, h3]
    refine ⟨pre ++ r.takeWhile q, r.dropWhile q ++ [' '], ?_, ?_, by simp [Tail]⟩
    · rw [slice_enc (a := pre) (w := r.takeWhile q) (z := r.dropWhile q ++ [' '])]
      · rfl
      · rw [at_src, src_of_dec h, e]
        rw [split_pad q]
      · cases r <;> rfl
      · cases r.dropWhile q <;> rfl
    · rw [e, split_pad q]

/-- The byte after the current character. -/
theorem peek_at {c c' : Char} {t : List Char} (h : Dec b.src cs []) (e : cs = pre ++ c :: c' :: t) :
    (at_ b [] pre (c :: c' :: t)).peek = (String.utf8EncodeChar c').headD 0 := by
  unfold peek
  have hd : b.src.drop (blen (pre ++ [c])) = String.utf8EncodeChar c' ++ enc t := by
    have : b.src = enc ((pre ++ [c]) ++ c' :: t) ++ [] := by rw [src_of_dec h, e]; simp
    rw [this, drop_enc, enc_cons]; simp
  have : (at_ b [] pre (c :: c' :: t)).rdOffset = blen (pre ++ [c]) := by
    rw [blen_append]; rfl
  rw [this, at_src, ← List.head?_drop, hd]
  have := encChar_length_pos c'
  cases hx : String.utf8EncodeChar c' with
  | nil => simp [hx] at this
  | cons a as => simp

theorem headD_enc (c : Char) (k : Nat) (hk : k < 128) :
    (String.utf8EncodeChar c).headD 0 = UInt8.ofNat k ↔ c.toNat = k := by
  have hv : c.val.toNat = c.toNat := rfl
  have hr := char_range c
  have key : ∀ {n : Nat}, (UInt8.ofNat n) = UInt8.ofNat k ↔ n % 256 = k := by
    intro n
    rw [← UInt8.toNat_inj]; simp; omega
  simp only [String.utf8EncodeChar, hv]
  split
  · rw [List.headD_cons, key]; omega
  split
  · rw [List.headD_cons, key]; omega
  split
  · rw [List.headD_cons, key]; omega
  · rw [List.headD_cons, key]; omega

theorem headD_toNat (c : Char) :
    ((String.utf8EncodeChar c).headD 0).toNat = c.toNat ∨
    (128 ≤ c.toNat ∧ 128 ≤ ((String.utf8EncodeChar c).headD 0).toNat) := by
  have hv : c.val.toNat = c.toNat := rfl
  have hr := char_range c
  simp only [String.utf8EncodeChar, hv]
  split
  · left; simp; omega
  split
  · right; simp only [List.headD_cons, UInt8.toNat_ofNat']; omega
  split
  · right; simp only [List.headD_cons, UInt8.toNat_ofNat']; omega
  · right; simp only [List.headD_cons, UInt8.toNat_ofNat']; omega

end Cddlc.Lexer
