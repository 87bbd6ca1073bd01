import Verif.Lemmas.LexChars
import Verif.Lemmas.Cursor
import Verif.Spec.Schema

/-! Number texts have the value the conversion functions give them. -/

namespace Cddlc
open Spec

theorem byte_toNat {c : Char} (h : c.toNat < 128) : (UInt8.ofNat c.toNat).toNat = c.toNat := by
  simp; omega

theorem hexDigit_cases {c : Char} (h : hexDigit c = true) :
    (48 ≤ c.toNat ∧ c.toNat ≤ 57) ∨ (97 ≤ c.toNat ∧ c.toNat ≤ 102) ∨ (65 ≤ c.toNat ∧ c.toNat ≤ 70) := by
  simp only [hexDigit, digit, Bool.or_eq_true, Bool.and_eq_true, decide_eq_true_eq, char_le_iff] at h
  have e1 : '0'.toNat = 48 := rfl
  have e2 : '9'.toNat = 57 := rfl
  have e3 : 'a'.toNat = 97 := rfl
  have e4 : 'f'.toNat = 102 := rfl
  have e5 : 'A'.toNat = 65 := rfl
  have e6 : 'F'.toNat = 70 := rfl
  omega

/-- The byte of a digit, its value, and that it is not an underscore. -/
theorem digit_byte {c : Char} (h : hexDigit c = true) :
    String.utf8EncodeChar c = [UInt8.ofNat c.toNat] ∧ UInt8.ofNat c.toNat ≠ 95 ∧
    digitVal (UInt8.ofNat c.toNat) = some (digitNum c) ∧ digitNum c < 16 := by
  have hc := hexDigit_cases h
  have hlt : c.toNat < 128 := by omega
  refine ⟨enc_ascii hlt, ?_⟩
  have hn : ∀ k : Fin 128, ((48 ≤ k.val ∧ k.val ≤ 57) ∨ (97 ≤ k.val ∧ k.val ≤ 102) ∨ (65 ≤ k.val ∧ k.val ≤ 70)) →
      UInt8.ofNat k.val ≠ 95 ∧ digitVal (UInt8.ofNat k.val) =
        some (if k.val ≤ 57 then k.val - 48 else if k.val ≤ 90 then k.val - 55 else k.val - 87) ∧
      (if k.val ≤ 57 then k.val - 48 else if k.val ≤ 90 then k.val - 55 else k.val - 87) < 16 := by
    decide +kernel
  have e : digitNum c = if c.toNat ≤ 57 then c.toNat - 48 else if c.toNat ≤ 90 then c.toNat - 55 else c.toNat - 87 := by
    unfold digitNum
    have e2 : '9'.toNat = 57 := rfl
    have e3 : 'Z'.toNat = 90 := rfl
    simp only [char_le_iff, e2, e3]
  have := hn ⟨c.toNat, hlt⟩ hc
  exact ⟨this.1, by rw [e]; exact this.2.1, by rw [e]; exact this.2.2⟩

/-- The digits that count in a base. -/
def baseDigit (base : Nat) (c : Char) : Prop := hexDigit c = true ∧ digitNum c < base

theorem foldl_mono {base : Nat} (hb : 1 ≤ base) (ds : List Char) (n : Nat) :
    n ≤ ds.foldl (fun n c => n * base + digitNum c) n := by
  induction ds generalizing n with
  | nil => exact Nat.le_refl _
  | cons c ds ih =>
    refine Nat.le_trans ?_ (ih _)
    have := Nat.mul_le_mul_left n hb
    show n ≤ n * base + digitNum c
    omega

theorem parseUintLoop_digits {base : Nat} (hb : 1 ≤ base) (ds : List Char)
    (h : ∀ c ∈ ds, baseDigit base c) (n : Nat) (us : Bool) (hn : n < 2 ^ 64) :
    parseUintLoop base n us (enc ds) =
      if 2 ^ 64 ≤ ds.foldl (fun n c => n * base + digitNum c) n then .error .range
      else .ok (ds.foldl (fun n c => n * base + digitNum c) n, us) := by
  induction ds generalizing n with
  | nil =>
    rw [enc_nil, parseUintLoop, List.foldl_nil, if_neg (by omega)]
  | cons c ds ih =>
    obtain ⟨h1, h2⟩ := h c (by simp)
    obtain ⟨b1, b2, b3, _⟩ := digit_byte h1
    rw [enc_cons, b1, List.singleton_append, parseUintLoop, if_neg b2, b3]
    dsimp only
    rw [if_neg (by omega), List.foldl_cons]
    have hmono := foldl_mono hb ds (n * base + digitNum c)
    by_cases hov : 2 ^ 64 ≤ n * base + digitNum c
    · rw [if_pos hov, if_pos (by omega)]
    · rw [if_neg hov, ih (fun c hc => h c (by simp [hc])) _ (by omega)]

theorem digit_base {c : Char} (h : digit c = true) : baseDigit 10 c := by
  have hx : hexDigit c = true := by simp [hexDigit, h]
  refine ⟨hx, ?_⟩
  simp only [digit, Bool.and_eq_true, decide_eq_true_eq] at h
  unfold digitNum
  rw [if_pos h.2]
  have := (char_le_iff _ _).mp h.2
  have e2 : '9'.toNat = 57 := rfl
  omega

theorem oct_base {c : Char} (h : octDigit c = true) : baseDigit 8 c := by
  simp only [octDigit, Bool.and_eq_true, decide_eq_true_eq, char_le_iff] at h
  have e1 : '0'.toNat = 48 := rfl
  have e2 : '9'.toNat = 57 := rfl
  have e3 : '7'.toNat = 55 := rfl
  have h9 : c ≤ '9' := by rw [char_le_iff]; omega
  refine ⟨by simp only [hexDigit, digit, Bool.or_eq_true, Bool.and_eq_true, decide_eq_true_eq, char_le_iff]; omega, ?_⟩
  unfold digitNum
  rw [if_pos h9]
  omega

theorem bin_base {c : Char} (h : binDigit c = true) : baseDigit 2 c := by
  simp only [binDigit, Bool.or_eq_true, decide_eq_true_eq] at h
  rcases h with rfl | rfl <;> exact ⟨by decide, by decide⟩

theorem hex_base {c : Char} (h : hexDigit c = true) : baseDigit 16 c := ⟨h, (digit_byte h).2.2.2⟩

/-- Base and digits, from the prefix of a number text. -/
def radixOf (s : Bytes) : Nat × Bytes :=
  match s with
  | 48 :: c :: d :: rest =>
    if lowerByte c = 98 then (2, d :: rest)
    else if lowerByte c = 111 then (8, d :: rest)
    else if lowerByte c = 120 then (16, d :: rest)
    else (8, c :: d :: rest)
  | 48 :: rest => (8, rest)
  | _ => (10, s)

/-- `ParseUint` without underscores. -/
theorem parseUint_plain {s : Bytes} {base} {ds : List Char} (hb1 : 1 ≤ base) (hne : s ≠ [])
    (hb : radixOf s = (base, enc ds)) (hds : ∀ c ∈ ds, baseDigit base c) :
    parseUint s = if 2 ^ 64 ≤ ofDigits base ds then .error .range else .ok (ofDigits base ds) := by
  have h : parseUint s = match parseUintLoop (radixOf s).1 0 false (radixOf s).2 with
      | .error e => .error e
      | .ok (n, us) => if us && !underscoreOK s then .error .syntax else .ok n := by
    cases s with
    | nil => exact absurd rfl hne
    | cons a s => rfl
  rw [h, hb]
  dsimp only
  rw [parseUintLoop_digits hb1 ds hds 0 false (by decide)]
  unfold ofDigits
  split
  · rename_i h; split at h
    · rename_i h'; cases h; rw [if_pos h']
    · cases h
  · rename_i h; split at h
    · cases h
    · rename_i h'; cases h; rw [if_neg h']; simp

theorem digit_enc {c : Char} (h : hexDigit c = true) (ds : List Char) :
    enc (c :: ds) = UInt8.ofNat c.toNat :: enc ds := by
  rw [enc_cons, (digit_byte h).1]; rfl

theorem digit_byte_range {c : Char} (h : digit c = true) : ∃ k : Fin 10, c.toNat = 48 + k.val := by
  simp only [digit, Bool.and_eq_true, decide_eq_true_eq, char_le_iff] at h
  have e1 : '0'.toNat = 48 := rfl
  have e2 : '9'.toNat = 57 := rfl
  exact ⟨⟨c.toNat - 48, by omega⟩, by dsimp only; omega⟩

theorem digit_lower {c : Char} (h : digit c = true) :
    lowerByte (UInt8.ofNat c.toNat) ≠ 98 ∧ lowerByte (UInt8.ofNat c.toNat) ≠ 111 ∧
    lowerByte (UInt8.ofNat c.toNat) ≠ 120 := by
  obtain ⟨k, hk⟩ := digit_byte_range h
  rw [hk]
  clear hk
  revert k
  decide

theorem digit_hex {c : Char} (h : digit c = true) : hexDigit c = true := by simp [hexDigit, h]

/-- Number texts have the value `ParseUint` gives them. -/
theorem parseUint_numeral {s : Piece} {v : Nat} (hs : s.WF) (hv : numeral s = some v) :
    parseUint (enc s.lit) = if 2 ^ 64 ≤ v then .error .range else .ok v := by
  have radix : ∀ (c : Char) (b : Nat) (ds : List Char), 1 ≤ b → (∀ d ∈ ds, baseDigit b d) → ds ≠ [] →
      (∀ x xs, radixOf (48 :: UInt8.ofNat c.toNat :: x :: xs) = (b, x :: xs)) → c.toNat < 128 →
      parseUint (enc ('0' :: c :: ds)) = if 2 ^ 64 ≤ ofDigits b ds then .error .range else .ok (ofDigits b ds) := by
    intro c b ds hb hd hne hr hc
    have he : enc ('0' :: c :: ds) = 48 :: UInt8.ofNat c.toNat :: enc ds := by
      rw [enc_cons, enc_cons, enc_ascii hc]; rfl
    refine parseUint_plain hb (by rw [he]; simp) ?_ hd
    rw [he]
    cases ds with
    | nil => exact absurd rfl hne
    | cons d ds =>
      rw [digit_enc (hd d (by simp)).1]
      exact hr _ _
  cases s with
  | dec ds =>
    obtain ⟨hne, hd⟩ := hs
    simp only [numeral] at hv
    show parseUint (enc ds) = _
    cases ds with
    | nil => exact absurd rfl hne
    | cons a ds =>
      have ha : digit a = true := hd a (by simp)
      rw [List.head?_cons] at hv
      by_cases h0 : a = '0'
      · subst h0
        cases ds with
        | nil =>
          simp at hv
          subst hv
          rfl
        | cons b ds =>
          rw [if_pos ⟨rfl, by simp⟩] at hv
          split at hv
          · rename_i hoct
            cases hv
            have hb : digit b = true := hd b (by simp)
            have hoct' : ∀ c ∈ b :: ds, octDigit c = true := by
              intro c hc
              exact List.all_eq_true.mp hoct c (by simp [List.mem_cons.mp hc])
            have hv' : ofDigits 8 ('0' :: b :: ds) = ofDigits 8 (b :: ds) := rfl
            rw [hv']
            refine parseUint_plain (by decide) ?_ ?_ (fun c hc => oct_base (hoct' c hc))
            · rw [digit_enc (by decide)]; simp
            rw [digit_enc (by decide), digit_enc (digit_hex hb)]
            show radixOf (48 :: _) = _
            obtain ⟨l1, l2, l3⟩ := digit_lower hb
            cases ds with
            | nil => rfl
            | cons d ds =>
              rw [digit_enc (digit_hex (hd d (by simp)))]
              simp only [radixOf]
              rw [if_neg l1, if_neg l2, if_neg l3]
          · cases hv
      · rw [if_neg (by simp [h0])] at hv
        cases hv
        refine parseUint_plain (by decide) ?_ ?_ (fun c hc => digit_base (hd c hc))
        · rw [digit_enc (digit_hex ha)]; simp
        rw [digit_enc (digit_hex ha)]
        have hne48 : UInt8.ofNat a.toNat ≠ 48 := by
          obtain ⟨k, hk⟩ := digit_byte_range ha
          have : k ≠ 0 := by
            rintro rfl
            exact h0 ((char_eq_iff _ _).mpr hk)
          rw [hk]
          revert this
          clear hk
          revert k
          decide
        generalize UInt8.ofNat a.toNat = x at hne48
        unfold radixOf
        split
        · rename_i h; exact absurd (List.cons.inj h).1 hne48
        · rename_i h; exact absurd (List.cons.inj h).1 hne48
        · rfl
  | hex ds =>
    simp only [numeral] at hv
    split at hv
    · cases hv
    · rename_i hne; cases hv
      exact radix 'x' 16 ds (by decide) (fun d hd => hex_base (hs d hd)) hne (fun _ _ => rfl) (by decide)
  | oct ds =>
    simp only [numeral] at hv
    split at hv
    · cases hv
    · rename_i hne; cases hv
      exact radix 'o' 8 ds (by decide) (fun d hd => oct_base (hs d hd)) hne (fun _ _ => rfl) (by decide)
  | bin ds =>
    simp only [numeral] at hv
    split at hv
    · cases hv
    · rename_i hne; cases hv
      exact radix 'b' 2 ds (by decide) (fun d hd => bin_base (hs d hd)) hne (fun _ _ => rfl) (by decide)
  | _ => simp [numeral] at hv

/-- The first byte of a number text is an ASCII digit. -/
theorem numeral_head {s : Piece} {v : Nat} (hs : s.WF) (hv : numeral s = some v) :
    s.tok = .INT ∧ ∃ (k : Fin 10) (rest : Bytes), enc s.lit = UInt8.ofNat (48 + k.val) :: rest := by
  cases s with
  | dec ds =>
    obtain ⟨hne, hd⟩ := hs
    cases ds with
    | nil => exact absurd rfl hne
    | cons a ds =>
      have ha := hd a (by simp)
      obtain ⟨k, hk⟩ := digit_byte_range ha
      exact ⟨rfl, k, enc ds, by
        show enc (a :: ds) = _
        rw [digit_enc (digit_hex ha), hk]⟩
  | hex ds => exact ⟨rfl, 0, _, enc_cons _ _⟩
  | oct ds => exact ⟨rfl, 0, _, enc_cons _ _⟩
  | bin ds => exact ⟨rfl, 0, _, enc_cons _ _⟩
  | _ => simp [numeral] at hv

/-- Number texts have the value `ParseInt` gives them, and are rejected from 2^63 on. -/
theorem parseInt_numeral {s : Piece} {v : Nat} (hs : s.WF) (hv : numeral s = some v) :
    parseInt (enc s.lit) = if 2 ^ 63 ≤ v then .error .range else .ok (v : Int) := by
  obtain ⟨_, k, rest, hk⟩ := numeral_head hs hv
  have hu := parseUint_numeral hs hv
  rw [hk] at hu ⊢
  have hne : UInt8.ofNat (48 + k.val) ≠ 43 ∧ UInt8.ofNat (48 + k.val) ≠ 45 := by
    clear hu hk; revert k; decide
  clear hk
  generalize UInt8.ofNat (48 + k.val) = x at hu hne
  unfold parseInt
  dsimp only
  rw [if_neg (by rintro (h | h); exact hne.1 h; exact hne.2 h), hu]
  by_cases h1 : 2 ^ 64 ≤ v
  · rw [if_pos h1, if_pos (by omega)]
  · rw [if_neg h1]
    dsimp only
    by_cases h2 : 2 ^ 63 ≤ v
    · rw [if_pos (by simp [hne.2, h2]), if_pos h2]
    · rw [if_neg (by simp; omega), if_neg (by simp [hne.2]), if_neg h2, if_neg (by simp [hne.2])]

/-- A number text is not the word `int`. -/
theorem numeral_isLiteral {s : Piece} {v : Nat} (hs : s.WF) (hv : numeral s = some v) :
    Tok.INT.isLiteral (enc s.lit) = true := by
  obtain ⟨_, k, rest, hk⟩ := numeral_head hs hv
  rw [hk]
  have : UInt8.ofNat (48 + k.val) ≠ 105 := by clear hk; revert k; decide
  simp only [Tok.isLiteral, decide_eq_true_eq]
  intro h
  have h' : UInt8.ofNat (48 + k.val) :: rest = b!"int" := h
  exact this (List.cons.inj h').1

/-! ### Fractions -/

theorem decRun_digits (ds : List Char) (h : ∀ c ∈ ds, digit c = true) (n : Nat) :
    decRun n (enc ds) = some (ds.foldl (fun n c => n * 10 + digitNum c) n) := by
  induction ds generalizing n with
  | nil => rfl
  | cons c ds ih =>
    have hc := h c (by simp)
    rw [digit_enc (digit_hex hc), decRun, List.foldl_cons, ← ih (fun c hc => h c (by simp [hc]))]
    obtain ⟨k, hk⟩ := digit_byte_range hc
    have hnum : digitNum c = (UInt8.ofNat c.toNat).toNat - 48 := by
      unfold digitNum
      simp only [digit, Bool.and_eq_true, decide_eq_true_eq] at hc
      rw [if_pos hc.2, byte_toNat (by omega)]
    rw [if_pos, hnum]
    rw [hk]
    clear hk hnum; revert k; decide

theorem splitDot_digits (ds : List Char) (h : ∀ c ∈ ds, digit c = true) (rest : Bytes) :
    splitDot (enc ds ++ 46 :: rest) = (enc ds, some rest) := by
  induction ds with
  | nil => simp [enc_nil, splitDot]
  | cons c ds ih =>
    have hc := h c (by simp)
    rw [digit_enc (digit_hex hc), List.cons_append, splitDot, ih (fun c hc => h c (by simp [hc]))]
    rw [if_neg]
    obtain ⟨k, hk⟩ := digit_byte_range hc
    rw [hk]; clear hk; revert k; decide

theorem enc_frac (a b : List Char) : enc (a ++ '.' :: b) = enc a ++ 46 :: enc b := by
  rw [enc_append, enc_cons]; rfl

theorem digits_len (ds : List Char) (h : ∀ c ∈ ds, digit c = true) : (enc ds).length = ds.length := by
  induction ds with
  | nil => rfl
  | cons c ds ih =>
    rw [digit_enc (digit_hex (h c (by simp)))]
    simp [ih (fun c hc => h c (by simp [hc]))]

/-- Fraction texts have the value `ParseFloat` gives them. -/
theorem parseFloat_frac {a b : List Char} (hs : (Piece.frac a b).WF) :
    parseFloat (enc (Piece.frac a b).lit) =
      if (2 ^ 1024 - 2 ^ 970) * 10 ^ (fraction a b).scale ≤ (fraction a b).mant then .error .range
      else .ok (fraction a b) := by
  obtain ⟨h1, h2, h3, h4⟩ := hs
  have hsp : splitDot (enc (Piece.frac a b).lit) = (enc a, some (enc b)) := by
    show splitDot (enc (a ++ '.' :: b)) = _
    rw [enc_frac, splitDot_digits a h3]
  unfold parseFloat
  rw [hsp]
  have hne : ¬ (enc a = [] ∧ enc b = []) := by
    rintro ⟨h, _⟩
    have := digits_len a h3
    rw [h] at this
    exact h1 (List.length_eq_zero_iff.mp this.symm)
  have hrun : decRun 0 (enc a ++ enc b) = some (ofDigits 10 (a ++ b)) := by
    rw [← enc_append]
    exact decRun_digits _ (by
      intro c hc
      rcases List.mem_append.mp hc with hc | hc
      · exact h3 c hc
      · exact h4 c hc) 0
  simp only [Option.getD_some]
  rw [if_neg hne, hrun]
  simp only [digits_len b h4]
  rfl

theorem splitDots_digits (ds : List Char) (h : ∀ c ∈ ds, digit c = true) : splitDots (enc ds) = [enc ds] := by
  induction ds with
  | nil => rfl
  | cons c ds ih =>
    have hc := h c (by simp)
    rw [digit_enc (digit_hex hc), splitDots, ih (fun c hc => h c (by simp [hc]))]
    rw [if_neg]
    obtain ⟨k, hk⟩ := digit_byte_range hc
    rw [hk]; clear hk; revert k; decide

theorem splitDots_frac {a b : List Char} (hs : (Piece.frac a b).WF) :
    splitDots (enc (Piece.frac a b).lit) = [enc a, enc b] := by
  obtain ⟨h1, _, h3, h4⟩ := hs
  clear h1
  show splitDots (enc (a ++ '.' :: b)) = _
  rw [enc_frac]
  induction a with
  | nil => rw [enc_nil, List.nil_append, splitDots, if_pos rfl, splitDots_digits b h4]
  | cons c ds ih =>
    have hc := h3 c (by simp)
    rw [digit_enc (digit_hex hc), List.cons_append, splitDots, ih (fun c hc => h3 c (by simp [hc]))]
    rw [if_neg]
    obtain ⟨k, hk⟩ := digit_byte_range hc
    rw [hk]; clear hk; revert k; decide

/-- A fraction text is not the word `float`. -/
theorem frac_isLiteral {a b : List Char} (hs : (Piece.frac a b).WF) :
    Tok.FLOAT.isLiteral (enc (Piece.frac a b).lit) = true := by
  obtain ⟨h1, _, h3, _⟩ := hs
  cases a with
  | nil => exact absurd rfl h1
  | cons c ds =>
    have hc := h3 c (by simp)
    have he : enc (Piece.frac (c :: ds) b).lit = UInt8.ofNat c.toNat :: enc (ds ++ '.' :: b) :=
      digit_enc (digit_hex hc) _
    rw [he]
    obtain ⟨k, hk⟩ := digit_byte_range hc
    have : UInt8.ofNat c.toNat ≠ 102 := by rw [hk]; clear hk; revert k; decide
    simp only [Tok.isLiteral, decide_eq_true_eq]
    intro h
    have h' : UInt8.ofNat c.toNat :: enc (ds ++ '.' :: b) = b!"float" := h
    exact this (List.cons.inj h').1

end Cddlc
