import Verif.Lemmas.JsonText
import Verif.Model.Json

/-! What the model of `json.MarshalIndent` prints is a JSON text of the value it was given. -/

namespace Cddlc
open Spec

/-! ### Decimal numbers -/

theorem decAux_acc (f n : Nat) (acc : Bytes) : decDigitsAux f n acc = decDigitsAux f n [] ++ acc := by
  induction f generalizing n acc with
  | zero => rfl
  | succ f ih =>
    simp only [decDigitsAux]
    split
    · rfl
    · rw [ih, ih (n / 10) [_]]; simp

theorem decAux_fuel {f g n : Nat} (hf : n < f) (hg : n < g) : decDigitsAux f n [] = decDigitsAux g n [] := by
  induction f generalizing g n with
  | zero => omega
  | succ f ih =>
    cases g with
    | zero => omega
    | succ g =>
      simp only [decDigitsAux]
      split
      · rfl
      · rw [decAux_acc f, decAux_acc g, ih (g := g)] <;> omega

theorem decNat_small {n : Nat} (h : n < 10) : decNat n = [UInt8.ofNat (48 + n)] := by
  simp only [decNat, decDigitsAux]
  rw [if_pos (by omega), Nat.mod_eq_of_lt h]

theorem decNat_step {n : Nat} (h : 10 ≤ n) : decNat n = decNat (n / 10) ++ [UInt8.ofNat (48 + n % 10)] := by
  simp only [decNat, decDigitsAux]
  rw [if_neg (by omega), decAux_acc]
  congr 1
  cases n with
  | zero => omega
  | succ n =>
    rw [show decDigitsAux (n + 1) ((n + 1) / 10) [] = decDigitsAux ((n + 1) / 10 + 1) ((n + 1) / 10) [] from
      decAux_fuel (by omega) (by omega)]
    rfl

theorem jDigit_byte {n : Nat} (h : n < 10) : jDigit (UInt8.ofNat (48 + n)) = true := by
  have : ∀ n : Fin 10, jDigit (UInt8.ofNat (48 + n)) = true := by decide
  exact this ⟨n, h⟩

theorem decNat_int (n : Nat) : jInt (decNat n) ∧ (0 < n → (decNat n).head? ≠ some 48) := by
  induction n using Nat.strongRecOn with
  | _ n ih =>
    by_cases h : n < 10
    · rw [decNat_small h]
      have : ∀ n : Fin 10, 0 < n.val → UInt8.ofNat (48 + n.val) ≠ 48 := by decide
      refine ⟨⟨⟨by simp, by simpa using jDigit_byte h⟩, by simp⟩, ?_⟩
      intro h0
      simpa using this ⟨n, h⟩ h0
    · obtain ⟨⟨⟨h1, h2⟩, h3⟩, h4⟩ := ih (n / 10) (by omega)
      have h4 := h4 (by omega)
      rw [decNat_step (by omega)]
      have hh : (decNat (n / 10) ++ [UInt8.ofNat (48 + n % 10)]).head? ≠ some 48 := by
        rw [List.head?_append]
        cases hd : (decNat (n / 10)).head? with
        | none => exact (h1 (List.head?_eq_none_iff.mp hd)).elim
        | some c => rw [hd] at h4; simpa using h4
      refine ⟨⟨⟨by simp, ?_⟩, fun h => (hh h).elim⟩, fun _ => hh⟩
      intro c hc
      rcases List.mem_append.mp hc with hc | hc
      · exact h2 c hc
      · rw [List.mem_singleton.mp hc]; exact jDigit_byte (by omega)

theorem decInt_number (v : Int) : JNumber (decInt v) := by
  cases v with
  | ofNat n => exact ⟨[], decNat n, [], [], by simp [decInt], Or.inl rfl, (decNat_int n).1, Or.inl rfl, Or.inl rfl⟩
  | negSucc n => exact ⟨b!"-", decNat (n + 1), [], [], by simp [decInt], Or.inr rfl, (decNat_int _).1, Or.inl rfl, Or.inl rfl⟩

/-! ### Strings -/

/-- The characters of a byte string; bytes that are not part of UTF-8 count as U+FFFD. -/
def utf8Chars : Nat → Bytes → List Char
  | 0, _ => []
  | _, [] => []
  | n + 1, c :: s =>
    Char.ofNat (decodeRune (c :: s)).1 :: utf8Chars n ((c :: s).drop (decodeRune (c :: s)).2)

/-- Likewise, for all of it. -/
def chars (s : Bytes) : List Char := utf8Chars s.length s

theorem toNat_ofNat (c : Char) : Char.ofNat c.toNat = c := Char.ofNat_toNat c

theorem utf8Chars_enc (cs : List Char) (n : Nat) (h : (enc cs).length ≤ n) : utf8Chars n (enc cs) = cs := by
  induction cs generalizing n with
  | nil => cases n <;> rfl
  | cons c cs ih =>
    have hp := encChar_length_pos c
    rw [enc_cons, List.length_append] at h
    cases n with
    | zero => omega
    | succ n =>
      rw [enc_cons]
      cases he : String.utf8EncodeChar c ++ enc cs with
      | nil => rw [List.append_eq_nil_iff] at he; rw [he.1] at hp; exact absurd hp (by decide)
      | cons b s =>
        unfold utf8Chars
        rw [← he, decodeRune_encChar, List.drop_left, toNat_ofNat, ih n (by omega)]

theorem decodeRune_pos (c : UInt8) (s : Bytes) : 0 < (decodeRune (c :: s)).2 := by
  by_cases h : decodeRune (c :: s) = (runeError, 1)
  · rw [h]; decide
  · obtain ⟨ch, rest, h⟩ := decodeRune_char (by simp) h
    rw [h, decodeRune_encChar]
    exact encChar_length_pos ch

/-- Is the escape of an ASCII byte one of those of RFC 8259 for it? -/
def escOk (short : Bool) (n : Nat) : Bool :=
  jShort.any (fun p => decide (jsonEscape short (UInt8.ofNat n) = [92, p.1]) && decide (p.2 = Char.ofNat n)) ||
  match jsonEscape short (UInt8.ofNat n) with
  | [92, 117, a, b, c, d] =>
    match jHex a, jHex b, jHex c, jHex d with
    | some a, some b, some c, some d => decide ((Char.ofNat n).toNat = a * 4096 + b * 256 + c * 16 + d)
    | _, _, _, _ => false
  | _ => false

theorem esc_ok : ∀ short, ∀ n : Fin 128, jsonSafe (UInt8.ofNat n) = false → escOk short n = true := by
  decide +kernel

theorem escape_char {short n} (h : escOk short n = true) : JChar (jsonEscape short (UInt8.ofNat n)) (Char.ofNat n) := by
  unfold escOk at h
  rw [Bool.or_eq_true] at h
  rcases h with h | h
  · rw [List.any_eq_true] at h
    obtain ⟨⟨e, c⟩, h1, h2⟩ := h
    simp only [Bool.and_eq_true, decide_eq_true_eq] at h2
    rw [h2.1, ← h2.2]
    exact .short h1
  · split at h
    · rename_i a b c d he
      split at h
      · rename_i h1 h2 h3 h4
        rw [he]
        exact .unit ⟨_, _, _, _, _, _, _, _, rfl, h1, h2, h3, h4, of_decide_eq_true h⟩
      · cases h
    · cases h

theorem ascii_char {c : UInt8} (h : c < 128) : (Char.ofNat c.toNat).toNat = c.toNat ∧
    String.utf8EncodeChar (Char.ofNat c.toNat) = [c] := by
  have h' : c.toNat < 128 := h
  obtain ⟨ch, hc⟩ := exists_char (v := c.toNat) (by omega)
  rw [← hc, toNat_ofNat]
  refine ⟨rfl, ?_⟩
  rw [encChar_ascii (by omega), hc, UInt8.ofNat_toNat]

theorem safe_char {c : UInt8} (h : jsonSafe c = true) : JChar [c] (Char.ofNat c.toNat) := by
  simp only [jsonSafe, Bool.and_eq_true, decide_eq_true_eq] at h
  obtain ⟨⟨⟨⟨⟨⟨h1, h2⟩, h3⟩, h4⟩, -⟩, -⟩, -⟩ := h
  obtain ⟨e1, e2⟩ := ascii_char h2
  have h1' : 32 ≤ c.toNat := h1
  rw [← e2]
  refine .raw (by rw [e1]; omega) ?_ ?_
  · intro h
    have := congrArg Char.toNat h
    rw [e1] at this
    exact h3 (UInt8.toNat_inj.mp this)
  · intro h
    have := congrArg Char.toNat h
    rw [e1] at this
    exact h4 (UInt8.toNat_inj.mp this)

theorem jsonChars_text (short : Bool) (n : Nat) (s : Bytes) (hn : s.length ≤ n) :
    JChars (jsonChars short n s) (utf8Chars n s) := by
  induction n generalizing s with
  | zero => exact .nil
  | succ n ih =>
    cases s with
    | nil => exact .nil
    | cons c s =>
      simp only [List.length_cons] at hn
      unfold jsonChars utf8Chars
      split
      · rename_i hc
        have hd : decodeRune (c :: s) = (c.toNat, 1) := by
          simp only [decodeRune]; rw [if_pos (show c.toNat < 128 from hc)]
        rw [hd]
        refine .cons ?_ (ih s (by omega))
        split
        · rename_i hs; exact safe_char hs
        · rename_i hs
          have := escape_char (esc_ok short ⟨c.toNat, hc⟩ (by simpa using hs))
          simpa using this
      · rename_i hc
        have hlen := decodeRune_pos c s
        have hih := ih ((c :: s).drop (decodeRune (c :: s)).2) (by rw [List.length_drop, List.length_cons]; omega)
        by_cases he : decodeRune (c :: s) = (runeError, 1)
        · rw [he] at hih ⊢
          simp only [and_self, if_true]
          refine JChars.cons ?_ hih
          exact .unit ⟨102, 102, 102, 100, 15, 15, 15, 13, rfl, by decide, by decide, by decide, by decide, by decide⟩
        · obtain ⟨ch, rest, hch⟩ := decodeRune_char (by simp) he
          have hge : 128 ≤ ch.toNat := by
            refine Nat.le_of_not_lt fun hlt => ?_
            rw [encChar_ascii (by omega)] at hch
            simp only [List.cons_append, List.nil_append, List.cons.injEq] at hch
            apply hc
            rw [hch.1]
            show (UInt8.ofNat ch.toNat).toNat < 128
            rw [UInt8.toNat_ofNat']
            omega
          have hd : decodeRune (c :: s) = (ch.toNat, (String.utf8EncodeChar ch).length) := by
            rw [hch, decodeRune_encChar]
          rw [hd] at hih he ⊢
          simp only
          rw [if_neg (by rintro ⟨h1, h2⟩; exact he (by rw [h1, h2])), toNat_ofNat]
          split
          · rename_i h2
            refine .cons ?_ hih
            rcases h2 with h2 | h2
            · rw [h2]
              refine .unit ⟨50, 48, 50, 56, 2, 0, 2, 8, by decide, by decide, by decide, by decide, by decide, by rw [h2]⟩
            · rw [h2]
              refine .unit ⟨50, 48, 50, 57, 2, 0, 2, 9, by decide, by decide, by decide, by decide, by decide, by rw [h2]⟩
          · refine .cons ?_ hih
            rw [hch, List.take_left]
            refine .raw (by omega) ?_ ?_
            · rintro rfl; exact absurd hge (by decide)
            · rintro rfl; exact absurd hge (by decide)

theorem jsonString_text (short : Bool) (s : Bytes) : JString (jsonString short s) (chars s) :=
  ⟨_, jsonChars_text short s.length s (Nat.le_refl _), rfl⟩

/-! ### Values -/

mutual
/-- The value as one of the specification. -/
def JVal.toJson : JVal → Json
  | .null => .null
  | .bool b => .bool b
  | .num t => .num t
  | .str s => .str (chars s)
  | .arr xs => .arr (toJsons xs)
  | .obj fs => .obj (toMembers fs)
def toJsons : List JVal → List Json
  | [] => []
  | x :: xs => x.toJson :: toJsons xs
def toMembers : List JField → List Member
  | [] => []
  | .mk k v :: fs => .mk (chars k) v.toJson :: toMembers fs
end

mutual
/-- All numbers are numbers. -/
def JVal.NumsOk : JVal → Prop
  | .num t => JNumber t
  | .arr xs => numsOks xs
  | .obj fs => numsOkFs fs
  | _ => True
def numsOks : List JVal → Prop
  | [] => True
  | x :: xs => x.NumsOk ∧ numsOks xs
def numsOkFs : List JField → Prop
  | [] => True
  | .mk _ v :: fs => v.NumsOk ∧ numsOkFs fs
end

theorem newline_space (d : Nat) : JSpace (newline d) := by
  intro c hc
  rcases List.mem_cons.mp hc with rfl | hc
  · decide
  · rw [(List.mem_replicate.mp hc).2]; decide

theorem space_nil : JSpace [] := by intro c hc; cases hc
theorem space_one : JSpace [32] := by intro c hc; rw [List.mem_singleton.mp hc]; decide

mutual
theorem print_text (short : Bool) : ∀ (v : JVal) (d : Nat), v.NumsOk → JText (v.print short d) v.toJson
  | .null, _, _ => .null
  | .bool true, _, _ => .yes
  | .bool false, _, _ => .no
  | .num _, _, h => .num h
  | .str s, _, _ => .str (jsonString_text short s)
  | .arr [], _, _ => .arr0 (w := []) space_nil
  | .arr (x :: xs), d, h => by
    have := vals_text short x xs (d + 1) d h.1 h.2
    simp only [JVal.print, JVal.toJson, toJsons]
    have e := JText.arr this
    simpa [List.append_assoc] using e
  | .obj [], _, _ => .obj0 (w := []) space_nil
  | .obj (.mk k v :: fs), d, h => by
    have := fields_text short k v fs (d + 1) d h.1 h.2
    simp only [JVal.print, JVal.toJson, toMembers]
    have e := JText.obj this
    simpa [List.append_assoc] using e
termination_by v => sizeOf v
decreasing_by all_goals simp; try omega
theorem vals_text (short : Bool) : ∀ (x : JVal) (xs : List JVal) (d e : Nat), x.NumsOk → numsOks xs →
    JElems (newline d ++ (x.print short d ++ (printVals short d xs ++ newline e))) (x.toJson :: toJsons xs)
  | x, [], d, e, h, _ => by
    have := JElems.one (newline_space d) (print_text short x d h) (newline_space e)
    simpa [printVals, toJsons] using this
  | x, y :: ys, d, e, h, h' => by
    have := JElems.more (newline_space d) (print_text short x d h) space_nil (vals_text short y ys d e h'.1 h'.2)
    simpa [printVals, toJsons, List.append_assoc] using this
termination_by x xs => sizeOf x + sizeOf xs
decreasing_by all_goals simp; try omega
theorem fields_text (short : Bool) : ∀ (k : Bytes) (v : JVal) (fs : List JField) (d e : Nat), v.NumsOk → numsOkFs fs →
    JMembers (newline d ++ (jsonString short k ++ (b!": " ++ (v.print short d ++ (printFields short d fs ++ newline e)))))
      (.mk (chars k) v.toJson :: toMembers fs)
  | k, v, [], d, e, h, _ => by
    have := JMembers.one (newline_space d) (jsonString_text short k) space_nil space_one (print_text short v d h)
      (newline_space e)
    simpa [printFields, toMembers] using this
  | k, v, .mk k' v' :: fs, d, e, h, h' => by
    have := JMembers.more (newline_space d) (jsonString_text short k) space_nil space_one (print_text short v d h)
      space_nil (fields_text short k' v' fs d e h'.1 h'.2)
    simpa [printFields, toMembers, List.append_assoc] using this
termination_by _ v fs => sizeOf v + sizeOf fs
decreasing_by all_goals simp; try omega
end

end Cddlc
