import Verif.Model.Lexer
import Verif.Lemmas.Utf8

/-! The lexer state as a function of a position in the decoded source. -/

namespace Cddlc

namespace Out
@[simp] theorem bind_ok {α β} (a : α) (f : α → Out β) : (Out.ok a >>= f) = f a := rfl
@[simp] theorem bind_panic {α β} (w) (f : α → Out β) : ((Out.panic w : Out α) >>= f) = .panic w := rfl
@[simp] theorem bind_hang {α β} (f : α → Out β) : ((Out.hang : Out α) >>= f) = .hang := rfl
@[simp] theorem pure_eq {α} (a : α) : (pure a : Out α) = .ok a := rfl

theorem bind_eq_ok {α β} {o : Out α} {f : α → Out β} {b : β} :
    (o >>= f) = .ok b ↔ ∃ a, o = .ok a ∧ f a = .ok b := by
  cases o <;> simp

theorem bind_eq_hang {α β} {o : Out α} {f : α → Out β} :
    (o >>= f) = .hang ↔ o = .hang ∨ ∃ a, o = .ok a ∧ f a = .hang := by
  cases o <;> simp

theorem bind_eq_panic {α β} {o : Out α} {f : α → Out β} {w : PanicKind} :
    (o >>= f) = .panic w ↔ o = .panic w ∨ ∃ a, o = .ok a ∧ f a = .panic w := by
  cases o <;> simp
end Out

/-- Number of bytes of an encoded character list. -/
def blen (cs : List Char) : Nat := (enc cs).length

theorem blen_nil : blen [] = 0 := rfl
theorem blen_append (a b : List Char) : blen (a ++ b) = blen a + blen b := by
  simp [blen, enc_append]
theorem blen_cons (c : Char) (b : List Char) : blen (c :: b) = blen [c] + blen b :=
  blen_append [c] b
theorem blen_single_pos (c : Char) : 0 < blen [c] := by
  simpa [blen, enc] using encChar_length_pos c
theorem blen_single (c : Char) : blen [c] = (String.utf8EncodeChar c).length := by
  simp [blen, enc]
theorem length_le_blen (cs : List Char) : cs.length ≤ blen cs := length_le_enc cs

theorem enc_ascii {c : Char} (h : c.toNat < 128) : String.utf8EncodeChar c = [UInt8.ofNat c.toNat] := by
  have hv : c.val.toNat = c.toNat := rfl
  simp only [String.utf8EncodeChar, hv]; rw [if_pos (by omega)]

theorem blen_ascii {c : Char} (h : c.toNat < 128) : blen [c] = 1 := by
  simp [blen_single, enc_ascii h]

theorem blen_ascii_all {cs : List Char} (h : ∀ c ∈ cs, c.toNat < 128) : blen cs = cs.length := by
  induction cs with
  | nil => rfl
  | cons c cs ih =>
    rw [blen_cons, blen_ascii (h c (by simp)), ih (fun d hd => h d (by simp [hd]))]
    simp; omega

/-- A whole byte string as decodable characters followed by an undecodable tail. -/
structure Dec (s : Bytes) (cs : List Char) (bad : Bytes) : Prop where
  eq : s = enc cs ++ bad
  good : '�' ∉ cs
  stuck : bad ≠ [] → (decodeRune bad).1 = runeError
  last : bad = [] → ∃ cs0, cs = cs0 ++ [' ']

namespace Lexer

/-- `b` moved to the position between `pre` and `rest`; at the end of a clean source the rune is
EOF and the offset stays on the last (one-byte) character; before the first character of a
source starting with an undecodable byte nothing has been read. -/
def at_ (b : Lexer) (bad : Bytes) (pre rest : List Char) : Lexer :=
  match rest with
  | c :: _ => { b with chr := (c.toNat : Int), offset := blen pre, rdOffset := blen pre + blen [c] }
  | [] =>
    if bad = [] then { b with chr := -1, offset := blen pre - 1, rdOffset := blen pre }
    else { b with chr := 0, offset := 0, rdOffset := 0 }

variable {b : Lexer} {cs pre rest : List Char} {bad : Bytes}

@[simp] theorem at_src : (at_ b bad pre rest).src = b.src := by unfold at_; split <;> (try split) <;> rfl
@[simp] theorem at_errors : (at_ b bad pre rest).errors = b.errors := by
  unfold at_; split <;> (try split) <;> rfl
@[simp] theorem at_errCount : (at_ b bad pre rest).errCount = b.errCount := by
  unfold at_; split <;> (try split) <;> rfl
@[simp] theorem at_lineLast : (at_ b bad pre rest).lineLast = b.lineLast := by
  unfold at_; split <;> (try split) <;> rfl
@[simp] theorem at_linePrev : (at_ b bad pre rest).linePrev = b.linePrev := by
  unfold at_; split <;> (try split) <;> rfl
@[simp] theorem at_chr_cons {c} : (at_ b bad pre (c :: rest)).chr = (c.toNat : Int) := rfl
@[simp] theorem at_offset_cons {c} : (at_ b bad pre (c :: rest)).offset = blen pre := rfl
@[simp] theorem at_chr_nil : (at_ b [] pre []).chr = -1 := rfl
@[simp] theorem at_offset_nil : (at_ b [] pre []).offset = blen pre - 1 := rfl

theorem drop_enc (a x : List Char) (y : Bytes) : (enc (a ++ x) ++ y).drop (blen a) = enc x ++ y := by
  rw [enc_append, List.append_assoc, blen, List.drop_left]

theorem next_at_cons2 (h : Dec b.src cs bad) {c c' : Char} (e : cs = pre ++ c :: c' :: rest) :
    (at_ b bad pre (c :: c' :: rest)).next = at_ b bad (pre ++ [c]) (c' :: rest) := by
  have e2 : b.src = enc ((pre ++ [c]) ++ c' :: rest) ++ bad := by rw [h.eq, e]; simp
  have hd : b.src.drop (blen (pre ++ [c])) = String.utf8EncodeChar c' ++ (enc rest ++ bad) := by
    rw [e2, drop_enc, enc_cons, List.append_assoc]
  have hc' : c' ≠ '�' := by
    intro hh; apply h.good; rw [e, ← hh]; simp
  have hne : c'.toNat ≠ runeError := by
    intro hh; apply hc'
    apply Char.ext; apply UInt32.toNat_inj.mp; exact hh
  have hlen : blen (pre ++ [c]) < b.src.length := by
    have h0 := encChar_length_pos c'
    have h1 := congrArg List.length hd
    simp only [List.length_drop, List.length_append] at h1
    omega
  unfold next
  rw [if_neg]
  · simp only [at_, ← blen_append]
    rw [hd, decodeRune_encChar, if_neg hne, blen_append (pre ++ [c]), blen_single]
  · simp only [at_, ← blen_append]; omega

theorem next_at_last (h : Dec b.src cs []) {c : Char} (e : cs = pre ++ [c]) :
    (at_ b [] pre [c]).next = at_ b [] (pre ++ [c]) [] := by
  obtain ⟨cs0, h0⟩ := h.last rfl
  have hc : c = ' ' := by
    rw [e] at h0
    have := List.append_inj_right' h0 (by simp)
    simpa using this
  have hl : b.src.length = blen (pre ++ [c]) := by rw [h.eq, e]; simp [blen]
  unfold next
  rw [if_pos]
  · have : blen [' '] = 1 := by rfl
    subst hc
    simp [at_, blen_append, this]
  · simp only [at_, ← blen_append]; omega

theorem next_at_stuck (h : Dec b.src cs bad) (hb : bad ≠ []) {c : Char} (e : cs = pre ++ [c]) :
    (at_ b bad pre [c]).next = at_ b bad pre [c] := by
  have hd : b.src.drop (blen (pre ++ [c])) = bad := by
    rw [h.eq, e]; simp [blen]
  unfold next
  split
  · rename_i hl
    exfalso; apply hb
    simp only [at_, ← blen_append] at hl
    rw [← hd]; exact List.drop_eq_nil_of_le hl
  · simp only [at_, ← blen_append]
    rw [hd, if_pos (h.stuck hb)]

theorem next_at_nil (h : Dec b.src cs bad) (e : cs = pre) (hp : bad ≠ [] → pre = []) :
    (at_ b bad pre []).next = at_ b bad pre [] := by
  unfold next
  by_cases hb : bad = []
  · subst hb
    have hl : b.src.length = blen pre := by rw [h.eq, e]; simp [blen]
    rw [if_pos (by simp [at_]; omega)]
    simp [at_]
  · have : b.src = bad := by rw [h.eq, e, hp hb]; simp [enc]
    rw [if_neg (by simp [at_, hb, this])]
    simp only [at_, hb, if_false, this, List.drop_zero]
    rw [if_pos (h.stuck hb)]

end Lexer

/-- Every byte string splits into decodable characters and an undecodable tail. -/
theorem exists_dec (s : Bytes) : ∃ cs bad, s = enc cs ++ bad ∧ '�' ∉ cs ∧
    (bad ≠ [] → (decodeRune bad).1 = runeError) := by
  generalize hn : s.length = n
  induction n using Nat.strongRecOn generalizing s with
  | ind n ih =>
    by_cases h : (decodeRune s).1 = runeError
    · exact ⟨[], s, by simp [enc], by simp, fun _ => h⟩
    · obtain ⟨c, r, rfl, hc⟩ := decodeRune_ne_error h
      have := encChar_length_pos c
      obtain ⟨cs, bad, hr, hg, hs⟩ := ih r.length (by rw [List.length_append] at hn; omega) r rfl
      refine ⟨c :: cs, bad, ?_, ?_, hs⟩
      · rw [enc_cons, List.append_assoc, ← hr]
      · simp only [List.mem_cons, not_or]; exact ⟨fun h => hc h.symm, hg⟩

theorem char_toNat_inj {a b : Char} (h : a.toNat = b.toNat) : a = b :=
  Char.ext (UInt32.toNat_inj.mp h)

/-- Two splittings agree on the characters. -/
theorem enc_append_inj {cs cs' : List Char} {bad bad' : Bytes}
    (h : enc cs ++ bad = enc cs' ++ bad') (g : '�' ∉ cs) (g' : '�' ∉ cs')
    (s : bad ≠ [] → (decodeRune bad).1 = runeError)
    (s' : bad' ≠ [] → (decodeRune bad').1 = runeError) : cs = cs' ∧ bad = bad' := by
  induction cs generalizing cs' with
  | nil =>
    cases cs' with
    | nil => simpa [enc] using h
    | cons c' cs' =>
      exfalso
      simp only [enc_nil, List.nil_append, enc_cons, List.append_assoc] at h
      have hb : bad ≠ [] := by
        intro hb; rw [hb] at h
        have := encChar_length_pos c'
        have h2 := congrArg List.length h
        simp only [List.length_nil, List.length_append] at h2; omega
      have := s hb
      rw [h, decodeRune_encChar] at this
      apply g'; have h3 : c' = '�' := char_toNat_inj this
      simp [h3]
  | cons c cs ih =>
    cases cs' with
    | nil =>
      exfalso
      simp only [enc_nil, List.nil_append, enc_cons, List.append_assoc] at h
      have hb : bad' ≠ [] := by
        intro hb; rw [hb] at h
        have := encChar_length_pos c
        have h2 := congrArg List.length h
        simp only [List.length_nil, List.length_append] at h2; omega
      have := s' hb
      rw [← h, decodeRune_encChar] at this
      apply g; have h3 : c = '�' := char_toNat_inj this
      simp [h3]
    | cons c' cs' =>
      simp only [enc_cons, List.append_assoc] at h
      have h1 := congrArg (fun x => (decodeRune x).1) h
      simp only [decodeRune_encChar] at h1
      have hc := char_toNat_inj h1
      subst hc
      have h2 := List.append_cancel_left h
      have := ih h2 (by simp_all) (by simp_all)
      exact ⟨by rw [this.1], this.2⟩

theorem not_clean_iff {s : Bytes} {cs bad} (h : s = enc cs ++ bad) (g : '�' ∉ cs)
    (st : bad ≠ [] → (decodeRune bad).1 = runeError) : Clean s ↔ bad = [] := by
  constructor
  · rintro ⟨cs', g', e'⟩
    have := enc_append_inj (cs := cs) (cs' := cs') (bad := bad) (bad' := [])
      (by rw [← h, e']; simp) g g' st (by simp)
    exact this.2
  · rintro rfl
    exact ⟨cs, g, by simpa using h⟩

end Cddlc
