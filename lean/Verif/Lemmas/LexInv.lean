import Verif.Lemmas.LexAny

/-! An invariant of every reachable lexer state, on every source. -/

namespace Cddlc.Lexer
open Spec

/-- The lexer stands between `pre` and `rest` of the decodable part of its source. -/
structure Inv (src : Bytes) (cs : List Char) (bad : Bytes) (l : Lexer) : Prop where
  dec : Dec (init src).src cs bad
  ex : ∃ b pre rest, b.src = (init src).src ∧ cs = pre ++ rest ∧ l = at_ b bad pre rest ∧
    LinesOK b pre ∧ (bad ≠ [] → rest = [] → pre = []) ∧ b.errCount = b.errors.length

variable {src : Bytes} {cs : List Char} {bad : Bytes} {l l' : Lexer}

theorem inv_new (h : Dec (init src).src cs bad) : Inv src cs bad (new src) :=
  ⟨h, init src, [], cs, rfl, rfl, new_at h, linesOK_nil src, by simp, rfl⟩

theorem inv_next (h : Inv src cs bad l) (hc : l.chr ≠ 10) : Inv src cs bad l.next := by
  obtain ⟨hd, b, pre, rest, hb, he, hl, hlo, hr, hcnt⟩ := h
  have hdb : Dec b.src cs bad := by rw [hb]; exact hd
  subst hl
  match rest, hr with
  | [], hr =>
    rw [next_at_nil hdb (by simpa using he) (fun h => hr h rfl)]
    exact ⟨hd, b, pre, [], hb, he, rfl, hlo, hr, hcnt⟩
  | [c], hr =>
    have hcn : '\n' ∉ [c] := by
      rw [at_chr_cons] at hc
      simp only [List.mem_singleton]
      rintro rfl; exact hc rfl
    by_cases hbad : bad = []
    · subst hbad
      rw [next_at_last hdb he]
      exact ⟨hd, b, pre ++ [c], [], hb, by simpa using he, rfl, linesOK_word hlo hcn, by simp, hcnt⟩
    · rw [next_at_stuck hdb hbad he]
      exact ⟨hd, b, pre, [c], hb, he, rfl, hlo, by simp, hcnt⟩
  | c :: c' :: r, hr =>
    have hcn : '\n' ∉ [c] := by
      rw [at_chr_cons] at hc
      simp only [List.mem_singleton]
      rintro rfl; exact hc rfl
    rw [next_at_cons2 hdb he]
    exact ⟨hd, b, pre ++ [c], c' :: r, hb, by simpa using he, rfl, linesOK_word hlo hcn, by simp, hcnt⟩

theorem inv_adv (h : Inv src cs bad l) (ha : Adv l l') : Inv src cs bad l' := by
  induction ha with
  | refl => exact h
  | step hc _ ih => exact ih (inv_next h hc)

theorem inv_error (h : Inv src cs bad l) (o m) : Inv src cs bad (l.error o m) := by
  obtain ⟨hd, b, pre, rest, hb, he, hl, hlo, hr, hcnt⟩ := h
  refine ⟨hd, b.error o m, pre, rest, hb, he, ?_, linesOK_error hlo, hr, by simp [error, hcnt]⟩
  subst hl
  unfold at_ error
  cases rest with
  | nil => simp only []; split <;> rfl
  | cons c r => rfl

theorem inv_advE (h : Inv src cs bad l) (ha : AdvE l l') : Inv src cs bad l' := by
  obtain ⟨l1, h1, rfl | ⟨o, m, rfl⟩⟩ := ha
  · exact inv_adv h h1
  · exact inv_error (inv_adv h h1) o m

/-- A newline just before an undecodable byte is never passed. -/
theorem skip_stuck {b : Lexer} {pre : List Char} (h : Dec b.src cs bad) (hb : bad ≠ [])
    (e : cs = pre ++ ['\n']) (n : Nat) :
    whileOut (fun l : Lexer => isSpace l.chr)
      (fun l => (if l.chr = 10 then l.addLineOffset l.offset else l).next) n
      (at_ b bad pre ['\n']) = .hang := by
  induction n generalizing b with
  | zero => rfl
  | succ n ih =>
    rw [whileOut, if_pos (show isSpace (at_ b bad pre ['\n']).chr = true from rfl)]
    have hd : Dec (b.addLineOffset (at_ b bad pre ['\n']).offset).src cs bad := by
      rw [addLineOffset_src]; exact h
    rw [show (at_ b bad pre ['\n']).chr = 10 from rfl, if_pos rfl, at_addLineOffset,
      next_at_stuck hd hb e]
    exact ih hd

theorem inv_skip (h : Inv src cs bad l) {n : Nat}
    (hs : whileOut (fun l : Lexer => isSpace l.chr)
      (fun l => (if l.chr = 10 then l.addLineOffset l.offset else l).next) n l = .ok l') :
    Inv src cs bad l' ∧ isSpace l'.chr = false := by
  induction n generalizing l with
  | zero => cases hs
  | succ n ih =>
    rw [whileOut] at hs
    by_cases hsp : isSpace l.chr = true
    · rw [if_pos hsp] at hs
      by_cases h10 : l.chr = 10
      · simp only [h10, if_true] at hs
        obtain ⟨hd, b, pre, rest, hb, he, hl, hlo, hr, hcnt⟩ := h
        have hdb : Dec b.src cs bad := by rw [hb]; exact hd
        subst hl
        cases rest with
        | nil =>
          exfalso
          simp only [at_] at h10
          split at h10
          · simp at h10
          · simp at h10
        | cons c r =>
          have hc : c = '\n' := by
            rw [at_chr_cons] at h10
            apply char_toNat_inj
            show c.toNat = 10
            omega
          subst hc
          have hdb' : Dec (b.addLineOffset (blen pre)).src cs bad := by
            rw [addLineOffset_src]; exact hdb
          have hlo' : LinesOK (b.addLineOffset (blen pre)) (pre ++ ['\n']) := nl_linesOK hlo ['\n']
          have hb' : (b.addLineOffset (blen pre)).src = (init src).src := by
            rw [addLineOffset_src]; exact hb
          have hcnt' : (b.addLineOffset (blen pre)).errCount =
              (b.addLineOffset (blen pre)).errors.length := by
            unfold addLineOffset; split <;> exact hcnt
          rw [at_addLineOffset, at_offset_cons] at hs
          cases r with
          | nil =>
            by_cases hbad : bad = []
            · subst hbad
              rw [next_at_last hdb' he] at hs
              exact ih ⟨hd, _, pre ++ ['\n'], [], hb', by simpa using he, rfl, hlo', by simp, hcnt'⟩ hs
            · rw [next_at_stuck hdb' hbad he, skip_stuck hdb' hbad he] at hs
              cases hs
          | cons c' r =>
            rw [next_at_cons2 hdb' he] at hs
            exact ih ⟨hd, _, pre ++ ['\n'], c' :: r, hb', by simpa using he, rfl, hlo', by simp, hcnt'⟩ hs
      · simp only [h10, if_false] at hs
        exact ih (inv_next h h10) hs
    · rw [if_neg hsp] at hs
      cases hs
      exact ⟨h, by simpa using hsp⟩

theorem Inv.count (h : Inv src cs bad l) : l.errCount = l.errors.length := by
  obtain ⟨hd, b, pre, rest, hb, he, hl, hlo, hr, hcnt⟩ := h
  subst hl; simpa using hcnt

theorem Inv.chr_ne (h : Inv src cs bad l) (hb : bad ≠ []) : l.chr ≠ -1 := by
  obtain ⟨hd, b, pre, rest, _, he, hl, hlo, hr, hcnt⟩ := h
  subst hl
  cases rest with
  | nil => simp only [at_, hb, if_false]; decide
  | cons c r => rw [at_chr_cons]; omega

variable [Unicode]

/-- What a call of `scan` does, on every source. -/
theorem inv_scan (h : Inv src cs bad l) {tok pos lit} (hs : scan l = .ok (tok, pos, lit, l')) :
    ∃ l0, Inv src cs bad l0 ∧ isSpace l0.chr = false ∧ scanTok l0 = .ok (tok, lit, l') ∧
      Inv src cs bad l' ∧ (tok = .EOF → l0.chr = -1) ∧
      pos = { offset := l0.offset, line := (l0.linePrev.length : Int) + 1,
              column := (l0.offset : Int) - l0.lineLast } := by
  unfold scan at hs
  obtain ⟨l0, h1, hs⟩ := Out.bind_eq_ok.mp hs
  obtain ⟨⟨t, li, l1⟩, h2, hs⟩ := Out.bind_eq_ok.mp hs
  cases hs
  have hi0 := inv_skip h h1
  have hne : l0.chr ≠ 10 := by
    intro he; rw [he] at hi0; exact absurd hi0.2 (by decide)
  have ha := scanTok_adv hne h2
  refine ⟨l0, hi0.1, hi0.2, h2, inv_advE hi0.1 ha.1, ha.2, ?_⟩
  have hadv : ∀ {a b : Lexer}, Adv a b → b.lineLast = a.lineLast ∧ b.linePrev = a.linePrev := by
    intro a b hab
    induction hab with
    | refl => exact ⟨rfl, rfl⟩
    | @step l l' _ _ ih =>
      have : ∀ l : Lexer, l.next.lineLast = l.lineLast ∧ l.next.linePrev = l.linePrev := by
        intro l; unfold next; simp only []
        split
        · exact ⟨rfl, rfl⟩
        · split <;> exact ⟨rfl, rfl⟩
      exact ⟨ih.1.trans (this l).1, ih.2.trans (this l).2⟩
  obtain ⟨l2, h3, rfl | ⟨o, m, rfl⟩⟩ := ha.1
  · rw [(hadv h3).1, (hadv h3).2]
  · simp only [error]; rw [(hadv h3).1, (hadv h3).2]

omit [Unicode] in
theorem nl_not_mem_enc {c : Char} (h : c ≠ '\n') : (10 : UInt8) ∉ String.utf8EncodeChar c := by
  have hv : c.val.toNat = c.toNat := rfl
  have hr := char_range c
  have hn : c.toNat ≠ 10 := fun hh => h (char_toNat_inj hh)
  have key : ∀ {n : Nat}, (10 : UInt8) = UInt8.ofNat n → n % 256 = 10 := by
    intro n hn
    have := congrArg UInt8.toNat hn
    simpa using this.symm
  simp only [String.utf8EncodeChar, hv]
  split
  · intro hm; simp only [List.mem_singleton] at hm; have := key hm; omega
  split
  · intro hm; simp only [List.mem_cons, List.not_mem_nil, or_false] at hm
    rcases hm with hm | hm <;> (have := key hm; omega)
  split
  · intro hm; simp only [List.mem_cons, List.not_mem_nil, or_false] at hm
    rcases hm with hm | hm | hm <;> (have := key hm; omega)
  · intro hm; simp only [List.mem_cons, List.not_mem_nil, or_false] at hm
    rcases hm with hm | hm | hm | hm <;> (have := key hm; omega)

omit [Unicode] in
theorem count_enc (cs : List Char) : (enc cs).count 10 = cs.count '\n' := by
  induction cs with
  | nil => rfl
  | cons c cs ih =>
    rw [enc_cons, List.count_append, ih, List.count_cons]
    by_cases h : c = '\n'
    · subst h; simp [show String.utf8EncodeChar '\n' = [10] from rfl]; omega
    · rw [List.count_eq_zero.mpr (nl_not_mem_enc h)]
      simp [h]

omit [Unicode] in
theorem trail_enc (cs : List Char) :
    ((enc cs).reverse.takeWhile (· ≠ 10)).length = blen (trail cs) := by
  suffices h : ∀ cs : List Char, ((enc cs.reverse).reverse.takeWhile (· ≠ 10)).length =
      blen (trail cs.reverse) by simpa using h cs.reverse
  intro cs
  induction cs with
  | nil => rfl
  | cons c cs ih =>
    rw [List.reverse_cons, enc_append, List.reverse_append, trail_snoc]
    by_cases h : c = '\n'
    · subst h
      rw [if_pos rfl, show enc ['\n'] = [10] from rfl]
      simp [blen_nil]
    · rw [if_neg h, blen_append, ← ih]
      have hne := nl_not_mem_enc h
      have : enc [c] = String.utf8EncodeChar c := by simp [enc]
      rw [List.takeWhile_append_of_pos]
      · simp [blen, this]; omega
      · intro a ha
        rw [List.mem_reverse, this] at ha
        simp only [ne_eq, decide_not, Bool.not_eq_eq_eq_not, Bool.not_true, decide_eq_false_iff_not]
        rintro rfl; exact hne ha

omit [Unicode] in
/-- Line and column of a state. -/
theorem Inv.pos (h : Inv src cs bad l) : l.offset ≤ src.length ∧
    (l.linePrev.length : Int) + 1 = lineAt src l.offset ∧
    (l.offset : Int) - l.lineLast = colAt src l.offset := by
  obtain ⟨hd, b, pre, rest, hb, he, hl, hlo, hr, hcnt⟩ := h
  have hS : src ++ [32] = enc cs ++ bad := hd.eq
  -- everything follows from the text before the offset
  have fin : ∀ done : List Char, l.offset = blen done → blen done ≤ src.length →
      (src ++ [32]).take (blen done) = enc done → l.linePrev.length = done.count '\n' →
      l.lineLast = (blen done : Int) - 1 - blen (trail done) →
      l.offset ≤ src.length ∧ (l.linePrev.length : Int) + 1 = lineAt src l.offset ∧
      (l.offset : Int) - l.lineLast = colAt src l.offset := by
    intro done h1 h2 h3 h4 h5
    have h6 : src.take (blen done) = enc done := by
      rw [← h3, List.take_append_of_le_length h2]
    refine ⟨by omega, ?_, ?_⟩
    · rw [lineAt, h1, h6, count_enc, h4]; omega
    · rw [colAt, h1, h6, trail_enc, h5]; omega
  subst hl
  cases rest with
  | cons c r =>
    apply fin pre
    · rfl
    · have := congrArg List.length hS
      rw [he] at this
      have h1 := blen_single_pos c
      have h2 : (enc (pre ++ c :: r)).length = blen pre + (blen [c] + blen r) := by
        rw [← blen_cons, ← blen_append]; rfl
      simp only [List.length_append, h2, List.length_singleton] at this
      omega
    · rw [hS, he, enc_append, List.append_assoc, blen, List.take_left]
    · simpa using hlo.prev
    · simpa using hlo.last
  | nil =>
    by_cases hbad : bad = []
    · subst hbad
      obtain ⟨cs0, h0⟩ := hd.last rfl
      have hp : pre = cs0 ++ [' '] := by rw [← h0, he]; simp
      have h32 : blen [' '] = 1 := rfl
      have hsrc : src = enc cs0 := by
        rw [h0, enc_append, List.append_nil, enc_space] at hS
        exact List.append_cancel_right hS
      apply fin cs0
      · rw [at_offset_nil, hp, blen_append]; omega
      · rw [hsrc]; exact Nat.le_refl _
      · rw [hsrc, blen, List.take_left]
      · have := hlo.prev
        rw [hp, List.count_append] at this
        simpa using this
      · have := hlo.last
        rw [hp, trail_append_no_nl _ _ (by decide), blen_append, blen_append] at this
        rw [at_lineLast, this]; omega
    · have hp := hr hbad rfl
      subst hp
      apply fin []
      · simp [at_, hbad, blen_nil]
      · simp [blen_nil]
      · simp [blen_nil, enc_nil]
      · simpa using hlo.prev
      · simpa using hlo.last

theorem inv_scans {ts} (h : Inv src cs bad l) (hs : Scans l ts l') : Inv src cs bad l' := by
  induction hs with
  | nil => exact h
  | cons h1 _ ih =>
    obtain ⟨_, _, _, _, h2, _⟩ := inv_scan h h1
    exact ih h2

end Cddlc.Lexer
