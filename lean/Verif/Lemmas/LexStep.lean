import Verif.Lemmas.LexemeFacts

/-! One call of `scan` on a clean source. -/

namespace Cddlc

/-- The characters after the last newline. -/
def trail (cs : List Char) : List Char := (cs.reverse.takeWhile (· ≠ '\n')).reverse

theorem trail_nil : trail [] = [] := rfl
theorem trail_snoc (cs : List Char) (c : Char) :
    trail (cs ++ [c]) = if c = '\n' then [] else trail cs ++ [c] := by
  unfold trail
  rw [List.reverse_append, List.reverse_singleton, List.singleton_append, List.takeWhile_cons]
  by_cases h : c = '\n' <;> simp [h]

theorem trail_append_no_nl (cs w : List Char) (h : '\n' ∉ w) : trail (cs ++ w) = trail cs ++ w := by
  induction w generalizing cs with
  | nil => simp
  | cons c w ih =>
    have h1 : c ≠ '\n' := fun hh => h (by simp [hh])
    have h2 : '\n' ∉ w := fun hh => h (by simp [hh])
    rw [show cs ++ c :: w = (cs ++ [c]) ++ w by simp, ih _ h2, trail_snoc, if_neg h1]
    simp

theorem blen_trail_le (cs : List Char) : blen (trail cs) ≤ blen cs := by
  have : ∃ p, cs = p ++ trail cs := by
    refine ⟨(cs.reverse.dropWhile (· ≠ '\n')).reverse, ?_⟩
    unfold trail
    rw [← List.reverse_append, List.takeWhile_append_dropWhile, List.reverse_reverse]
  obtain ⟨p, hp⟩ := this
  have := congrArg blen hp
  rw [blen_append] at this
  omega

namespace Lexer
open Spec

/-- The line table is exact for the text read so far. -/
structure LinesOK (b : Lexer) (done : List Char) : Prop where
  prev : b.linePrev.length = done.count '\n'
  last : b.lineLast = (blen done : Int) - 1 - blen (trail done)

theorem linesOK_nil (src : Bytes) : LinesOK (init src) [] := ⟨rfl, rfl⟩

theorem linesOK_word {b : Lexer} {done w : List Char} (h : LinesOK b done) (hw : '\n' ∉ w) :
    LinesOK b (done ++ w) := by
  refine ⟨?_, ?_⟩
  · rw [h.prev, List.count_append, List.count_eq_zero.mpr hw]; rfl
  · rw [h.last, trail_append_no_nl _ _ hw, blen_append, blen_append]; omega

theorem linesOK_error {b : Lexer} {done : List Char} {o m} (h : LinesOK b done) :
    LinesOK (b.error o m) done := ⟨h.prev, h.last⟩

/-- The line table after the white space `w` read at offset `o`. -/
def nl (b : Lexer) (o : Nat) : List Char → Lexer
  | [] => b
  | c :: w => nl (if c = '\n' then b.addLineOffset o else b) (o + blen [c]) w

theorem addLineOffset_src (b : Lexer) (o : Int) : (b.addLineOffset o).src = b.src := by
  unfold addLineOffset; split <;> rfl

theorem nl_src (b : Lexer) (o : Nat) (w : List Char) : (nl b o w).src = b.src := by
  induction w generalizing b o with
  | nil => rfl
  | cons c w ih => rw [nl, ih]; split; exact addLineOffset_src b o; rfl

theorem nl_errors (b : Lexer) (o : Nat) (w : List Char) :
    (nl b o w).errors = b.errors ∧ (nl b o w).errCount = b.errCount := by
  induction w generalizing b o with
  | nil => exact ⟨rfl, rfl⟩
  | cons c w ih =>
    rw [nl]
    have := ih (if c = '\n' then b.addLineOffset o else b) (o + blen [c])
    rw [this.1, this.2]
    unfold addLineOffset
    constructor <;> repeat (first | rfl | split)

theorem nl_linesOK {b : Lexer} {done : List Char} (h : LinesOK b done) (w : List Char) :
    LinesOK (nl b (blen done) w) (done ++ w) := by
  induction w generalizing b done with
  | nil => simpa [nl] using h
  | cons c w ih =>
    have := ih (b := if c = '\n' then b.addLineOffset (blen done) else b) (done := done ++ [c]) ?_
    · rw [nl, ← blen_append]; simpa using this
    · split
      · rename_i hc; subst hc
        have hl := h.last
        have := blen_trail_le done
        unfold addLineOffset
        rw [if_neg (by omega)]
        refine ⟨by simp [h.prev, List.count_append], ?_⟩
        rw [trail_snoc, if_pos rfl, blen_append]
        simp only [blen_nil, show blen ['\n'] = 1 from rfl]; omega
      · rename_i hc
        exact linesOK_word h (by simpa using fun h' => hc h'.symm)

theorem nl_pad (b : Lexer) (o : Nat) (w : List Char) : nl b o (w ++ [' ']) = nl b o w := by
  induction w generalizing b o with
  | nil => rfl
  | cons c w ih => exact ih _ _

theorem at_addLineOffset (b : Lexer) (o : Int) (pre rest : List Char) (bad : Bytes) :
    (at_ b bad pre rest).addLineOffset o = at_ (b.addLineOffset o) bad pre rest := by
  unfold addLineOffset
  simp only [at_lineLast]
  split
  · rfl
  · unfold at_
    cases rest with
    | nil => simp only []; split <;> rfl
    | cons c r => rfl

theorem skip_clean {b : Lexer} {cs pre rest : List Char} (h : Dec b.src cs [])
    (e : cs = pre ++ rest) (n : Nat) (hn : rest.length + 1 ≤ n) :
    whileOut (fun l : Lexer => isSpace l.chr)
      (fun l => (if l.chr = 10 then l.addLineOffset l.offset else l).next) n (at_ b [] pre rest) =
      .ok (at_ (nl b (blen pre) (rest.takeWhile ws)) [] (pre ++ rest.takeWhile ws)
        (rest.dropWhile ws)) := by
  induction rest generalizing b pre n with
  | nil =>
    obtain ⟨m, rfl⟩ : ∃ m, n = m + 1 := ⟨n - 1, by simp at hn; omega⟩
    simp [whileOut, isSpace, nl]
  | cons c r ih =>
    obtain ⟨m, rfl⟩ : ∃ m, n = m + 1 := ⟨n - 1, by simp at hn; omega⟩
    by_cases hc : ws c = true
    · rw [whileOut, if_pos (show isSpace (at_ b [] pre (c :: r)).chr = true from
        (isSpace_char c).trans hc)]
      have hb : (if (at_ b [] pre (c :: r)).chr = 10 then
          (at_ b [] pre (c :: r)).addLineOffset (at_ b [] pre (c :: r)).offset
          else at_ b [] pre (c :: r)) =
          at_ (if c = '\n' then b.addLineOffset (blen pre) else b) [] pre (c :: r) := by
        have : (at_ b [] pre (c :: r)).chr = 10 ↔ c = '\n' := by
          rw [at_chr_cons, char_eq_iff]; show _ ↔ c.toNat = 10; omega
        by_cases h0 : c = '\n'
        · rw [if_pos (this.mpr h0), if_pos h0, at_addLineOffset]; rfl
        · rw [if_neg (fun h' => h0 (this.mp h')), if_neg h0]
      simp only [hb]
      have hd : Dec (if c = '\n' then b.addLineOffset (blen pre) else b).src cs [] := by
        split
        · rw [addLineOffset_src]; exact h
        · exact h
      rw [next_clean hd e, ih hd (by simp [e]) m (by simp at hn; omega)]
      simp [hc, nl, blen_append]
    · have hc : ws c = false := by simpa using hc
      rw [whileOut, if_neg]
      · simp [hc, nl]
      · show ¬ isSpace (at_ b [] pre (c :: r)).chr = true
        rw [at_chr_cons, isSpace_char, hc]; simp

/-- `l` has read `done` and has `r` before it; `b` holds its line table and errors. -/
structure At (l b : Lexer) (done r : List Char) : Prop where
  dec : Dec b.src (done ++ r ++ [' ']) []
  eq : l = at_ b [] done (r ++ [' ']) ∨ (r = [] ∧ l = at_ b [] (done ++ [' ']) [])

theorem At.offset {l b done r} (h : At l b done r) : l.offset = blen done := by
  rcases h.eq with e | ⟨_, e⟩
  · subst e; cases r <;> rfl
  · subst e
    rw [at_offset_nil, blen_append]
    have : blen [' '] = 1 := rfl
    omega

theorem At.errors {l b done r} (h : At l b done r) : l.errors = b.errors := by
  rcases h.eq with e | ⟨_, e⟩ <;> simp [e]
theorem At.errCount {l b done r} (h : At l b done r) : l.errCount = b.errCount := by
  rcases h.eq with e | ⟨_, e⟩ <;> simp [e]
theorem At.lineLast {l b done r} (h : At l b done r) : l.lineLast = b.lineLast := by
  rcases h.eq with e | ⟨_, e⟩ <;> simp [e]
theorem At.linePrev {l b done r} (h : At l b done r) : l.linePrev = b.linePrev := by
  rcases h.eq with e | ⟨_, e⟩ <;> simp [e]

/-- A `Reads` result in terms of `At`. -/
theorem Reads.at_ [Unicode] {o b done r x} (h : Reads o b (done ++ r ++ [' ']) done r (some x))
    (hd : Dec b.src (done ++ r ++ [' ']) []) :
    ∃ l', o = .ok (x.tok, x.lit, l') ∧
      At l' (if x.err then b.error (blen (done ++ r.take x.len)) unterminatedMsg else b)
        (done ++ r.take x.len) (r.drop x.len) := by
  obtain ⟨pre', rest', h1, h2, h3⟩ := h
  refine ⟨_, h1, ?_, ?_⟩
  · rw [show done ++ r.take x.len ++ r.drop x.len ++ [' '] = done ++ r ++ [' '] by
      rw [List.append_assoc done, List.take_append_drop]]
    split <;> exact hd
  · rcases h3 with h3 | ⟨h3, h4⟩
    · left
      have : pre' = done ++ r.take x.len := by
        rw [h3] at h2
        have h5 : (done ++ r.take x.len) ++ (r.drop x.len ++ [' ']) = pre' ++ (r.drop x.len ++ [' ']) := by
          rw [← h2]
          conv => rhs; rw [← List.take_append_drop x.len r]
          simp only [List.append_assoc]
        exact (List.append_cancel_right h5).symm
      rw [h3, this]
    · right
      refine ⟨h3, ?_⟩
      have : pre' = done ++ r.take x.len ++ [' '] := by
        rw [h4, List.append_nil] at h2
        rw [← h2]
        conv => lhs; rw [← List.take_append_drop x.len r, h3, List.append_nil]
      rw [h4, this]

/-- The position after the text `done`. -/
def posAfter (done : List Char) : Pos :=
  { offset := blen done, line := (done.count '\n' : Int) + 1, column := (blen (trail done) : Int) + 1 }

theorem lexeme_no_nl [Unicode] {r : List Char} {x : Lexeme} (h : lexeme (r.dropWhile ws) = some x) :
    '\n' ∉ (r.dropWhile ws).take x.len := by
  have hw := List.head?_dropWhile_not ws r
  cases hr : r.dropWhile ws with
  | nil => simp
  | cons c t =>
    rw [hr] at h hw
    refine (lexeme_facts ?_ h).noNl
    rintro rfl; exact absurd (show ws (Char.ofNat 10) = false from hw) (by decide)

/-- One call of `scan` on a clean source. -/
theorem scan_clean [Unicode] {l b done r} (h : At l b done r) (hl : LinesOK b done) :
    match lexeme (r.dropWhile ws) with
    | none => scan l = .panic .sliceBounds
    | some x =>
      ∃ l' b', scan l = .ok (x.tok, posAfter (done ++ r.takeWhile ws), x.lit, l') ∧
        At l' b' (done ++ r.takeWhile ws ++ (r.dropWhile ws).take x.len)
          ((r.dropWhile ws).drop x.len) ∧
        LinesOK b' (done ++ r.takeWhile ws ++ (r.dropWhile ws).take x.len) ∧
        b'.errors = b.errors ++ (if x.err then
          [⟨{ offset := blen (done ++ r.takeWhile ws ++ (r.dropWhile ws).take x.len) },
            unterminatedMsg⟩] else []) ∧
        b'.errCount = b.errCount + (if x.err then 1 else 0) := by
  -- white space
  have hsk : ∃ b1, l.skipWhitespace = .ok (match r.dropWhile ws with
        | [] => at_ b1 [] (done ++ r.takeWhile ws ++ [' ']) []
        | c :: t => at_ b1 [] (done ++ r.takeWhile ws) (c :: t ++ [' '])) ∧
      LinesOK b1 (done ++ r.takeWhile ws) ∧ b1.src = b.src ∧ b1.errors = b.errors ∧
      b1.errCount = b.errCount := by
    refine ⟨nl b (blen done) (r.takeWhile ws), ?_, nl_linesOK hl _, nl_src _ _ _, nl_errors _ _ _⟩
    rcases h.eq with e | ⟨hr, e⟩
    · subst e
      have e1 : done ++ r ++ [' '] = done ++ (r ++ [' ']) := by simp
      unfold skipWhitespace
      rw [skip_clean h.dec e1 _ (fuel_clean h.dec e1)]
      rcases pad_cases (p := ws) rfl r with ⟨h1, h2, h3, h4⟩ | ⟨h1, h2, h3⟩
      · rw [h1, h2, h3, h4, nl_pad, List.append_assoc]
      · rw [h2, h3]
        cases hx : r.dropWhile ws with
        | nil => exact absurd hx h1
        | cons c t => rfl
    · subst hr; subst e
      have e1 : done ++ [] ++ [' '] = (done ++ [' ']) ++ [] := by simp
      unfold skipWhitespace
      rw [skip_clean h.dec e1 _ (fuel_clean h.dec e1)]
      simp [nl]
  obtain ⟨b1, hs1, hl1, hsrc, herr, hcnt⟩ := hsk
  have hd1 : Dec b1.src (done ++ r.takeWhile ws ++ r.dropWhile ws ++ [' ']) [] := by
    rw [hsrc, List.append_assoc done, List.takeWhile_append_dropWhile]; exact h.dec
  -- the token
  have hnl : ∀ x, lexeme (r.dropWhile ws) = some x → '\n' ∉ (r.dropWhile ws).take x.len :=
    fun x hx => lexeme_no_nl hx
  generalize hg : r.takeWhile ws = g at *
  generalize hr' : r.dropWhile ws = r' at *
  -- what scan does once scanTok is known
  have hfin : ∀ l1 : Lexer, l.skipWhitespace = .ok l1 → l1.offset = blen (done ++ g) →
      ∀ x, Reads (scanTok l1) b1 (done ++ g ++ r' ++ [' ']) (done ++ g) r' (some x) →
      lexeme r' = some x →
      ∃ l' b', scan l = .ok (x.tok, posAfter (done ++ g), x.lit, l') ∧
        At l' b' (done ++ g ++ r'.take x.len) (r'.drop x.len) ∧
        LinesOK b' (done ++ g ++ r'.take x.len) ∧
        b'.errors = b.errors ++ (if x.err then
          [⟨{ offset := blen (done ++ g ++ r'.take x.len) }, unterminatedMsg⟩] else []) ∧
        b'.errCount = b.errCount + (if x.err then 1 else 0) := by
    intro l1 hl1' hoff x hx hlx
    obtain ⟨l', h1, h2⟩ := hx.at_ hd1
    have hlines : LinesOK (if x.err then b1.error (blen (done ++ g ++ r'.take x.len)) unterminatedMsg
        else b1) (done ++ g ++ r'.take x.len) := by
      have := linesOK_word hl1 (hnl x hlx)
      split
      · exact linesOK_error this
      · exact this
    refine ⟨l', _, ?_, h2, hlines, ?_, ?_⟩
    · unfold scan
      rw [hl1']
      simp only [Out.bind_ok, h1]
      have e1 : l'.lineLast = b1.lineLast := by
        rw [h2.lineLast]; split <;> rfl
      have e2 : l'.linePrev = b1.linePrev := by
        rw [h2.linePrev]; split <;> rfl
      rw [e1, e2, hoff, hl1.prev, hl1.last]
      unfold posAfter
      congr 4; omega
    · split
      · simp [error, herr]
      · simp [herr]
    · split
      · simp [error, hcnt]
      · simp [hcnt]
  cases r' with
  | nil =>
    show ∃ l' b', _
    have hx : lexeme [] = some ⟨.EOF, [], 0, false⟩ := rfl
    refine hfin _ hs1 ?_ ⟨.EOF, [], 0, false⟩ ?_ hx
    · rw [at_offset_nil, blen_append _ [' ']]
      have : blen [' '] = 1 := rfl
      omega
    · refine ⟨done ++ g ++ [' '], [], ?_, by simp, Or.inr ⟨rfl, rfl⟩⟩
      have : Dec b1.src (done ++ g ++ [' ']) [] := by simpa using hd1
      exact scanTok_eof this
  | cons c t =>
    have e1 : done ++ g ++ c :: t ++ [' '] = (done ++ g) ++ (c :: t ++ [' ']) := by simp
    have hR := scanTok_reads (b := b1) (pre := done ++ g) (c := c) (t := t) hd1 e1
    cases hx : lexeme (c :: t) with
    | none =>
      rw [hx] at hR
      show scan l = _
      unfold scan
      rw [hs1]
      simp only [Out.bind_ok]
      rw [show scanTok (at_ b1 [] (done ++ g) (c :: t ++ [' '])) = _ from hR]
      rfl
    | some x =>
      rw [hx] at hR
      exact hfin _ hs1 rfl x hR hx

end Lexer
end Cddlc
