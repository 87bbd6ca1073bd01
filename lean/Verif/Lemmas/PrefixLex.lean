import Verif.Lemmas.LexRaw

/-! Text behind the end of a line has no effect on the tokens of the lines before. -/

namespace Cddlc
open Spec Lexer

theorem takeWhile_stop {p : Char → Bool} {x : Char} (h : p x = false) (t b : List Char) :
    (t ++ x :: b).takeWhile p = t.takeWhile p := by
  induction t with
  | nil => simp [h]
  | cons c t ih => simp only [List.cons_append, List.takeWhile_cons, ih]

theorem head_stop {p : Option Char → Prop} (t b b' : List Char) {x : Char} :
    p ((t ++ x :: b).head?) ↔ p ((t ++ x :: b').head?) := by
  cases t <;> rfl

variable [Unicode]

theorem numChars_stop {z : Char} (hz : z = '\n' ∨ z = '"') (t b : List Char) : numChars (t ++ z :: b) = numChars t := by
  induction t with
  | nil =>
    rw [List.nil_append, numChars, numChars, if_neg (by
      rcases hz with rfl | rfl
      · show ¬ uniIsDigit (10 : Int) = true; simp [uniIsDigit]
      · show ¬ uniIsDigit (34 : Int) = true; simp [uniIsDigit]), if_neg (by rcases hz with rfl | rfl <;> simp)]
  | cons c t ih =>
    rw [List.cons_append, numChars, numChars, ih]
    have : (∃ d ∈ (t ++ z :: b).head?, digit d = true) ↔ (∃ d ∈ t.head?, digit d = true) := by
      cases t with
      | nil => rcases hz with rfl | rfl <;> simp [show digit '\n' = false by decide, show digit '"' = false by decide]
      | cons => simp
    simp only [this]

theorem numChars_len (t : List Char) : (numChars t).length ≤ t.length := by
  induction t with
  | nil => simp [numChars]
  | cons c t ih =>
    rw [numChars]
    split
    · simp; omega
    · split
      · simp; omega
      · simp

theorem number_stop {c z : Char} (hz : z = '\n' ∨ z = '"') (t b b' : List Char) :
    number (c :: t ++ z :: b) = number (c :: t ++ z :: b') := by
  have dec : ∀ num : List Char, num.length ≤ (c :: t).length →
      isFloat num ((c :: t ++ z :: b).drop num.length) = isFloat num ((c :: t ++ z :: b').drop num.length) := by
    intro num hn
    rw [List.drop_append_of_le_length hn, List.drop_append_of_le_length hn]
    generalize (c :: t).drop num.length = u
    unfold isFloat
    rcases u with _ | ⟨x, _ | ⟨y, u⟩⟩
    · rcases hz with rfl | rfl <;> rfl
    · rfl
    · rfl
  have hn : numChars (c :: t ++ z :: b) = numChars (c :: t ++ z :: b') := by rw [numChars_stop hz, numChars_stop hz]
  have hd := dec (numChars (c :: t ++ z :: b)) (by rw [numChars_stop hz]; exact numChars_len _)
  cases t with
  | nil =>
    have hzx : z ≠ 'x' ∧ z ≠ 'b' ∧ z ≠ 'o' := by rcases hz with rfl | rfl <;> decide
    unfold number
    split
    · rename_i h; simp [hzx] at h
    · rename_i h; simp [hzx] at h
    · rename_i h; simp [hzx] at h
    · split
      · rename_i h; simp [hzx] at h
      · rename_i h; simp [hzx] at h
      · rename_i h; simp [hzx] at h
      · dsimp only
        rw [hd, hn]
  | cons d t =>
    by_cases hx : c = '0' ∧ d = 'x'
    · obtain ⟨rfl, rfl⟩ := hx
      simp only [number, List.cons_append, takeWhile_stop (show hexDigit z = false by rcases hz with rfl | rfl <;> decide)]
      rfl
    by_cases hb : c = '0' ∧ d = 'b'
    · obtain ⟨rfl, rfl⟩ := hb
      simp only [number, List.cons_append, takeWhile_stop (show binDigit z = false by rcases hz with rfl | rfl <;> decide)]
      rfl
    by_cases ho : c = '0' ∧ d = 'o'
    · obtain ⟨rfl, rfl⟩ := ho
      simp only [number, List.cons_append, takeWhile_stop (show octDigit z = false by rcases hz with rfl | rfl <;> decide)]
      rfl
    have key : ∀ r, number (c :: d :: r) =
        ⟨if isFloat (numChars (c :: d :: r)) ((c :: d :: r).drop (numChars (c :: d :: r)).length) then .FLOAT else .INT,
          enc (numChars (c :: d :: r)), (numChars (c :: d :: r)).length, false⟩ := by
      intro r
      unfold number
      split
      · rename_i h; simp only [List.cons.injEq] at h; exact absurd ⟨h.1, h.2.1⟩ hx
      · rename_i h; simp only [List.cons.injEq] at h; exact absurd ⟨h.1, h.2.1⟩ hb
      · rename_i h; simp only [List.cons.injEq] at h; exact absurd ⟨h.1, h.2.1⟩ ho
      · rfl
    simp only [List.cons_append] at hd hn ⊢
    rw [key, key, hd, hn]

omit [Unicode] in
theorem string_stop (t b b' : List Char) : string (t ++ '\n' :: b) = string (t ++ '\n' :: b') := by
  unfold string
  have ht := takeWhile_stop (p := fun c => decide (c ≠ '"') && decide (c ≠ '\n')) (x := '\n') (by decide) t
  dsimp only at ht ⊢
  rw [ht, ht]
  have hl : (t.takeWhile fun c => decide (c ≠ '"') && decide (c ≠ '\n')).length ≤ t.length := (List.takeWhile_prefix _).length_le
  rw [List.drop_append_of_le_length hl, List.drop_append_of_le_length hl]
  have hh : ∀ u : List Char, (u ++ '\n' :: b).head? = (u ++ '\n' :: b').head? := by intro u; cases u <;> rfl
  rw [hh]

theorem lexeme_stop {c : Char} (t b b' : List Char) :
    lexeme (c :: t ++ '\n' :: b) = lexeme (c :: t ++ '\n' :: b') := by
  unfold lexeme
  simp only [List.cons_append]
  have h1 : ∀ x, (t ++ '\n' :: b).head? = some x ↔ (t ++ '\n' :: b').head? = some x := fun x =>
    head_stop (p := fun o => o = some x) t b b'
  have h2 : ∀ x y, x ≠ '\n' → y ≠ '\n' → ((t ++ '\n' :: b).take 2 = [x, y] ↔ (t ++ '\n' :: b').take 2 = [x, y]) := by
    intro x y hx hy
    rcases t with _ | ⟨u, _ | ⟨v, t⟩⟩
    · simp [Ne.symm hx]
    · simp
    · simp
  have h3 : (∃ d ∈ (t ++ '\n' :: b).head?, uniIsLetter (d.toNat : Int) = true) ↔
      (∃ d ∈ (t ++ '\n' :: b').head?, uniIsLetter (d.toNat : Int) = true) :=
    head_stop (p := fun o => ∃ d ∈ o, uniIsLetter (d.toNat : Int) = true) t b b'
  have w1 : ∀ b, (c :: (t ++ '\n' :: b)).takeWhile idBody = (c :: t).takeWhile idBody := fun b =>
    takeWhile_stop (p := idBody) (by decide) (c :: t) b
  have w2 : ∀ b, (t ++ '\n' :: b).takeWhile (fun x => decide (x ≠ '\n')) = t.takeWhile (fun x => decide (x ≠ '\n')) :=
    fun b => takeWhile_stop (by decide) t b
  have w3 : ∀ b, (t ++ '\n' :: b).takeWhile alpha = t.takeWhile alpha := fun b => takeWhile_stop (by decide) t b
  have n1 : number (c :: (t ++ '\n' :: b)) = number (c :: (t ++ '\n' :: b')) := number_stop (.inl rfl) t b b'
  simp only [h1, h2 '/' '=' (by decide) (by decide), h2 '.' '.' (by decide) (by decide), h3, w1, w2, w3, n1,
    string_stop t b b']

theorem offsets_ge {cs : List Char} {l l' : Lexer} {ts : List Token} {done r : List Char}
    (hs : Scans l ts l') (h : Lexer.Clean cs l done r) : ∀ t ∈ ts, blen done ≤ t.pos.offset := by
  induction hs generalizing done r with
  | nil => simp
  | cons h1 _ ih =>
    obtain ⟨x, _, _, _, hp, h2, _⟩ := clean_scan_ok h h1
    intro t ht
    rcases List.mem_cons.mp ht with rfl | ht
    · dsimp only
      rw [hp]
      simp only [posAfter, blen_append]
      omega
    · have := ih h2 t ht
      simp only [blen_append] at this
      omega

/-- One token that begins before the end of the line. -/
theorem scan_line {cs cs' b b' done t : List Char} {l l' l1 : Lexer} {tok pos lit}
    (hs : l.scan = .ok (tok, pos, lit, l1)) (h : Lexer.Clean cs l done (t ++ '\n' :: b))
    (h' : Lexer.Clean cs' l' done (t ++ '\n' :: b')) :
    (∃ done1 r1, Lexer.Clean cs l1 done1 r1 ∧ blen (done ++ t) ≤ pos.offset ∧ blen (done ++ t) ≤ blen done1) ∨
    ∃ l1' done1 t1, l'.scan = .ok (tok, pos, lit, l1') ∧ done1 ++ t1 = done ++ t ∧
      Lexer.Clean cs l1 done1 (t1 ++ '\n' :: b) ∧ Lexer.Clean cs' l1' done1 (t1 ++ '\n' :: b') := by
  obtain ⟨x, hx, ht, hl, hp, hc, _⟩ := clean_scan_ok h hs
  cases hd : t.dropWhile ws with
  | nil =>
    left
    refine ⟨_, _, hc, ?_⟩
    have hle : blen t ≤ blen ((t ++ '\n' :: b).takeWhile ws) := by
      have : t.takeWhile ws = t := by
        have := List.takeWhile_append_dropWhile (p := ws) (l := t)
        rw [hd, List.append_nil] at this
        exact this
      rw [List.takeWhile_append, if_pos (by rw [this]), blen_append]
      omega
    rw [hp]
    simp only [posAfter, blen_append] at hle ⊢
    omega
  | cons c u =>
    right
    have hw : ∀ b, (t ++ '\n' :: b).takeWhile ws = t.takeWhile ws := by
      intro b
      have hlen := congrArg List.length (List.takeWhile_append_dropWhile (p := ws) (l := t))
      rw [hd] at hlen
      rw [List.takeWhile_append, if_neg (by simp at hlen; omega)]
    have hdd : ∀ b, (t ++ '\n' :: b).dropWhile ws = c :: u ++ '\n' :: b := by
      intro b
      rw [List.dropWhile_append, hd]
      rfl
    have hx' : lexeme ((t ++ '\n' :: b').dropWhile ws) = some x := by
      rw [hdd, ← lexeme_stop u b b', ← hdd, hx]
    have hlen : x.len ≤ (c :: u).length := by
      have hn := lexeme_no_nl hx
      rw [hdd] at hn
      refine Decidable.byContradiction fun hgt => hn ?_
      rw [List.take_append]
      refine List.mem_append_right _ ?_
      obtain ⟨k, hk⟩ : ∃ k, x.len - (c :: u).length = k + 1 := ⟨x.len - (c :: u).length - 1, by omega⟩
      rw [hk]
      simp
    have hsc := clean_scan h'
    rw [hx'] at hsc
    obtain ⟨l1', hs', hc', _⟩ := hsc
    rw [hw, hdd, List.take_append_of_le_length hlen, List.drop_append_of_le_length hlen] at hc hc'
    refine ⟨l1', _, (c :: u).drop x.len, ?_, ?_, hc, hc'⟩
    · rw [hs', ht, hl, hp, hw, hw]
    · rw [List.append_assoc, List.append_assoc, List.take_append_drop, ← hd, List.takeWhile_append_dropWhile]

theorem scans_common_lines {cs cs' : List Char} {b b' : List Char} {ts : List Token} {x : Token} {m : Lexer} :
    ∀ {l l' : Lexer} {done t : List Char}, Scans l (ts ++ [x]) m → Lexer.Clean cs l done (t ++ '\n' :: b) →
      Lexer.Clean cs' l' done (t ++ '\n' :: b') → x.pos.offset < blen (done ++ t) →
      ∃ m', Scans l' (ts ++ [x]) m' := by
  induction ts with
  | nil =>
    intro l l' done t hs h h' hx
    cases hs with
    | cons h1 _ =>
      rcases scan_line h1 h h' with ⟨_, _, _, h2, _⟩ | ⟨l1', _, _, h2, _⟩
      · dsimp only at hx; omega
      · exact ⟨l1', .cons h2 (.nil _)⟩
  | cons y ts ih =>
    intro l l' done t hs h h' hx
    cases hs with
    | cons h1 hs =>
      rcases scan_line h1 h h' with ⟨done1, r1, h2, _, h3⟩ | ⟨l1', done1, t1, h2, h3, h4, h5⟩
      · have := offsets_ge hs h2 x (by simp)
        omega
      · obtain ⟨m', hm⟩ := ih hs h4 h5 (by rw [h3]; exact hx)
        exact ⟨m', .cons h2 hm⟩

end Cddlc
