import Verif.Props.Layout

/-! C105: to rename the identifiers of a source changes nothing but the names. -/

namespace Cddlc
variable [Unicode]
open Spec PState Lexer

/-- **C105**: if the tokens of two sources are the same up to a renaming of the identifiers, the second
is parsed to the renamed tree, with the renamed messages in the same order and the renamed bindings, or
fails in the same way. Layout may differ as in C78. -/
theorem C105_tokens (ρ : Bytes → Bytes) (hρ : Renaming ρ) (n : Nat) (src src' : Bytes) (env : Env)
    (h : ∀ k, RenamedToks ρ k 0 (Lexer.new src) 0 (Lexer.new src')) :
    RenamedOutcome ρ (parseSource n src env) (parseSource n src' (renameEnv ρ env)) :=
  S_source hρ n rfl h

/-- **C105**, in terms of the characters. -/
theorem C105_lexemes (ρ : Bytes → Bytes) (hρ : Renaming ρ) (n : Nat) (cs cs' : List Char) (hc : '�' ∉ cs)
    (hc' : '�' ∉ cs') (env : Env) (h : ∀ k, RenamedReading ρ k false cs cs') :
    RenamedOutcome ρ (parseSource n (enc cs) env) (parseSource n (enc cs') (renameEnv ρ env)) :=
  C105_tokens ρ hρ n _ _ env fun k => toks_reading k (Lexer.clean_new hc) (Lexer.clean_new hc')
    (by simp [clean_new_errors]) (h k) ⟨rfl, rfl⟩

/-! ### One identifier -/

omit [Unicode] in
theorem decInt_head (v : Int) : ∃ d ∈ (decInt v).head?, d = 45 ∨ (48 ≤ d.toNat ∧ d.toNat ≤ 57) := by
  have hn : ∀ n : Nat, ∃ d ∈ (decNat n).head?, 48 ≤ d.toNat ∧ d.toNat ≤ 57 := by
    intro n
    induction n using Nat.strongRecOn with
    | ind n ih =>
      by_cases h : n < 10
      · rw [decNat_small h]
        refine ⟨_, rfl, ?_⟩
        simp
        omega
      · rw [decNat_step (by omega)]
        obtain ⟨d, h1, h2⟩ := ih (n / 10) (by omega)
        refine ⟨d, ?_, h2⟩
        cases e : decNat (n / 10) with
        | nil => rw [e] at h1; simp at h1
        | cons a b => rw [e] at h1; simpa using h1
  cases v with
  | ofNat k =>
    obtain ⟨d, h1, h2⟩ := hn k
    exact ⟨d, h1, .inr h2⟩
  | negSucc k => exact ⟨45, rfl, .inl rfl⟩

omit [Unicode] in
theorem swap_ne {a b s : Bytes} (h1 : s ≠ a) (h2 : s ≠ b) : swapName a b s = s := by
  simp [swapName, h1, h2]

omit [Unicode] in
theorem swap_swap (a b s : Bytes) : swapName a b (swapName a b s) = s := by
  unfold swapName
  split
  · rename_i h
    split
    · rename_i h'; exact h'.trans h.symm
    · simp [h]
  · rename_i h
    split
    · rename_i h'; simp [h']
    · rfl

omit [Unicode] in
theorem idStart_head {w : List Char} (h : ∃ c ∈ w.head?, idStart c = true) :
    ∃ c r, w = c :: r ∧ enc w = UInt8.ofNat c.toNat :: enc r ∧ c.toNat < 128 ∧ idStart c = true := by
  obtain ⟨c, h1, h2⟩ := h
  cases w with
  | nil => simp at h1
  | cons a r =>
    simp at h1
    subst h1
    have hc : a.toNat < 128 := by
      simp only [idStart, alpha, Bool.or_eq_true, Bool.and_eq_true, decide_eq_true_eq] at h2
      rcases h2 with ((h | h) | h) | h
      · rcases h with ⟨h, h'⟩ | ⟨h, h'⟩ <;>
        · have := UInt32.le_iff_toNat_le.mp h'
          simp at this
          exact Nat.lt_of_le_of_lt this (by decide)
      all_goals subst h; decide
    exact ⟨a, r, rfl, (enc_cons_ascii a hc).mpr ⟨r, rfl, rfl⟩, hc, h2⟩

omit [Unicode] in
theorem word_not_key {w : List Char} (h : ∃ c ∈ w.head?, idStart c = true) (v : Int) : decInt v ≠ enc w := by
  intro he
  obtain ⟨c, r, _, h1, h2, h3⟩ := idStart_head h
  obtain ⟨d, h4, h5⟩ := decInt_head v
  rw [he, h1] at h4
  simp only [List.head?_cons, Option.mem_def, Option.some.injEq] at h4
  subst h4
  have hv : (UInt8.ofNat c.toNat).toNat = c.toNat := by simp; omega
  have hc : c.toNat = 45 ∨ 48 ≤ c.toNat ∧ c.toNat ≤ 57 := by
    rcases h5 with h5 | h5
    · left
      have := congrArg UInt8.toNat h5
      rw [hv] at this
      simpa using this
    · right; rwa [hv] at h5
  have hex : ∀ k, k < 128 → (k = 45 ∨ 48 ≤ k ∧ k ≤ 57) → idStart (Char.ofNat k) = false := by decide
  have := hex c.toNat h2 hc
  rw [Char.ofNat_toNat, h3] at this
  cases this

omit [Unicode] in
/-- To swap two identifiers, both sockets or neither, is a renaming. -/
theorem renaming_swap {w w' : List Char} (h : ∃ c ∈ w.head?, idStart c = true) (h' : ∃ c ∈ w'.head?, idStart c = true)
    (hs : w.head? = some '$' ↔ w'.head? = some '$') : Renaming (swapName (enc w) (enc w')) where
  inj a b hab := by rw [← swap_swap (enc w) (enc w') a, hab, swap_swap]
  socket a := by
    have e : ∀ r : List Char, (enc r).head? = some 36 ↔ r.head? = some '$' := fun r => enc_head_ascii '$' (by decide)
    unfold swapName
    split
    · rename_i ha; rw [ha, e, e]; exact hs.symm
    · split
      · rename_i ha; rw [ha, e, e]; exact hs
      · exact Iff.rfl
  empty a := by
    obtain ⟨_, _, _, h1, _⟩ := idStart_head h
    obtain ⟨_, _, _, h2, _⟩ := idStart_head h'
    unfold swapName
    split
    · rename_i ha; rw [ha, h1, h2]; simp
    · split
      · rename_i ha; rw [ha, h1, h2]; simp
      · exact Iff.rfl
  keys v := swap_ne (word_not_key h v) (word_not_key h' v)

/-- **C105**, one identifier: let `w` and `w'` be identifiers, both sockets or neither and neither a
reserved word, and let `w'` not occur in the text. If `w` is replaced by `w'` everywhere, what comes of
the text is the same with the name replaced. -/
theorem C105_rename_one (n : Nat) (w w' : List Char) (hw : (Piece.word w).WF) (hw' : (Piece.word w').WF)
    (hk : Spec.word w = .IDENT) (hk' : Spec.word w' = .IDENT) (hs : w.head? = some '$' ↔ w'.head? = some '$')
    (g : List Char) (hg : ∀ c ∈ g, ws c = true) (ps : List (Piece × List Char)) (hp : PiecesWF ps)
    (fresh : ∀ x ∈ ps, x.1 ≠ .word w') :
    RenamedOutcome (swapName (enc w) (enc w')) (parseSource n (enc (g ++ renderAll ps)))
      (parseSource n (enc (g ++ renderAll (ps.map fun x => (renamePiece w w' x.1, x.2))))) := by
  have hne : ∀ (t : List Char) (q : Piece), q.WF → (Piece.word t).WF → q.tok = .IDENT → enc q.lit = enc t →
      q = .word t := by
    intro t q hq ht htok he
    have he := enc_inj he
    obtain ⟨⟨c, hc, hc'⟩, _⟩ := ht
    cases q with
    | word x => exact congrArg _ he
    | ctl x =>
      subst he
      simp only [Piece.lit, Piece.render, List.head?_cons, Option.mem_def, Option.some.injEq] at hc
      subst hc
      exact absurd hc' (by decide)
    | op s t' =>
      exfalso
      simp only [Piece.tok] at htok
      subst htok
      exact absurd hq (by simp [Piece.WF, operators])
    | _ => simp [Piece.tok] at htok
  have key : ∀ ps : List (Piece × List Char), PiecesWF ps → (∀ x ∈ ps, x.1 ≠ .word w') →
      PiecesWF (ps.map fun x => (renamePiece w w' x.1, x.2)) ∧
      RenamedTexts (swapName (enc w) (enc w')) ps (ps.map fun x => (renamePiece w w' x.1, x.2)) := by
    intro ps
    induction ps with
    | nil => exact fun _ _ => ⟨trivial, trivial⟩
    | cons x ps ih =>
      obtain ⟨p, g⟩ := x
      rintro ⟨h1, h2, h3⟩ hf
      obtain ⟨i1, i2⟩ := ih h3 fun x hx => hf x (by simp [hx])
      have hpf : p ≠ .word w' := hf (p, g) (by simp)
      have hgap : ∀ q : Piece, (∀ b s, q ≠ .comment b s) → (q.Gap ps.isEmpty g ↔
          (∀ c ∈ g, ws c = true) ∧ (ps.isEmpty = false → g ≠ [])) := by
        intro q hq
        unfold Piece.Gap
        cases q <;> first | exact absurd rfl (hq _ _) | simp
      have hR : (renamePiece w w' p).WF ∧ (renamePiece w w' p).Gap ps.isEmpty g ∧ p.tok = (renamePiece w w' p).tok ∧
          renameLit (swapName (enc w) (enc w')) p.tok (enc p.lit) = enc (renamePiece w w' p).lit := by
        by_cases hpw : p = .word w
        · subst hpw
          refine ⟨by simpa [renamePiece] using hw', ?_, by simp [renamePiece, Piece.tok, hk, hk'], ?_⟩
          · simp only [renamePiece, if_true]
            exact (hgap _ (by simp)).mpr ((hgap _ (by simp)).mp h2)
          · simp [renameLit, renamePiece, Piece.tok, Piece.lit, Piece.render, hk, swapName]
        · have e : renamePiece w w' p = p := by
            cases p with
            | word x =>
              have : x ≠ w := fun h => hpw (by rw [h])
              simp [renamePiece, this]
            | _ => rfl
          rw [e]
          refine ⟨h1, h2, rfl, ?_⟩
          unfold renameLit
          split
          · rename_i ht
            exact swap_ne (fun h => hpw (hne w p h1 hw ht h)) (fun h => hpf (hne w' p h1 hw' ht h))
          · rfl
      obtain ⟨r1, r2, r3, r4⟩ := hR
      refine ⟨⟨r1, by simpa using r2, i1⟩, r3, r4, fun _ => Iff.rfl, i2⟩
  have hbad : ∀ {ps : List (Piece × List Char)}, PiecesWF ps → '�' ∉ g ++ renderAll ps := by
    intro ps hp
    rw [List.mem_append, not_or]
    exact ⟨fun hm => absurd (hg _ hm) (by decide), renderAll_no_bad hp⟩
  obtain ⟨k1, k2⟩ := key ps hp fresh
  exact C105_lexemes _ (renaming_swap hw.1 hw'.1 hs) n _ _ (hbad hp) (hbad k1) Env.new fun k =>
    renamed_pieces k false hg hg hp k1 k2 fun _ _ => Iff.rfl

/-- `point = [x: int, y: coord]` and `coord = max` with a comment: what `C105_rename_one` asks for
when `coord` becomes `axis`. -/
example :
    let ps : List (Piece × List Char) :=
      [(.word "point".toList, " ".toList), (.op "=" .ASSIGN, " ".toList), (.op "[" .LBRACK, " ".toList),
       (.word "x".toList, " ".toList), (.op ":" .COLON, " ".toList), (.word "int".toList, " ".toList),
       (.op "," .COMMA, " ".toList), (.word "y".toList, " ".toList), (.op ":" .COLON, " ".toList),
       (.word "coord".toList, " ".toList), (.op "]" .RBRACK, "\n".toList), (.word "coord".toList, " ".toList),
       (.op "=" .ASSIGN, " ".toList), (.word "max".toList, " ".toList), (.comment " coord".toList true, "\n".toList)]
    (Piece.word "coord".toList).WF ∧ (Piece.word "axis".toList).WF ∧ Spec.word "coord".toList = .IDENT ∧
      Spec.word "axis".toList = .IDENT ∧ ("coord".toList.head? = some '$' ↔ "axis".toList.head? = some '$') ∧
      PiecesWF ps ∧ (∀ x ∈ ps, x.1 ≠ .word "axis".toList) ∧
      renderAll (ps.map fun x => (renamePiece "coord".toList "axis".toList x.1, x.2)) =
        "point = [ x : int , y : axis ]\naxis = max ; coord\n".toList := by
  intro ps
  refine ⟨by decide, by decide, by decide, by decide, by decide, ?_, by decide, by decide⟩
  simp only [ps, PiecesWF, Piece.WF, Piece.Gap]
  repeat' constructor
  all_goals first | decide | simp

/-- The new name must not occur in the text: here two declarations would become one name. -/
example : let := asciiOnly
    ∀ ρ, ¬ RenamedOutcome ρ (parseSource 20 (b!"a = int\nb = int\n")) (parseSource 20 (b!"b = int\nb = int\n")) := by
  intro _ ρ
  obtain ⟨r, h1, h2⟩ := Out.of_check (o := parseSource 20 (b!"a = int\nb = int\n"))
    (f := fun r => r.errs.length == 0) (by decide_cbv)
  obtain ⟨r', h1', h2'⟩ := Out.of_check (o := parseSource 20 (b!"b = int\nb = int\n"))
    (f := fun r => r.errs.length == 1) (by decide_cbv)
  rw [h1, h1']
  intro h
  have := congrArg List.length h.messages
  simp only [beq_iff_eq] at h2 h2'
  simp only [List.length_map, h2, h2'] at this
  cases this

end Cddlc
