import Verif.Lemmas.PrefixLex
import Verif.Lemmas.Rename

/-! A line break at the end of the text has no effect. -/

namespace Cddlc
open Spec Lexer

variable [Unicode]

theorem number_end {c : Char} (t : List Char) : number (c :: t) = number (c :: t ++ ['\n']) := by
  have dec : ∀ num : List Char, num.length ≤ (c :: t).length →
      isFloat num ((c :: t).drop num.length) = isFloat num ((c :: t ++ ['\n']).drop num.length) := by
    intro num hn
    rw [List.drop_append_of_le_length hn]
    generalize (c :: t).drop num.length = u
    unfold isFloat
    rcases u with _ | ⟨x, _ | ⟨y, u⟩⟩
    · rfl
    · rfl
    · rfl
  have hn : numChars (c :: t) = numChars (c :: t ++ ['\n']) := (numChars_stop (.inl rfl) _ _).symm
  have hd := dec (numChars (c :: t)) (numChars_len _)
  cases t with
  | nil =>
    unfold number
    split
    · rename_i h; simp at h
    · rename_i h; simp at h
    · rename_i h; simp at h
    · split
      · rename_i h; simp at h
      · rename_i h; simp at h
      · rename_i h; simp at h
      · dsimp only
        rw [hd, hn]
  | cons d t =>
    by_cases hx : c = '0' ∧ d = 'x'
    · obtain ⟨rfl, rfl⟩ := hx
      simp only [number, List.cons_append, takeWhile_stop (show Spec.hexDigit '\n' = false by decide)]
      rfl
    by_cases hb : c = '0' ∧ d = 'b'
    · obtain ⟨rfl, rfl⟩ := hb
      simp only [number, List.cons_append, takeWhile_stop (show binDigit '\n' = false by decide)]
      rfl
    by_cases ho : c = '0' ∧ d = 'o'
    · obtain ⟨rfl, rfl⟩ := ho
      simp only [number, List.cons_append, takeWhile_stop (show octDigit '\n' = false by decide)]
      rfl
    have key : ∀ r, number (c :: d :: r) =
        ⟨if isFloat (numChars (c :: d :: r)) ((c :: d :: r).drop (numChars (c :: d :: r)).length) then .FLOAT else .INT,
          enc (numChars (c :: d :: r)), (numChars (c :: d :: r)).length, false⟩ := by
      intro r
      unfold number
      split
      · rename_i h; simp only [List.cons.injEq] at h; exact absurd ⟨h.1, h.2.1⟩ hx
      · rename_i h; simp only [List.cons.injEq] at h; exact absurd ⟨h.1, h.2.1⟩ hb
      · rename_i h; simp only [List.cons.injEq] at h; exact absurd ⟨h.1, h.2.1⟩ ho
      · rfl
    simp only [List.cons_append] at hd hn ⊢
    rw [key, key, hd, hn]

omit [Unicode] in
theorem string_end (t : List Char) : string t = string (t ++ ['\n']) := by
  unfold string
  have ht := takeWhile_stop (p := fun c => decide (c ≠ '"') && decide (c ≠ '\n')) (x := '\n') (by decide) t []
  dsimp only at ht ⊢
  rw [ht]
  have hl : (t.takeWhile fun c => decide (c ≠ '"') && decide (c ≠ '\n')).length ≤ t.length := (List.takeWhile_prefix _).length_le
  rw [List.drop_append_of_le_length hl]
  have hh : ∀ u : List Char, u.head? = some '"' ↔ (u ++ ['\n']).head? = some '"' := by intro u; cases u <;> simp
  simp only [hh (t.drop _)]

theorem lexeme_end {c : Char} (t : List Char) : lexeme (c :: t) = lexeme (c :: t ++ ['\n']) := by
  unfold lexeme
  simp only [List.cons_append]
  have h1 : ∀ x, x ≠ '\n' → (t.head? = some x ↔ (t ++ ['\n']).head? = some x) := by
    intro x hx
    cases t <;> simp [Ne.symm hx]
  have h2 : ∀ x y, x ≠ '\n' → y ≠ '\n' → (t.take 2 = [x, y] ↔ (t ++ ['\n']).take 2 = [x, y]) := by
    intro x y hx hy
    rcases t with _ | ⟨u, _ | ⟨v, t⟩⟩
    · simp
    · simp [Ne.symm hy]
    · simp
  have h3 : (∃ d ∈ t.head?, uniIsLetter (d.toNat : Int) = true) ↔
      (∃ d ∈ (t ++ ['\n']).head?, uniIsLetter (d.toNat : Int) = true) := by
    cases t with
    | nil =>
      have : ¬ uniIsLetter (('\n').toNat : Int) = true := by
        show ¬ uniIsLetter (10 : Int) = true
        simp [uniIsLetter]
      simpa using this
    | cons => simp
  have w1 : (c :: (t ++ ['\n'])).takeWhile idBody = (c :: t).takeWhile idBody :=
    takeWhile_stop (p := idBody) (by decide) (c :: t) []
  have w2 : (t ++ ['\n']).takeWhile (fun x => decide (x ≠ '\n')) = t.takeWhile (fun x => decide (x ≠ '\n')) :=
    takeWhile_stop (by decide) t []
  have w3 : (t ++ ['\n']).takeWhile alpha = t.takeWhile alpha := takeWhile_stop (by decide) t []
  have n1 : number (c :: t) = number (c :: (t ++ ['\n'])) := number_end t
  simp only [← h1 '>' (by decide), ← h1 '=' (by decide), ← h1 '/' (by decide), ← h1 '.' (by decide),
    ← h2 '/' '=' (by decide) (by decide), ← h2 '.' '.' (by decide) (by decide), ← h3, w1, w2, w3, ← n1, ← string_end t]

/-- A line break at the end, and white space behind it, makes no difference to the lexemes. -/
theorem reading_nl (k : Nat) (r : List Char) {g : List Char} (hg : ∀ c ∈ g, ws c = true) (after : Bool) :
    RenamedReading id k after r (r ++ '\n' :: g) := by
  induction k generalizing r after with
  | zero => trivial
  | succ k ih =>
    unfold RenamedReading
    cases hd : r.dropWhile ws with
    | nil =>
      have hall : ∀ x : List Char, (∀ c ∈ x, ws c = true) → x.dropWhile ws = [] := by
        intro x hx
        induction x with
        | nil => rfl
        | cons a x ih => rw [List.dropWhile_cons_of_pos (hx a (by simp)), ih fun c hc => hx c (by simp [hc])]
      have : (r ++ '\n' :: g).dropWhile ws = [] := by
        rw [List.dropWhile_append, hd]
        exact hall _ fun c hc => (List.mem_cons.mp hc).elim (fun h => h ▸ by decide) (hg c)
      rw [this]
      refine ⟨rfl, rfl, rfl, fun _ h => (by cases h), ?_⟩
      have h0 : ∀ k after, RenamedReading id k after [] [] := by
        intro k
        induction k with
        | zero => exact fun _ => trivial
        | succ k ih => exact fun _ => ⟨rfl, rfl, rfl, fun _ h => (by cases h), ih _⟩
      exact h0 k true
    | cons c u =>
      have hw : (r ++ '\n' :: g).takeWhile ws = r.takeWhile ws := by
        have hlen := congrArg List.length (List.takeWhile_append_dropWhile (p := ws) (l := r))
        rw [hd] at hlen
        rw [List.takeWhile_append, if_neg (by simp at hlen; omega)]
      have hdd : (r ++ '\n' :: g).dropWhile ws = c :: u ++ '\n' :: g := by
        rw [List.dropWhile_append, hd]
        rfl
      rw [hdd, lexeme_stop u g [], ← lexeme_end u, hw]
      cases hx : lexeme (c :: u) with
      | none => trivial
      | some x =>
        have hx' := hx
        rw [← hd] at hx'
        have hlen : x.len ≤ (c :: u).length := by
          have hx2 : lexeme ((r ++ '\n' :: g).dropWhile ws) = some x := by rw [hdd, lexeme_stop u g [], ← lexeme_end u, hx]
          have hn := lexeme_no_nl hx2
          rw [hdd] at hn
          refine Decidable.byContradiction fun hgt => hn ?_
          rw [List.take_append]
          refine List.mem_append_right _ ?_
          obtain ⟨k, hk⟩ : ∃ k, x.len - (c :: u).length = k + 1 := ⟨x.len - (c :: u).length - 1, by omega⟩
          rw [hk]
          simp
        refine ⟨rfl, by simp [renameLit], rfl, fun _ _ => Iff.rfl, ?_⟩
        rw [List.drop_append_of_le_length hlen]
        exact ih _ _

/-- What comes of a text does not depend on a line break at its end. -/
theorem source_end (n : Nat) {cs g : List Char} (h : '�' ∉ cs) (hg : ∀ c ∈ g, ws c = true) {env env' : Env}
    (he : noPosEnv env = noPosEnv env') :
    RenamedOutcome id (parseSource n (enc cs) env) (parseSource n (enc (cs ++ '\n' :: g)) env') := by
  have hb : '�' ∉ cs ++ '\n' :: g := by
    simp only [List.mem_append, List.mem_cons, not_or]
    exact ⟨h, by decide, fun hm => absurd (hg _ hm) (by decide)⟩
  refine S_source renaming_id n (by rw [renameEnv_id]; exact he) fun k => ?_
  exact toks_reading k (clean_new h) (clean_new hb) (by simp [clean_new_errors]) (reading_nl k cs hg false) ⟨rfl, rfl⟩

end Cddlc
