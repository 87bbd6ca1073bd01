import Verif.Lemmas.LayoutParse
import Verif.Lemmas.RunFile
import Verif.Lemmas.LexErr
import Verif.Lemmas.JsonPrint

/-! Texts of which one is the other laid out anew and renamed. -/

namespace Cddlc
variable [Unicode] {ρ : Bytes → Bytes}
open Spec PState Lexer

/-! ### The renaming that changes nothing -/

omit [Unicode] in
theorem renaming_id : Renaming id := ⟨fun _ _ h => h, fun _ => Iff.rfl, fun _ => Iff.rfl, fun _ => rfl⟩

mutual
theorem rename_id : (x : Node) → rename id x = x
  | .nil | .typedNil _ | .boolType .. | .boolLit .. | .bstr .. | .bytes .. | .comment .. | .floatType ..
  | .floatLit .. | .ident .. | .intType .. | .nintType .. | .intLit .. | .null .. | .textLit .. | .tstr .. | .uintType ..
  | .uintLit .. | .commentGroup .. => by simp only [rename, id]
  | .badNode _ _ x _ => by simp only [rename, rename_id x]
  | .array _ rs => by simp only [rename, renameL_id rs]
  | .cddl _ rs => by simp only [rename, renameL_id rs]
  | .group _ rs => by simp only [rename, renameL_id rs]
  | .map _ rs => by simp only [rename, renameL_id rs]
  | .bits _ _ x y => by simp only [rename, rename_id x, rename_id y]
  | .comparator _ _ _ x y => by simp only [rename, rename_id x, rename_id y]
  | .regexp _ _ _ x => by simp only [rename, rename_id x]
  | .size _ _ x y => by simp only [rename, rename_id x, rename_id y]
  | .entry _ _ x _ => by simp only [rename, rename_id x, id]
  | .enumeration _ _ x => by simp only [rename, rename_id x]
  | .groupChoice _ _ x y => by simp only [rename, rename_id x, rename_id y]
  | .optional _ _ x => by simp only [rename, rename_id x]
  | .nm _ _ _ _ x => by simp only [rename, rename_id x]
  | .range _ _ x y => by simp only [rename, rename_id x, rename_id y]
  | .rule _ _ x _ => by simp only [rename, rename_id x, id]
  | .tag _ _ _ _ x => by simp only [rename, rename_id x]
  | .typeChoice _ _ x y => by simp only [rename, rename_id x, rename_id y]
  | .unwrap _ _ x => by simp only [rename, rename_id x]
theorem renameL_id : (xs : List Node) → renameL id xs = xs
  | [] => rfl
  | x :: xs => by rw [renameL, rename_id x, renameL_id xs]
end

theorem renameMsg_id (m : Msg) : renameMsg id m = m := by cases m <;> rfl

theorem renameEnv_id (e : Env) : renameEnv id e = e := by
  simp only [renameEnv, rename_id, id, List.map_id']

theorem renameLit_id (t : Tok) (s : Bytes) : renameLit id t s = s := by
  simp [renameLit]

theorem renamed_id {o o' : Out FileResult} (h : RenamedOutcome id o o') : SameOutcome o o' := by
  cases o <;> cases o' <;> first | exact h.elim | exact h | skip
  obtain ⟨h1, h2, h3⟩ := h
  simp only [renameL_id, renameMsg_id, renameEnv_id] at h1 h2 h3
  exact ⟨h1, h2, h3⟩

theorem toks_id (k : Nat) {a b : Int} {l m : Lexer} : RenamedToks id k a l b m ↔ Alike k a l b m := by
  induction k generalizing a b l m with
  | zero => exact Iff.rfl
  | succ k ih =>
    simp only [RenamedToks, Alike, renameLit_id, ih]
    cases l.scan <;> cases m.scan <;> exact Iff.rfl

theorem reading_id (k : Nat) {after : Bool} {r r' : List Char} :
    RenamedReading id k after r r' ↔ SameReading k after r r' := by
  induction k generalizing after r r' with
  | zero => exact Iff.rfl
  | succ k ih =>
    simp only [RenamedReading, SameReading, renameLit_id, ih]
    cases lexeme (r.dropWhile ws) <;> cases lexeme (r'.dropWhile ws) <;> exact Iff.rfl

theorem texts_id : {ps qs : List (Piece × List Char)} → SameTexts ps qs → RenamedTexts id ps qs
  | [], [], _ => trivial
  | _ :: _, _ :: _, h => by
    obtain ⟨h1, h2, h3⟩ := h
    exact ⟨congrArg _ h1, by simp only [renameLit_id, h1], h2, texts_id h3⟩

/-! ### The tokens of two texts -/

theorem clean_new_errors (src : Bytes) : (Lexer.new src).errors = [] := by
  unfold Lexer.new Lexer.next
  simp only []
  split
  · rfl
  · split <;> rfl

theorem toks_reading (k : Nat) {cs cs' done done' r r' : List Char} {l m : Lexer} {a b : Int} {after : Bool}
    (hl : Lexer.Clean cs l done r) (hm : Lexer.Clean cs' m done' r') (he : l.errors = [] ↔ m.errors = [])
    (hr : RenamedReading ρ k after r r')
    (ha : if after then a = (posAfter done).line ∧ b = (posAfter done').line else a = 0 ∧ b = 0) :
    RenamedToks ρ k a l b m := by
  induction k generalizing done done' r r' l m a b after with
  | zero => trivial
  | succ k ih =>
    have h1 := clean_scan hl
    have h2 := clean_scan hm
    unfold RenamedReading at hr
    unfold RenamedToks
    cases e1 : lexeme (r.dropWhile ws) with
    | none =>
      cases e2 : lexeme (r'.dropWhile ws) with
      | none => rw [e1] at h1; rw [e2] at h2; rw [h1, h2]
      | some y => rw [e1, e2] at hr; exact hr.elim
    | some x =>
      cases e2 : lexeme (r'.dropWhile ws) with
      | none => rw [e1, e2] at hr; exact hr.elim
      | some y =>
        have n1 := lexeme_no_nl e1
        have n2 := lexeme_no_nl e2
        rw [e1, e2] at hr
        rw [e1] at h1
        rw [e2] at h2
        obtain ⟨l', h1, c1, d1⟩ := h1
        obtain ⟨m', h2, c2, d2⟩ := h2
        obtain ⟨r1, r2, r3, r4, r5⟩ := hr
        rw [h1, h2]
        have he' : l'.errors = [] ↔ m'.errors = [] := by
          rw [d1, d2, r3]
          simp only [List.append_eq_nil_iff, he]
          split <;> simp
        refine ⟨r1, r2, ?_, he', ih c1 c2 he' r5 ?_⟩
        · intro hc
          have hline : ∀ (d g : List Char), (posAfter d).line = (posAfter (d ++ g)).line ↔ '\n' ∉ g := by
            intro d g
            simp only [posAfter, List.count_append]
            rw [← List.count_eq_zero]
            omega
          cases after with
          | true =>
            obtain ⟨rfl, rfl⟩ := ha
            rw [hline, hline]
            exact not_congr (r4 rfl hc)
          | false =>
            obtain ⟨rfl, rfl⟩ := ha
            simp only [posAfter]
            omega
        · have hsame : ∀ (d w : List Char), '\n' ∉ w → (posAfter d).line = (posAfter (d ++ w)).line := by
            intro d w hw
            simp only [posAfter, List.count_append, List.count_eq_zero.mpr hw]
            omega
          exact ⟨hsame _ _ n1, hsame _ _ n2⟩

theorem renamed_end (k : Nat) (after : Bool) {r r' : List Char} (h : ∀ c ∈ r, ws c = true) (h' : ∀ c ∈ r', ws c = true) :
    RenamedReading ρ k after r r' := by
  have hd : ∀ r : List Char, (∀ c ∈ r, ws c = true) → r.dropWhile ws = [] := by
    intro r hr
    induction r with
    | nil => rfl
    | cons c r ih => rw [List.dropWhile_cons_of_pos (hr c (by simp)), ih fun c hc => hr c (by simp [hc])]
  induction k generalizing after r r' with
  | zero => trivial
  | succ k ih =>
    unfold RenamedReading
    rw [hd r h, hd r' h']
    simp only [lexeme]
    refine ⟨trivial, by simp [renameLit], trivial, fun _ hc => ?_, ?_⟩
    · simp at hc
    · exact ih true (by simp) (by simp)

theorem renamed_mono {k n : Nat} (hk : k ≤ n) {after : Bool} {r r' : List Char} (h : RenamedReading ρ n after r r') :
    RenamedReading ρ k after r r' := by
  induction n generalizing k after r r' with
  | zero => rw [Nat.le_zero.mp hk]; trivial
  | succ n ih =>
    cases k with
    | zero => trivial
    | succ k =>
      unfold RenamedReading at h ⊢
      cases e1 : lexeme (r.dropWhile ws) <;> cases e2 : lexeme (r'.dropWhile ws) <;> simp only [e1, e2] at h ⊢
      obtain ⟨h1, h2, h3, h4, h5⟩ := h
      exact ⟨h1, h2, h3, h4, ih (Nat.le_of_succ_le_succ hk) h5⟩

theorem renamed_pieces (k : Nat) (after : Bool) {g g' : List Char} (hg : ∀ c ∈ g, ws c = true) (hg' : ∀ c ∈ g', ws c = true)
    {ps ps' : List (Piece × List Char)} (hp : PiecesWF ps) (hp' : PiecesWF ps') (hs : RenamedTexts ρ ps ps')
    (hn : after = true → (∃ c ∈ ps.head?, c.1.tok = .COMMENT) → ('\n' ∈ g ↔ '\n' ∈ g')) :
    RenamedReading ρ k after (g ++ renderAll ps) (g' ++ renderAll ps') := by
  induction k generalizing after g g' ps ps' with
  | zero => trivial
  | succ k ih =>
    match ps, ps', hs with
    | [], [], _ => simpa [renderAll] using renamed_end (k + 1) after hg hg'
    | (p, w) :: ps, (q, w') :: qs, hs =>
      obtain ⟨ht, hl, hs1, hs2⟩ := hs
      have lex : ∀ {p : Piece} {g w : List Char} {ps : List (Piece × List Char)}, (∀ c ∈ g, ws c = true) →
          PiecesWF ((p, w) :: ps) →
          (g ++ renderAll ((p, w) :: ps)).takeWhile ws = g ∧
          lexeme ((g ++ renderAll ((p, w) :: ps)).dropWhile ws) = some ⟨p.tok, enc p.lit, p.render.length, false⟩ ∧
          ((g ++ renderAll ((p, w) :: ps)).dropWhile ws).drop p.render.length = w ++ renderAll ps := by
        intro p g w ps hg hp
        obtain ⟨e1, e2⟩ := dropWhile_gap hg hp
        obtain ⟨hp1, hp2, hp3⟩ := hp
        have hR : renderAll ((p, w) :: ps) = p.render ++ (w ++ renderAll ps) := by simp [renderAll]
        have hrest : ∀ c ∈ (w ++ renderAll ps).head?, ws c = true := by
          intro c hc
          cases w with
          | nil =>
            cases ps with
            | nil => simp [renderAll] at hc
            | cons _ _ => exact absurd rfl (hp2.2.1 rfl)
          | cons x w => simp at hc; exact hp2.1 c (by simp [hc])
        have hcom : (∃ body same, p = .comment body same) → ∀ c ∈ (w ++ renderAll ps).head?, c = '\n' := by
          rintro ⟨body, same, rfl⟩ c hc
          cases w with
          | nil =>
            cases ps with
            | nil => simp [renderAll] at hc
            | cons _ _ => exact absurd rfl (hp2.2.1 rfl)
          | cons x w => simp at hc; exact hp2.2.2 c (by simp [hc])
        rw [e1, e2, hR, lexeme_piece hp1 hrest hcom, List.drop_left]
        exact ⟨rfl, rfl, rfl⟩
      obtain ⟨a1, a2, a3⟩ := lex hg hp
      obtain ⟨b1, b2, b3⟩ := lex hg' hp'
      unfold RenamedReading
      rw [a1, a2, b1, b2]
      refine ⟨ht, hl, rfl, fun h1 h2 => hn h1 ⟨_, rfl, h2⟩, ?_⟩
      simp only [a3, b3]
      exact ih true hp.2.1.1 hp'.2.1.1 hp.2.2 hp'.2.2 hs2 fun _ => hs1

end Cddlc
