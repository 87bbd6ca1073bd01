import Verif.Spec.Os
import Verif.Model.Config

/-! Traces of programs, paths, and the order of names. -/

namespace Cddlc
open Spec

/-! ### Traces -/

theorem runs_ret {α : Type} {a : α} {t e} (h : Traces (.ret a) t e) : t = [] ∧ (e = .done a ∨ e = .cut) := by
  cases h with
  | ret => exact ⟨rfl, Or.inl rfl⟩
  | cut => exact ⟨rfl, Or.inr rfl⟩

theorem runs_op {α : Type} {o : Op} {k : o.Ans → Prog α} {t e} (h : Traces (.op o k) t e) :
    (t = [] ∧ e = .cut) ∨ ∃ a t', t = ⟨o, a⟩ :: t' ∧ Traces (k a) t' e := by
  cases h with
  | cut => exact Or.inl ⟨rfl, rfl⟩
  | op a h => exact Or.inr ⟨a, _, rfl, h⟩

theorem runs_panic {α : Type} {w} {t} {e : End α} (h : Traces (.panic w) t e) : t = [] ∧ (e = .panic w ∨ e = .cut) := by
  cases h with
  | panic => exact ⟨rfl, Or.inl rfl⟩
  | cut => exact ⟨rfl, Or.inr rfl⟩

theorem runs_hang {α : Type} {t} {e : End α} (h : Traces .hang t e) : t = [] ∧ (e = .hang ∨ e = .cut) := by
  cases h with
  | hang => exact ⟨rfl, Or.inl rfl⟩
  | cut => exact ⟨rfl, Or.inr rfl⟩

/-- A run that did not return, as a run with another result type. -/
inductive Ends {α β : Type} : End α → End β → Prop
  | panic {w} : Ends (.panic w) (.panic w)
  | hang : Ends .hang .hang
  | cut : Ends .cut .cut

/-- A run of one program after another. -/
theorem runs_bind {α β : Type} {p : Prog α} {f : α → Prog β} {t e} (h : Traces (p.bind f) t e) :
    (∃ t1 t2 a, t = t1 ++ t2 ∧ Traces p t1 (.done a) ∧ Traces (f a) t2 e) ∨ ∃ e', Traces p t e' ∧ Ends e' e := by
  induction p generalizing t with
  | ret a => exact Or.inl ⟨[], t, a, rfl, .ret, h⟩
  | panic w =>
    obtain ⟨rfl, rfl | rfl⟩ := runs_panic h
    · exact Or.inr ⟨_, .panic, .panic⟩
    · exact Or.inr ⟨_, .cut, .cut⟩
  | hang =>
    obtain ⟨rfl, rfl | rfl⟩ := runs_hang h
    · exact Or.inr ⟨_, .hang, .hang⟩
    · exact Or.inr ⟨_, .cut, .cut⟩
  | op o k ih =>
    rcases runs_op h with ⟨rfl, rfl⟩ | ⟨a, t', rfl, h'⟩
    · exact Or.inr ⟨_, .cut, .cut⟩
    · rcases ih a h' with ⟨t1, t2, b, rfl, h1, h2⟩ | ⟨e', h1, h2⟩
      · exact Or.inl ⟨_, t2, b, rfl, .op a h1, h2⟩
      · exact Or.inr ⟨e', .op a h1, h2⟩

theorem bind_runs {α β : Type} {p : Prog α} {f : α → Prog β} {t1 t2 a e} (h1 : Traces p t1 (.done a))
    (h2 : Traces (f a) t2 e) : Traces (p.bind f) (t1 ++ t2) e := by
  generalize he : End.done a = d at h1
  induction h1 with
  | ret => cases he; exact h2
  | panic => cases he
  | hang => cases he
  | cut => cases he
  | op b _ ih => exact .op b (ih he)

/-- All runs make only calls with a property. -/
theorem runs_all {α : Type} {P : Op → Prop} {p : Prog α} {t e} (h : Traces p t e)
    (hp : ∀ t1 o a t2, t = t1 ++ ⟨o, a⟩ :: t2 → P o) : ∀ ev ∈ t, P ev.1 := by
  intro ev hev
  obtain ⟨t1, t2, rfl⟩ := List.append_of_mem hev
  exact hp t1 ev.1 ev.2 t2 rfl

/-! ### Effects -/

theorem effects_append {ι : Type} [DecidableEq ι] (at_ : Bytes → ι) (part : Nat) (t1 t2 : List Event)
    (fs : Files ι) : effects at_ part (t1 ++ t2) fs = effects at_ part t2 (effects at_ part t1 fs) := by
  induction t1 generalizing fs with
  | nil => rfl
  | cons e t ih => exact ih _

/-- A call changes no file but the one its path leads to. -/
theorem effect_other {ι : Type} [DecidableEq ι] (at_ : Bytes → ι) (part : Nat) (e : Event) (fs : Files ι) (i : ι)
    (h : ∀ p, changes e.1 = some p → at_ p ≠ i) : effect at_ part e fs i = fs i := by
  obtain ⟨o, a⟩ := e
  cases o with
  | openTrunc p | openAppend p | write p c =>
    have := h p rfl
    cases a <;> simp [effect, Files.set, Ne.symm this]
  | _ => rfl

theorem effects_other {ι : Type} [DecidableEq ι] (at_ : Bytes → ι) (part : Nat) (t : List Event) (fs : Files ι) (i : ι)
    (h : ∀ e ∈ t, ∀ p, changes e.1 = some p → at_ p ≠ i) : effects at_ part t fs i = fs i := by
  induction t generalizing fs with
  | nil => rfl
  | cons e t ih =>
    show effects at_ part t _ i = _
    rw [ih _ fun x hx => h x (List.mem_cons_of_mem _ hx), effect_other _ _ _ _ _ (h e (List.mem_cons_self ..))]

/-! ### Paths -/

theorem splitSlash_none {n : Bytes} (h : (47 : UInt8) ∉ n) : splitSlash n = [n] := by
  induction n with
  | nil => rfl
  | cons c n ih =>
    simp only [List.mem_cons, not_or] at h
    unfold splitSlash
    rw [if_neg (Ne.symm h.1), ih h.2]

theorem splitSlash_append (a : Bytes) {n : Bytes} (h : (47 : UInt8) ∉ n) :
    splitSlash (a ++ 47 :: n) = splitSlash a ++ [n] := by
  induction a with
  | nil => show splitSlash (47 :: n) = _; unfold splitSlash; simp [splitSlash_none h]
  | cons c a ih =>
    by_cases hc : c = 47
    · subst hc
      show splitSlash (47 :: (a ++ 47 :: n)) = splitSlash (47 :: a) ++ [n]
      unfold splitSlash
      simp [ih]
    · show splitSlash (c :: (a ++ 47 :: n)) = splitSlash (c :: a) ++ [n]
      have : ∀ s, splitSlash (c :: s) = match splitSlash s with
          | [] => [[c]]
          | x :: xs => (c :: x) :: xs := fun s => by
        conv => lhs; unfold splitSlash
        rw [if_neg hc]
        cases splitSlash s <;> rfl
      rw [this, this, ih]
      cases hs : splitSlash a with
      | nil =>
        exfalso
        clear ih
        cases a with
        | nil => cases hs
        | cons d a =>
          unfold splitSlash at hs
          split at hs
          · cases hs
          · split at hs <;> cases hs
      | cons x xs => rfl

theorem joinSlash_append (xs : List Bytes) (n : Bytes) : joinSlash (xs ++ [n]) = n ∨
    ∃ p, joinSlash (xs ++ [n]) = p ++ 47 :: n := by
  induction xs with
  | nil => exact Or.inl rfl
  | cons x xs ih =>
    refine Or.inr ?_
    have : joinSlash (x :: xs ++ [n]) = x ++ 47 :: joinSlash (xs ++ [n]) := by
      cases xs <;> rfl
    rw [this]
    rcases ih with h | ⟨p, h⟩
    · rw [h]; exact ⟨x, rfl⟩
    · rw [h]; exact ⟨x ++ 47 :: p, by simp⟩

/-- A name that can stand in a directory. -/
def FileName (n : Bytes) : Prop := (47 : UInt8) ∉ n ∧ n ≠ [] ∧ n ≠ b!"." ∧ n ≠ b!".."

/-- A cleaned path that ends in a name: the name, or something with a slash and the name. -/
theorem clean_name {n : Bytes} (hn : FileName n) {p : Bytes} {xs : List Bytes} (hp : splitSlash p = xs ++ [n]) :
    cleanPath p = n ∨ ∃ q, cleanPath p = q ++ 47 :: n := by
  obtain ⟨h1, h2, h3, h4⟩ := hn
  unfold cleanPath
  rw [hp]
  simp only [List.foldl_append]
  have hs : ∀ r acc, cleanStep r acc n = n :: acc := by
    intro r acc; unfold cleanStep
    rw [if_neg (by simp [h2, h3]), if_neg h4]
  simp only [List.foldl_cons, List.foldl_nil, hs, List.reverse_cons]
  generalize (List.foldl (cleanStep (decide (p.head? = some 47))) [] xs).reverse = ys
  have hne : ∀ a b : Bytes, b ≠ [] → a ++ b ≠ [] := by
    intro a b h h'
    exact h (List.append_eq_nil_iff.1 h').2
  rcases joinSlash_append ys n with h | ⟨q, h⟩
  · rw [h, if_neg (hne _ _ h2)]
    split
    · exact Or.inr ⟨[], rfl⟩
    · exact Or.inl rfl
  · rw [h, if_neg (hne _ _ (by simp))]
    exact Or.inr ⟨_, by rw [List.append_assoc]⟩

/-- A path joined with a name ends in that name. -/
theorem join_name (d : Bytes) {n : Bytes} (hn : FileName n) : joinPath d n = n ∨ ∃ q, joinPath d n = q ++ 47 :: n := by
  unfold joinPath
  split
  · rw [if_neg hn.2.1]
    exact clean_name hn (xs := []) (splitSlash_none hn.1)
  · rw [if_neg hn.2.1]
    exact clean_name hn (splitSlash_append d hn.1)

theorem takeWhile_all {α : Type} {p : α → Bool} {l : List α} (h : ∀ x ∈ l, p x = true) (m : List α) :
    (l ++ m).takeWhile p = l ++ m.takeWhile p := by
  induction l with
  | nil => rfl
  | cons x l ih =>
    rw [List.cons_append, List.takeWhile_cons, if_pos (h x (List.mem_cons_self ..)),
      ih fun y hy => h y (List.mem_cons_of_mem _ hy)]
    rfl

theorem base_name {n : Bytes} (hn : FileName n) {p : Bytes} (hp : p = n ∨ ∃ q, p = q ++ 47 :: n) :
    basePath p = n := by
  obtain ⟨h1, h2, _⟩ := hn
  have key : ∀ m : Bytes, (m = [] ∨ ∃ q, m = 47 :: q) → basePath (n.reverse ++ m).reverse = n := by
    intro m hm
    have hr : n.reverse ≠ [] := by simpa using h2
    obtain ⟨c, s, hc⟩ := List.exists_cons_of_ne_nil hr
    have hc47 : c ≠ 47 := by
      rintro rfl
      exact h1 (by rw [← List.mem_reverse, hc]; exact List.mem_cons_self ..)
    unfold basePath
    rw [if_neg (by simp [h2]), List.reverse_reverse]
    simp only
    rw [hc, List.cons_append, List.dropWhile_cons, if_neg (mt of_decide_eq_true hc47), if_neg (by simp), ← List.cons_append, ← hc,
      takeWhile_all]
    · have : m.takeWhile (fun x => decide (x ≠ 47)) = [] := by
        rcases hm with rfl | ⟨q, rfl⟩ <;> simp
      rw [this]; simp
    · intro x hx
      refine decide_eq_true ?_
      rintro rfl
      exact h1 (List.mem_reverse.1 hx)
  rcases hp with rfl | ⟨q, rfl⟩
  · have := key [] (Or.inl rfl)
    simpa using this
  · have := key (47 :: q.reverse) (Or.inr ⟨_, rfl⟩)
    simpa using this

/-- The last part of a path joined with a name is the name. -/
theorem base_join (d : Bytes) {n : Bytes} (hn : FileName n) : basePath (joinPath d n) = n :=
  base_name hn (join_name d hn)

/-! ### The order of names -/

theorem bytesLe_cons (c : UInt8) (s t : Bytes) : bytesLe (c :: s) (c :: t) = bytesLe s t := by
  conv => lhs; unfold bytesLe
  rw [if_neg (by simp), if_neg (by simp)]

theorem bytesLe_append (p s t : Bytes) : bytesLe (p ++ s) (p ++ t) = bytesLe s t := by
  induction p with
  | nil => rfl
  | cons c p ih => rw [List.cons_append, List.cons_append, bytesLe_cons, ih]

/-- The comparison of the model is the order of a dictionary. -/
theorem bytesLe_iff (a b : Bytes) : bytesLe a b = true ↔ Precedes a b := by
  constructor
  · intro h
    induction a generalizing b with
    | nil => exact Or.inl ⟨b, rfl⟩
    | cons x s ih =>
      cases b with
      | nil => cases h
      | cons y t =>
        by_cases h1 : x < y
        · exact Or.inr ⟨[], x, y, s, t, rfl, rfl, h1⟩
        · by_cases h2 : y < x
          · unfold bytesLe at h; rw [if_neg h1, if_pos h2] at h; cases h
          · have : x = y := by
              apply UInt8.toNat_inj.1
              rw [UInt8.lt_iff_toNat_lt] at h1 h2
              omega
            subst this
            rw [bytesLe_cons] at h
            rcases ih t h with ⟨u, rfl⟩ | ⟨p, u, v, q, r, rfl, rfl, hl⟩
            · exact Or.inl ⟨u, rfl⟩
            · exact Or.inr ⟨x :: p, u, v, q, r, rfl, rfl, hl⟩
  · rintro (⟨s, rfl⟩ | ⟨p, x, y, s, t, rfl, rfl, h⟩)
    · conv => lhs; lhs; rw [← List.append_nil a]
      rw [bytesLe_append]
      cases s <;> rfl
    · rw [bytesLe_append]
      unfold bytesLe
      rw [if_pos h]

theorem bytesLe_total (a b : Bytes) : (bytesLe a b || bytesLe b a) = true := by
  induction a generalizing b with
  | nil => cases b <;> rfl
  | cons x s ih =>
    cases b with
    | nil => rfl
    | cons y t =>
      rcases Nat.lt_trichotomy x.toNat y.toNat with h | h | h
      · have : bytesLe (x :: s) (y :: t) = true := by unfold bytesLe; rw [if_pos (UInt8.lt_iff_toNat_lt.2 h)]
        rw [this]; rfl
      · obtain rfl := UInt8.toNat_inj.1 h
        rw [bytesLe_cons, bytesLe_cons]; exact ih t
      · have : bytesLe (y :: t) (x :: s) = true := by unfold bytesLe; rw [if_pos (UInt8.lt_iff_toNat_lt.2 h)]
        rw [this]; simp

theorem bytesLe_trans (a b c : Bytes) (h1 : bytesLe a b = true) (h2 : bytesLe b c = true) : bytesLe a c = true := by
  induction a generalizing b c with
  | nil => cases c <;> rfl
  | cons x s ih =>
    cases b with
    | nil => cases h1
    | cons y t =>
      cases c with
      | nil => cases h2
      | cons z u =>
        unfold bytesLe at h1 h2 ⊢
        simp only [UInt8.lt_iff_toNat_lt] at h1 h2 ⊢
        split at h1
        · split at h2
          · rw [if_pos (by omega)]
          · split at h2
            · cases h2
            · rw [if_pos (by omega)]
        · split at h1
          · cases h1
          · split at h2
            · rw [if_pos (by omega)]
            · split at h2
              · cases h2
              · rw [if_neg (by omega), if_neg (by omega)]
                exact ih t u h1 h2

/-! ### Extensions -/

/-- A name with an extension: something, a dot, and the extension. -/
theorem ext_iff {n : Bytes} (hn : (47 : UInt8) ∉ n) {x : Bytes} (hx : (46 : UInt8) ∉ x) :
    extPath n = 46 :: x ↔ ∃ s, n = s ++ 46 :: x := by
  have h47 : n.reverse.takeWhile (fun c => decide (c ≠ 47)) = n.reverse := by
    have := takeWhile_all (p := fun c => decide (c ≠ (47 : UInt8))) (l := n.reverse) (fun c hc => by
      refine decide_eq_true ?_
      rintro rfl
      exact hn (List.mem_reverse.1 hc)) []
    simpa using this
  unfold extPath
  simp only [h47]
  constructor
  · intro h
    split at h
    · rename_i hl
      injection h with _ h
      generalize hp : (fun c : UInt8 => decide (c ≠ 46)) = f at h hl
      have hsplit := List.takeWhile_append_dropWhile (p := f) (l := n.reverse)
      cases hd : n.reverse.dropWhile f with
      | nil =>
        rw [hd, List.append_nil] at hsplit
        rw [hsplit] at hl
        exact absurd hl (by simp)
      | cons c r =>
        have hc : f c = false := by
          have := List.head_dropWhile_not f (l := n.reverse) (by rw [hd]; simp)
          simpa [hd] using this
        subst hp
        have hc : c = 46 := by simpa using hc
        subst hc
        refine ⟨r.reverse, ?_⟩
        rw [hd] at hsplit
        have := congrArg List.reverse hsplit
        rw [List.reverse_reverse, List.reverse_append, h] at this
        rw [← this]; simp
    · cases h
  · rintro ⟨s, rfl⟩
    have : (s ++ 46 :: x).reverse.takeWhile (fun c => decide (c ≠ 46)) = x.reverse := by
      rw [List.reverse_append, List.reverse_cons, List.append_assoc, takeWhile_all]
      · simp
      · intro c hc
        refine decide_eq_true ?_
        rintro rfl
        exact hx (List.mem_reverse.1 hc)
    rw [this, if_pos (by simp), List.reverse_reverse]

theorem trim_append (s x : Bytes) : trimSuffix (s ++ x) x = s := by
  unfold trimSuffix
  rw [if_pos (by simp)]
  simp

end Cddlc
