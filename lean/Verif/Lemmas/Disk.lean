import Verif.Spec.Disk
import Verif.Lemmas.Generate
import Verif.Props.Config

/-! Paths on a disk, and programs that run on it. -/

namespace Cddlc
open Spec

/-! ### Paths -/

theorem splitSlash_plain {s : Bytes} : ∀ x ∈ splitSlash s, (47 : UInt8) ∉ x := by
  induction s with
  | nil => simp [splitSlash]
  | cons c s ih =>
    unfold splitSlash
    by_cases hc : c = 47
    · rw [if_pos hc]
      intro x hx
      rcases List.mem_cons.1 hx with rfl | hx
      · simp
      · exact ih x hx
    · rw [if_neg hc]
      cases hs : splitSlash s with
      | nil =>
        intro x hx
        simp only [List.mem_singleton] at hx
        subst hx; simp [Ne.symm hc]
      | cons y ys =>
        rw [hs] at ih
        intro x hx
        rcases List.mem_cons.1 hx with rfl | hx
        · simp [Ne.symm hc, ih y (List.mem_cons_self ..)]
        · exact ih x (List.mem_cons_of_mem _ hx)

theorem splitSlash_cons {x : Bytes} (hx : (47 : UInt8) ∉ x) (s : Bytes) :
    splitSlash (x ++ 47 :: s) = x :: splitSlash s := by
  induction x with
  | nil => show splitSlash (47 :: s) = _; conv => lhs; unfold splitSlash
           rw [if_pos rfl]
  | cons c x ih =>
    simp only [List.mem_cons, not_or] at hx
    show splitSlash (c :: (x ++ 47 :: s)) = _
    conv => lhs; unfold splitSlash
    rw [if_neg (Ne.symm hx.1), ih hx.2]

theorem splitSlash_join {xs : List Bytes} (h0 : xs ≠ []) (h : ∀ x ∈ xs, (47 : UInt8) ∉ x) :
    splitSlash (joinSlash xs) = xs := by
  induction xs with
  | nil => exact absurd rfl h0
  | cons x xs ih =>
    have hx := h x (List.mem_cons_self ..)
    cases xs with
    | nil => exact splitSlash_none hx
    | cons y ys =>
      show splitSlash (x ++ 47 :: joinSlash (y :: ys)) = _
      rw [splitSlash_cons hx, ih (by simp) fun z hz => h z (List.mem_cons_of_mem _ hz)]

/-- Cleaned parts lead to the same place. -/
theorem clean_go (rooted : Bool) (w : List Bytes) (hw : rooted = true → w = []) (xs acc : List Bytes)
    (ha : ∀ x ∈ acc, x ≠ [] ∧ x ≠ b!".") (hs : ∀ x ∈ xs ++ acc, (47 : UInt8) ∉ x) :
    (∀ x ∈ xs.foldl (cleanStep rooted) acc, x ≠ [] ∧ x ≠ b!"." ∧ (47 : UInt8) ∉ x) ∧
    (xs.foldl (cleanStep rooted) acc).reverse.foldl Disk.go w = xs.foldl Disk.go (acc.reverse.foldl Disk.go w) := by
  induction xs generalizing acc with
  | nil =>
    refine ⟨fun x hx => ⟨(ha x hx).1, (ha x hx).2, hs x hx⟩, rfl⟩
  | cons x xs ih =>
    have key : (∀ y ∈ cleanStep rooted acc x, (y ≠ [] ∧ y ≠ b!".") ∧ (y ∈ acc ∨ y = x)) ∧
        (cleanStep rooted acc x).reverse.foldl Disk.go w = Disk.go (acc.reverse.foldl Disk.go w) x := by
      unfold cleanStep
      by_cases h1 : x = [] ∨ x = b!"."
      · rw [if_pos h1]
        refine ⟨fun y hy => ⟨ha y hy, Or.inl hy⟩, ?_⟩
        unfold Disk.go; rw [if_pos h1]
      · rw [if_neg h1]
        by_cases h2 : x = b!".."
        · rw [if_pos h2]
          cases acc with
          | nil =>
            simp only
            cases rooted with
            | false =>
              refine ⟨?_, rfl⟩
              intro y hy
              simp only [Bool.false_eq_true, if_false, List.mem_singleton] at hy
              subst hy
              exact ⟨not_or.1 h1, Or.inr rfl⟩
            | true =>
              refine ⟨by simp, ?_⟩
              rw [hw rfl, h2]; rfl
          | cons y rest =>
            simp only
            by_cases h3 : y = b!".."
            · rw [if_pos h3]
              refine ⟨?_, ?_⟩
              · intro z hz
                rcases List.mem_cons.1 hz with rfl | hz
                · exact ⟨not_or.1 h1, Or.inr rfl⟩
                · exact ⟨ha z hz, Or.inl hz⟩
              · rw [List.reverse_cons, List.foldl_append]; rfl
            · rw [if_neg h3]
              refine ⟨fun z hz => ⟨ha z (List.mem_cons_of_mem _ hz), Or.inl (List.mem_cons_of_mem _ hz)⟩, ?_⟩
              rw [List.reverse_cons, List.foldl_append, h2]
              generalize rest.reverse.foldl Disk.go w = v
              have hy := ha y (List.mem_cons_self ..)
              have : [y].foldl Disk.go v = y :: v := by
                show Disk.go v y = _
                unfold Disk.go
                rw [if_neg (by simp [hy.1, hy.2]), if_neg h3]
              rw [this]; rfl
        · rw [if_neg h2]
          refine ⟨?_, ?_⟩
          · intro z hz
            rcases List.mem_cons.1 hz with rfl | hz
            · exact ⟨not_or.1 h1, Or.inr rfl⟩
            · exact ⟨ha z hz, Or.inl hz⟩
          · rw [List.reverse_cons, List.foldl_append]; rfl
    have := ih (cleanStep rooted acc x) (fun y hy => (key.1 y hy).1) (by
      intro y hy
      rcases List.mem_append.1 hy with hy | hy
      · exact hs y (by simp [hy])
      · rcases (key.1 y hy).2 with h | rfl
        · exact hs y (by simp [h])
        · exact hs y (by simp))
    refine ⟨this.1, ?_⟩
    rw [List.foldl_cons, this.2, key.2, List.foldl_cons]

theorem cleanPath_ne (p : Bytes) : cleanPath p ≠ [] := by
  unfold cleanPath
  simp only
  generalize (if p.head? = some 47 then b!"/" else []) ++ _ = out
  split
  · simp
  · assumption

/-- A cleaned path leads to the same place. -/
theorem at_clean (d : Disk) (p : Bytes) : d.at_ (cleanPath p) = d.at_ p := by
  unfold Disk.at_
  congr 1
  set w := (if p.head? = some 47 then [] else d.cwd.reverse) with hw
  obtain ⟨h1, h2⟩ := clean_go (decide (p.head? = some 47)) w (by
    intro h; rw [hw, if_pos (of_decide_eq_true h)]) (splitSlash p) [] (by simp) (by
      simpa using fun x hx => splitSlash_plain (s := p) x hx)
  rw [List.reverse_nil, List.foldl_nil] at h2
  rw [← h2]
  generalize hq : (List.foldl (cleanStep (decide (p.head? = some 47))) [] (splitSlash p)) = acc at h1
  have hacc : ∀ x ∈ acc.reverse, x ≠ [] ∧ x ≠ b!"." ∧ (47 : UInt8) ∉ x := fun x hx => h1 x (List.mem_reverse.1 hx)
  have hj : ∀ xs : List Bytes, (∀ x ∈ xs, x ≠ [] ∧ x ≠ b!"." ∧ (47 : UInt8) ∉ x) → xs ≠ [] →
      joinSlash xs ≠ [] ∧ (joinSlash xs).head? ≠ some 47 := by
    intro xs hxs hne
    cases xs with
    | nil => exact absurd rfl hne
    | cons x xs =>
      obtain ⟨hx1, _, hx3⟩ := hxs x (List.mem_cons_self ..)
      obtain ⟨c, s, rfl⟩ := List.exists_cons_of_ne_nil hx1
      have hc : c ≠ 47 := by rintro rfl; exact hx3 (List.mem_cons_self ..)
      cases xs <;> simp [joinSlash, hc]
  have hcp : cleanPath p = (let out := (if p.head? = some 47 then b!"/" else []) ++ joinSlash acc.reverse
      if out = [] then b!"." else out) := by
    unfold cleanPath; simp only [hq]
  rw [hcp]
  simp only
  by_cases hr : p.head? = some 47
  · rw [if_pos hr] at hw
    have h0 : ∀ s : Bytes, b!"/" ++ s = 47 :: s := fun s => rfl
    rw [if_pos hr, h0, if_neg (List.cons_ne_nil _ _), hw, if_pos List.head?_cons]
    have : splitSlash (47 :: joinSlash acc.reverse) = [] :: splitSlash (joinSlash acc.reverse) := by
      conv => lhs; unfold splitSlash
      rw [if_pos rfl]
    rw [this]
    by_cases h0 : acc.reverse = []
    · rw [h0]; rfl
    · rw [splitSlash_join h0 fun x hx => (hacc x hx).2.2]; rfl
  · rw [if_neg hr] at hw
    rw [if_neg hr, List.nil_append]
    by_cases h0 : acc.reverse = []
    · rw [h0, hw]; rfl
    · obtain ⟨h3, h4⟩ := hj _ hacc h0
      rw [if_neg h3, if_neg h4, splitSlash_join h0 fun x hx => (hacc x hx).2.2, hw]

/-- A path joined with a name leads to that name in the directory. -/
theorem at_join (d : Disk) {p x : Bytes} (hp : p ≠ []) (hx : FileName x) :
    d.at_ (joinPath p x) = d.at_ p ++ [x] := by
  unfold joinPath
  rw [if_neg hp, if_neg hx.2.1, at_clean]
  unfold Disk.at_
  have hh : (p ++ 47 :: x).head? = p.head? := by
    cases p with
    | nil => exact absurd rfl hp
    | cons c p => rfl
  rw [hh, splitSlash_append p hx.1, List.foldl_append]
  generalize List.foldl Disk.go _ (splitSlash p) = w
  show (Disk.go w x).reverse = _
  unfold Disk.go
  rw [if_neg (by simp [hx.2.1, hx.2.2.1]), if_neg hx.2.2.2]
  simp

theorem joinPath_ne {p x : Bytes} (hx : FileName x) : joinPath p x ≠ [] := by
  unfold joinPath
  split
  · rw [if_neg hx.2.1]; exact cleanPath_ne _
  · rw [if_neg hx.2.1]; exact cleanPath_ne _

theorem foldl_go {xs : List Bytes} (h : ∀ x ∈ xs, FileName x) (w : List Bytes) :
    xs.foldl Disk.go w = xs.reverse ++ w := by
  induction xs generalizing w with
  | nil => rfl
  | cons x xs ih =>
    have hx := h x (List.mem_cons_self ..)
    rw [List.foldl_cons, ih fun y hy => h y (List.mem_cons_of_mem _ hy)]
    unfold Disk.go
    rw [if_neg (by simp [hx.2.1, hx.2.2.1]), if_neg hx.2.2.2]
    simp

theorem Spec.Disk.WF.place {d : Disk} (h : d.WF) {q : List Bytes} (hq : d.node q ≠ none) : ∀ x ∈ q, FileName x := by
  induction q using List.reverseRecOn with
  | nil => simp
  | append_singleton q x ih =>
    have hp := h.parent q x hq
    intro y hy
    rcases List.mem_append.1 hy with hy | hy
    · exact ih (by rw [hp]; simp) y hy
    · rw [List.mem_singleton.1 hy]
      exact h.plain q x ((h.listed q x).2 hq)

/-- The path of the working directory leads to it. -/
theorem at_cwd {d : Disk} (h : d.WF) : d.at_ (47 :: joinSlash d.cwd) = d.cwd := by
  have hn := h.place (q := d.cwd) (by rw [h.here]; simp)
  unfold Disk.at_
  rw [if_pos List.head?_cons]
  have : splitSlash (47 :: joinSlash d.cwd) = [] :: splitSlash (joinSlash d.cwd) := by
    conv => lhs; unfold splitSlash
    rw [if_pos rfl]
  rw [this]
  by_cases h0 : d.cwd = []
  · rw [h0]; rfl
  · rw [splitSlash_join h0 fun x hx => (hn x hx).1]
    show (List.foldl Disk.go [] d.cwd).reverse = _
    rw [foldl_go hn]; simp

/-! ### Putting -/

section
variable {d : Disk}

@[simp] theorem put_cwd (q : List Bytes) (e : Entry) : (d.put q e).cwd = d.cwd := rfl

theorem put_node (q : List Bytes) (e : Entry) (r : List Bytes) :
    (d.put q e).node r = if r = q then some e else d.node r := rfl

theorem put_names (b : List Bytes) (x : Bytes) (e : Entry) (r : List Bytes) :
    (d.put (b ++ [x]) e).names r = if r = b ∧ x ∉ d.names r then d.names r ++ [x] else d.names r := by
  simp [Disk.put]

theorem makeDirs_cwd (b rest : List Bytes) : (d.makeDirs b rest).cwd = d.cwd := by
  induction rest generalizing d b with
  | nil => rfl
  | cons x rest ih =>
    unfold Disk.makeDirs
    rw [ih]; split <;> rfl

theorem at_of_cwd {d d' : Disk} (h : d'.cwd = d.cwd) (p : Bytes) : d'.at_ p = d.at_ p := by
  unfold Disk.at_; rw [h]

/-- Two things put at one place: the last one counts. -/
theorem put_put (b : List Bytes) (x : Bytes) (e e' : Entry) :
    (d.put (b ++ [x]) e).put (b ++ [x]) e' = d.put (b ++ [x]) e' := by
  have h1 : ((d.put (b ++ [x]) e).put (b ++ [x]) e').node = (d.put (b ++ [x]) e').node := by
    funext r; simp only [put_node]; split <;> rfl
  have h2 : ((d.put (b ++ [x]) e).put (b ++ [x]) e').names = (d.put (b ++ [x]) e').names := by
    funext r
    simp only [put_names]
    by_cases hr : r = b
    · subst hr
      by_cases hx : x ∈ d.names r <;> simp [hx]
    · simp [hr]
  cases h : (d.put (b ++ [x]) e).put (b ++ [x]) e' with
  | mk c n m => rw [h] at h1 h2; simp only at h1 h2; rw [h1, h2]; rw [show c = d.cwd from by rw [← show (Disk.mk c n m).cwd = c from rfl, ← h]; rfl]; rfl

/-- Putting back what is there changes nothing. -/
theorem put_same (hw : d.WF) {b : List Bytes} {x : Bytes} {e : Entry} (h : d.node (b ++ [x]) = some e) :
    d.put (b ++ [x]) e = d := by
  have h1 : (d.put (b ++ [x]) e).node = d.node := by
    funext r; rw [put_node]; split
    · rename_i hr; rw [hr, h]
    · rfl
  have h2 : (d.put (b ++ [x]) e).names = d.names := by
    funext r; rw [put_names, if_neg]
    rintro ⟨rfl, hx⟩
    exact hx ((hw.listed _ _).2 (by rw [h]; simp))
  cases d
  simp only [Disk.put] at h1 h2 ⊢
  simp only [h1, h2]

/-- What stands at the end of a path may be put, with no directory replaced by a file. -/
theorem put_wf (hw : d.WF) {b : List Bytes} {x : Bytes} {e : Entry} (hx : FileName x) (hb : d.node b = some .dir)
    (he : e = .dir ∨ d.node (b ++ [x]) ≠ some .dir) : (d.put (b ++ [x]) e).WF := by
  have hdir : ∀ q, d.node q = some .dir → (d.put (b ++ [x]) e).node q = some .dir := by
    intro q hq
    rw [put_node]
    split
    · rename_i h; subst h
      rcases he with rfl | he
      · rfl
      · exact absurd hq he
    · exact hq
  refine ⟨hdir _ hw.root, fun q y hy => ?_, fun q y => ?_, fun q y hy => ?_, hdir _ hw.here⟩
  · apply hdir
    rw [put_node] at hy
    split at hy
    · rename_i h
      obtain ⟨rfl, h⟩ := List.append_inj' h rfl
      exact hb
    · exact hw.parent q y hy
  · rw [put_names, put_node]
    by_cases hq : q = b
    · subst hq
      by_cases hy : y = x
      · subst hy
        simp only [if_true]
        by_cases hm : y ∈ d.names q <;> simp [hm]
      · have : ¬ q ++ [y] = q ++ [x] := by simpa using hy
        rw [if_neg this, ← hw.listed]
        split <;> simp [hy]
    · rw [if_neg (by simp [hq])]
      have : ¬ q ++ [y] = b ++ [x] := by
        intro h; exact hq (List.append_inj' h rfl).1
      rw [if_neg this, hw.listed]
  · rw [put_names] at hy
    split at hy
    · rcases List.mem_append.1 hy with hy | hy
      · exact hw.plain q y hy
      · rw [List.mem_singleton.1 hy]; exact hx
    · exact hw.plain q y hy

open Classical in
/-- Directories made on a way that is not blocked. -/
theorem makeDirs_spec (hw : d.WF) (b rest : List Bytes) (hb : d.node b = some .dir)
    (hx : ∀ x ∈ rest, FileName x) (hf : ∀ r, r <+: rest → ∀ c, d.node (b ++ r) ≠ some (.file c)) :
    (d.makeDirs b rest).WF ∧
    (∀ q, (d.makeDirs b rest).node q =
      if d.node q = none ∧ (∃ r, r <+: rest ∧ q = b ++ r) then some .dir else d.node q) ∧
    (∀ q, ∃ new, (d.makeDirs b rest).names q = d.names q ++ new ∧
      ∀ x ∈ new, d.node (q ++ [x]) = none ∧ ∃ r, r <+: rest ∧ q ++ [x] = b ++ r) := by
  induction rest generalizing d b with
  | nil =>
    refine ⟨hw, fun q => ?_, fun q => ⟨[], by simp [Disk.makeDirs]⟩⟩
    show d.node q = _
    split
    · rename_i h
      obtain ⟨h0, r, hr, rfl⟩ := h
      rw [List.prefix_nil.1 hr, List.append_nil, hb] at h0
      cases h0
    · rfl
  | cons x rest ih =>
    unfold Disk.makeDirs
    have hxn := hx x (List.mem_cons_self ..)
    have hpre : ∀ r, r <+: rest → (x :: r) <+: (x :: rest) := fun r hr => (List.cons_prefix_cons).2 ⟨rfl, hr⟩
    by_cases hn : d.node (b ++ [x]) = none
    · rw [if_pos hn]
      set d1 := d.put (b ++ [x]) .dir with hd1
      have hw1 : d1.WF := put_wf hw hxn hb (Or.inl rfl)
      have hnode : ∀ q, d1.node q = if q = b ++ [x] then some .dir else d.node q := fun q => put_node ..
      obtain ⟨h1, h2, h3⟩ := ih (d := d1) hw1 (b ++ [x]) (by rw [hnode, if_pos rfl])
        (fun y hy => hx y (List.mem_cons_of_mem _ hy)) (by
          intro r hr c hc
          rw [hnode] at hc
          split at hc
          · cases hc
          · exact hf (x :: r) (hpre r hr) c (by simpa using hc))
      refine ⟨h1, fun q => ?_, fun q => ?_⟩
      · rw [h2, hnode]
        by_cases hq : q = b ++ [x]
        · rw [if_pos hq, if_neg (by simp), if_pos]
          exact ⟨by rw [hq]; exact hn, [x], by simp, hq⟩
        · rw [if_neg hq]
          by_cases hqn : d.node q = none
          · have : (∃ r, r <+: rest ∧ q = b ++ [x] ++ r) ↔ (∃ r, r <+: x :: rest ∧ q = b ++ r) := by
              constructor
              · rintro ⟨r, hr, rfl⟩; exact ⟨x :: r, hpre r hr, by simp⟩
              · rintro ⟨r, hr, rfl⟩
                cases r with
                | nil => rw [List.append_nil, hb] at hqn; cases hqn
                | cons y r =>
                  obtain ⟨rfl, hr'⟩ := (List.cons_prefix_cons).1 hr
                  exact ⟨r, hr', by simp⟩
            simp only [hqn, true_and, this]
          · simp [hqn]
      · obtain ⟨new, hnew, hall⟩ := h3 q
        rw [hnew, put_names]
        have hall' : ∀ y ∈ new, d.node (q ++ [y]) = none ∧ ∃ r, r <+: x :: rest ∧ q ++ [y] = b ++ r := by
          intro y hy
          obtain ⟨hy1, r, hr, he⟩ := hall y hy
          rw [hnode] at hy1
          split at hy1
          · cases hy1
          · exact ⟨hy1, x :: r, hpre r hr, by simpa using he⟩
        by_cases hq : q = b ∧ x ∉ d.names q
        · rw [if_pos hq]
          refine ⟨x :: new, by simp, ?_⟩
          intro y hy
          rcases List.mem_cons.1 hy with rfl | hy
          · exact ⟨by rw [hq.1]; exact hn, [y], by simp, by rw [hq.1]⟩
          · exact hall' y hy
        · rw [if_neg hq]; exact ⟨new, rfl, hall'⟩
    · rw [if_neg hn]
      have hd : d.node (b ++ [x]) = some .dir := by
        cases h : d.node (b ++ [x]) with
        | none => exact absurd h hn
        | some e =>
          cases e with
          | dir => rfl
          | file c => exact absurd h (hf [x] (by simp) c)
      obtain ⟨h1, h2, h3⟩ := ih hw (b ++ [x]) hd (fun y hy => hx y (List.mem_cons_of_mem _ hy)) (by
          intro r hr c hc
          exact hf (x :: r) (hpre r hr) c (by simpa using hc))
      have hiff : ∀ q, d.node q = none → ((∃ r, r <+: rest ∧ q = b ++ [x] ++ r) ↔ (∃ r, r <+: x :: rest ∧ q = b ++ r)) := by
        intro q hqn
        constructor
        · rintro ⟨r, hr, rfl⟩; exact ⟨x :: r, hpre r hr, by simp⟩
        · rintro ⟨r, hr, rfl⟩
          cases r with
          | nil => rw [List.append_nil, hb] at hqn; cases hqn
          | cons y r =>
            obtain ⟨rfl, hr'⟩ := (List.cons_prefix_cons).1 hr
            exact ⟨r, hr', by simp⟩
      refine ⟨h1, fun q => ?_, fun q => ?_⟩
      · rw [h2]
        by_cases hqn : d.node q = none
        · simp only [hqn, true_and, hiff q hqn]
        · simp [hqn]
      · obtain ⟨new, hnew, hall⟩ := h3 q
        exact ⟨new, hnew, fun y hy => ⟨(hall y hy).1, (hiff _ (hall y hy).1).1 (hall y hy).2⟩⟩

/-- Where all directories exist, none are made. -/
theorem makeDirs_same (b rest : List Bytes) (h : ∀ r, r <+: rest → d.node (b ++ r) ≠ none) : d.makeDirs b rest = d := by
  induction rest generalizing b with
  | nil => rfl
  | cons x rest ih =>
    unfold Disk.makeDirs
    rw [if_neg (h [x] (by simp))]
    exact ih (b ++ [x]) fun r hr => by
      have := h (x :: r) ((List.cons_prefix_cons).2 ⟨rfl, hr⟩)
      simpa using this

theorem Spec.Disk.WF.prefix {d : Disk} (h : d.WF) {q r : List Bytes} (hr : r <+: q) (hq : d.node q ≠ none) :
    r = q ∨ d.node r = some .dir := by
  induction q using List.reverseRecOn with
  | nil => exact Or.inl (List.prefix_nil.1 hr)
  | append_singleton q x ih =>
    rcases List.prefix_concat_iff.1 hr with h1 | h1
    · exact Or.inl h1
    · right
      rcases ih h1 (by rw [h.parent q x hq]; simp) with rfl | h2
      · exact h.parent r x hq
      · exact h2

end

/-! ### Running -/

theorem run_bind {α β : Type} (p : Prog α) (f : α → Prog β) (d : Disk) :
    d.run (p.bind f) = match d.run p with
      | (d', .done a) => d'.run (f a)
      | (d', .panic w) => (d', .panic w)
      | (d', .hang) => (d', .hang)
      | (d', .cut) => (d', .cut) := by
  induction p generalizing d with
  | ret a => rfl
  | panic w => rfl
  | hang => rfl
  | op o k ih => exact ih _ _

/-- What is run on a disk is one of the runs of a program. -/
theorem run_traces {α : Type} (p : Prog α) (d : Disk) : ∃ t, Traces p t (d.run p).2 := by
  induction p generalizing d with
  | ret a => exact ⟨_, .ret⟩
  | panic w => exact ⟨_, .panic⟩
  | hang => exact ⟨_, .hang⟩
  | op o k ih =>
    obtain ⟨t, h⟩ := ih (d.ans o) (d.after o)
    exact ⟨_, .op _ h⟩

end Cddlc
