import Verif.Lemmas.Uncomment
import Verif.Lemmas.RunTy

/-! Derivations of Spec/Language.lean do not depend on positions, if there are no comments. -/

namespace Cddlc
open Spec

/-- What is written. -/
def spelling (t : Token) : Tok × Bytes := (t.tok, t.lit)

theorem spelling_iff {t u : Token} : spelling t = spelling u ↔ t.tok = u.tok ∧ t.lit = u.lit := by
  simp [spelling]

theorem single_respell {t t' : Token} (h : spelling t' = spelling t) {x} (hs : Single t x) :
    ∃ x', Single t' x' ∧ noPos x' = noPos x := by
  obtain ⟨h1, h2⟩ := spelling_iff.mp h
  cases hs with
  | bool h => exact ⟨_, .bool (h1.trans h), by simp [noPos, h1]⟩
  | true h => exact ⟨_, .true (h1.trans h), rfl⟩
  | false h => exact ⟨_, .false (h1.trans h), rfl⟩
  | text h => exact ⟨_, .text (by rw [h1]; exact h), by simp [noPos, h1]⟩
  | literal h => exact ⟨_, .literal (h1.trans h), by simp [noPos, h1, h2]⟩
  | float h => exact ⟨_, .float (by rw [h1, h2]; exact h), by simp [noPos, h1]⟩
  | fraction h k l => exact ⟨_, .fraction (h1.trans h) (by rw [h2]; exact k) (by rw [h2]; exact l), by simp [noPos, h1]⟩
  | uint h => exact ⟨_, .uint (h1.trans h), by simp [noPos, h1]⟩
  | int h k => exact ⟨_, .int (h1.trans h) (h2.trans k), by simp [noPos, h1]⟩
  | number h k l => exact ⟨_, .number (h1.trans h) (by rw [h2]; exact k) (by rw [h2]; exact l), by simp [noPos, h1]⟩
  | nint h => exact ⟨_, .nint (h1.trans h), by simp [noPos, h1]⟩
  | bstr h => exact ⟨_, .bstr (h1.trans h), by simp [noPos, h1]⟩
  | bytes h => exact ⟨_, .bytes (h1.trans h), by simp [noPos, h1]⟩
  | null h => exact ⟨_, .null (by rw [h1]; exact h), by simp [noPos, h1]⟩

theorem nums_respell {ns ns' : List Token} (h : ns'.map spelling = ns.map spelling) {a b} (hn : TagNums ns a b) :
    ∃ a' b', TagNums ns' a' b' ∧ a'.map noPosU = a.map noPosU ∧ b'.map noPosU = b.map noPosU := by
  cases hn with
  | none =>
    obtain rfl : ns' = [] := by simpa using h
    exact ⟨_, _, .none, rfl, rfl⟩
  | major k1 k2 =>
    obtain ⟨t', us, rfl, h3, h4⟩ := List.map_eq_cons_iff.mp h
    obtain rfl : us = [] := by simpa using h4
    obtain ⟨h1, h2⟩ := spelling_iff.mp h3
    exact ⟨_, _, .major (h1.trans k1) (by rw [h2]; exact k2), rfl, rfl⟩
  | both k1 k2 k3 k4 =>
    obtain ⟨t', us, rfl, h3, h4⟩ := List.map_eq_cons_iff.mp h
    obtain rfl : us = [] := by simpa using h4
    obtain ⟨h1, h2⟩ := spelling_iff.mp h3
    exact ⟨_, _, .both (h1.trans k1) (by rw [h2]; exact k2) k3 k4, by simp [noPosU, h1], by simp [noPosU, h1]⟩

theorem upper_respell {f f' : Token} (h : spelling f' = spelling f) {u} (hu : Upper f u) :
    ∃ u', Upper f' u' ∧ u'.map noPosU = u.map noPosU := by
  obtain ⟨h1, h2⟩ := spelling_iff.mp h
  cases hu with
  | none k => exact ⟨_, .none (by rw [h1, h2]; exact k), rfl⟩
  | some k l j => exact ⟨_, .some (h1.trans k) (by rw [h2]; exact l) (by rw [h2]; exact j), by simp [noPosU, h1]⟩

theorem marked_respell {m m' f f' : Token} (hm : spelling m' = spelling m) (hf : spelling f' = spelling f) {x x' y}
    (hx : noPos x' = noPos x) (h : Marked m f x y) : ∃ y', Marked m' f' x' y' ∧ noPos y' = noPos y := by
  obtain ⟨h1, h2⟩ := spelling_iff.mp hm
  cases h with
  | optional k => exact ⟨_, .optional (h1.trans k), by simp [noPos, h1, hx]⟩
  | unwrap k => exact ⟨_, .unwrap (h1.trans k), by simp [noPos, h1, hx]⟩
  | enumeration k => exact ⟨_, .enumeration (h1.trans k), by simp [noPos, h1, hx]⟩
  | any k l =>
    obtain ⟨u', k1, k2⟩ := upper_respell hf l
    exact ⟨_, .any (h1.trans k) k1, by simp [noPos, h1, hx, k2, noPosU]⟩
  | some k l =>
    obtain ⟨u', k1, k2⟩ := upper_respell hf l
    exact ⟨_, .some (h1.trans k) k1, by simp [noPos, h1, hx, k2, noPosU]⟩

theorem keptEnd_noPos (a b : Node) : keptEnd (noPos a) (noPos b) = (keptEnd a b).map noPos := by
  cases a with
  | ident i => rfl
  | intLit p t v => cases b <;> rfl
  | floatLit p t v => cases b <;> rfl
  | _ => rfl

theorem rangeChecks_noPos (tok : Tok) (a b : Node) : rangeChecks tok (noPos a) (noPos b) = rangeChecks tok a b := by
  cases a with
  | ident i => cases b <;> rfl
  | intLit p t v => cases b <;> rfl
  | floatLit p t v => cases b <;> rfl
  | _ => rfl

theorem joined_respell {op op' f f' : Token} (ho : spelling op' = spelling op) (hf : spelling f' = spelling f) {a a' b b' y es}
    (ha : noPos a' = noPos a) (hb : noPos b' = noPos b) (h : Joined op f a b y es) :
    ∃ y', Joined op' f' a' b' y' es ∧ noPos y' = noPos y := by
  obtain ⟨h1, h2⟩ := spelling_iff.mp ho
  have hka : a'.kind = a.kind := by rw [← noPos_kind, ha, noPos_kind]
  cases h with
  | field k =>
    obtain ⟨pos, rfl⟩ := noPos_ident ha
    exact ⟨_, .field (by rw [h1]; exact k), by simp [noPos, hb]⟩
  | keyed k =>
    obtain ⟨pos, rfl⟩ := noPos_intLit ha
    exact ⟨_, .keyed (by rw [h1]; exact k), by simp [noPos, hb]⟩
  | choice k => exact ⟨_, .choice (by rw [h1]; exact k), by simp [noPos, h1, ha, hb]⟩
  | size k l => exact ⟨_, .size (h1.trans k) (by rw [hka]; exact l), by simp [noPos, h1, ha, hb]⟩
  | regexp k l =>
    obtain ⟨pos, rfl⟩ := noPos_tstr ha
    exact ⟨_, .regexp (h1.trans k) (by rw [(spelling_iff.mp hf).1]; exact l), by simp [noPos, h1, hb]⟩
  | bits k => exact ⟨_, .bits (h1.trans k), by simp [noPos, h1, ha, hb]⟩
  | compare k l => exact ⟨_, .compare (by rw [h1]; exact k) (by rw [hka]; exact l), by simp [noPos, h1, h2, hb]⟩
  | occ k l j =>
    obtain ⟨pos, rfl⟩ := noPos_intLit ha
    obtain ⟨u', k1, k2⟩ := upper_respell hf j
    exact ⟨_, .occ (by rw [h1]; exact k) l k1, by simp [noPos, h1, hb, k2, noPosU]⟩
  | range k l =>
    have hk : (keptEnd a' b').map noPos = (keptEnd a b).map noPos := by
      rw [← keptEnd_noPos, ha, hb, keptEnd_noPos]
    rw [l] at hk
    obtain ⟨hi', k1, k2⟩ := Option.map_eq_some_iff.mp hk
    have hc : rangeChecks op.tok a b = rangeChecks op'.tok a' b' := by
      rw [← rangeChecks_noPos, ← ha, ← hb, rangeChecks_noPos, h1]
    rw [hc]
    exact ⟨_, .range (by rw [h1]; exact k) k1, by simp [noPos, h1, ha, k2]⟩

/-- The same part but for positions. -/
def SamePart : Part → Part → Prop
  | .operand x', .operand x => noPos x' = noPos x
  | .entry x', .entry x => noPos x' = noPos x
  | .entries xs', .entries xs => noPosL xs' = noPosL xs
  | _, _ => False

theorem respell_firstTok {us us' : List Token} (h : us'.map spelling = us.map spelling) {nx nx' : Token}
    (hn : spelling nx' = spelling nx) : spelling (firstTok us' nx') = spelling (firstTok us nx) := by
  cases us with
  | nil =>
    obtain rfl : us' = [] := by simpa using h
    exact hn
  | cons a us =>
    obtain ⟨b, vs, rfl, h1, h2⟩ := List.map_eq_cons_iff.mp h
    exact h1

theorem firstTok_ne {us : List Token} {nx : Token} (h : ∀ t ∈ us, t.tok ≠ .COMMENT) (hn : nx.tok ≠ .COMMENT) :
    (firstTok us nx).tok ≠ .COMMENT := by
  cases us with
  | nil => exact hn
  | cons a us => exact h a (by simp)

theorem respell {part ts nx cs} (h : Lang part ts nx cs) : (∀ t ∈ ts, t.tok ≠ .COMMENT) → nx.tok ≠ .COMMENT →
    ∀ ts' nx', ts'.map spelling = ts.map spelling → spelling nx' = spelling nx →
    ∃ part', Lang part' ts' nx' cs ∧ SamePart part' part := by
  have one : ∀ {t : Token} {ts' : List Token}, ts'.map spelling = [t].map spelling → ∃ t', ts' = [t'] ∧ spelling t' = spelling t := by
    intro t ts' h
    obtain ⟨t', us, rfl, h3, h4⟩ := List.map_eq_cons_iff.mp h
    obtain rfl : us = [] := by simpa using h4
    exact ⟨t', rfl, h3⟩
  have two : ∀ {ts us ts' : List Token}, ts'.map spelling = (ts ++ us).map spelling →
      ∃ vs ws, ts' = vs ++ ws ∧ vs.map spelling = ts.map spelling ∧ ws.map spelling = us.map spelling := by
    intro ts us ts' h
    rw [List.map_append] at h
    exact List.map_eq_append_iff.mp h
  have front : ∀ {t : Token} {us ts' : List Token}, ts'.map spelling = (t :: us).map spelling →
      ∃ t' vs, ts' = t' :: vs ∧ spelling t' = spelling t ∧ vs.map spelling = us.map spelling := by
    intro t us ts' h
    exact List.map_eq_cons_iff.mp h
  have en : ∀ {part' x ts' nx' cs}, Lang part' ts' nx' cs → SamePart part' (.entry x) → ∃ x', Lang (.entry x') ts' nx' cs ∧ noPos x' = noPos x := by
    intro part' x ts' nx' cs h1 h2
    cases part' with
    | entry x' => exact ⟨x', h1, h2⟩
    | operand _ | entries _ => exact h2.elim
  have opd : ∀ {part' x ts' nx' cs}, Lang part' ts' nx' cs → SamePart part' (.operand x) → ∃ x', Lang (.operand x') ts' nx' cs ∧ noPos x' = noPos x := by
    intro part' x ts' nx' cs h1 h2
    cases part' with
    | operand x' => exact ⟨x', h1, h2⟩
    | entry _ | entries _ => exact h2.elim
  have ens : ∀ {part' xs ts' nx' cs}, Lang part' ts' nx' cs → SamePart part' (.entries xs) →
      ∃ xs', Lang (.entries xs') ts' nx' cs ∧ noPosL xs' = noPosL xs := by
    intro part' x ts' nx' cs h1 h2
    cases part' with
    | entries x' => exact ⟨x', h1, h2⟩
    | entry _ | operand _ => exact h2.elim
  induction h with
  | @name t nx h =>
    intro hc hn ts' nx' ht hx
    obtain ⟨t', rfl, h1⟩ := one ht
    obtain ⟨h1, h2⟩ := spelling_iff.mp h1
    obtain ⟨h3, h4⟩ := spelling_iff.mp hx
    have := Lang.name (nx := nx') (h1.trans h)
    rw [h3, h2] at this
    exact ⟨_, this, by simp [SamePart, noPos]⟩
  | @single t x nx h =>
    intro hc hn ts' nx' ht hx
    obtain ⟨t', rfl, h1⟩ := one ht
    obtain ⟨x', k1, k2⟩ := single_respell h1 h
    exact ⟨_, .single k1, k2⟩
  | @group o c ts xs cs nx h1 h2 h3 ih =>
    intro hc hn ts' nx' ht hx
    obtain ⟨us, w, rfl, k1, k2⟩ := two ht
    obtain ⟨o', us, rfl, k3, k4⟩ := front k1
    obtain ⟨c', rfl, k5⟩ := one k2
    obtain ⟨part', j1, j2⟩ := ih (fun t ht => hc t (by simp [ht])) (hc c (by simp)) us c' k4 k5
    obtain ⟨xs', j1, j2⟩ := ens j1 j2
    refine ⟨_, .group ((spelling_iff.mp k3).1.trans h1) ((spelling_iff.mp k5).1.trans h2) j1, ?_⟩
    simp only [SamePart, noPos]
    rw [noPosL_filter, noPosL_filter, j2]
  | @array o c ts xs cs nx h1 h2 h3 ih =>
    intro hc hn ts' nx' ht hx
    obtain ⟨us, w, rfl, k1, k2⟩ := two ht
    obtain ⟨o', us, rfl, k3, k4⟩ := front k1
    obtain ⟨c', rfl, k5⟩ := one k2
    obtain ⟨part', j1, j2⟩ := ih (fun t ht => hc t (by simp [ht])) (hc c (by simp)) us c' k4 k5
    obtain ⟨xs', j1, j2⟩ := ens j1 j2
    refine ⟨_, .array ((spelling_iff.mp k3).1.trans h1) ((spelling_iff.mp k5).1.trans h2) j1, ?_⟩
    simp only [SamePart, noPos]
    rw [noPosL_filter, noPosL_filter, j2]
  | @map o c ts xs cs nx h1 h2 h3 ih =>
    intro hc hn ts' nx' ht hx
    obtain ⟨us, w, rfl, k1, k2⟩ := two ht
    obtain ⟨o', us, rfl, k3, k4⟩ := front k1
    obtain ⟨c', rfl, k5⟩ := one k2
    obtain ⟨part', j1, j2⟩ := ih (fun t ht => hc t (by simp [ht])) (hc c (by simp)) us c' k4 k5
    obtain ⟨xs', j1, j2⟩ := ens j1 j2
    refine ⟨_, .map ((spelling_iff.mp k3).1.trans h1) ((spelling_iff.mp k5).1.trans h2) j1, ?_⟩
    simp only [SamePart, noPos, j2]
  | @tag hd ns a b nx h1 h2 h3 h4 =>
    intro hc hn ts' nx' ht hx
    obtain ⟨hd', ns', rfl, k1, k2⟩ := front ht
    obtain ⟨a', b', j1, j2, j3⟩ := nums_respell k2 h2
    obtain ⟨e1, _⟩ := spelling_iff.mp hx
    refine ⟨_, .tag ((spelling_iff.mp k1).1.trans h1) j1 (by rw [e1]; exact h3) (fun hns => ?_), ?_⟩
    · rw [e1]
      apply h4
      rw [hns] at k2
      simpa using k2.symm
    · simp [SamePart, noPos, j2, j3, (spelling_iff.mp k1).1]
  | @tagged hd ns a b o c ts x cs nx h1 h2 h3 h4 h5 ih =>
    intro hc hn ts' nx' ht hx
    obtain ⟨us, w, rfl, k1, k2⟩ := two ht
    obtain ⟨vs, us, rfl, k3, k4⟩ := two k1
    obtain ⟨hd', ns', rfl, k5, k6⟩ := front k3
    obtain ⟨o', us, rfl, k7, k8⟩ := front k4
    obtain ⟨c', rfl, k9⟩ := one k2
    obtain ⟨a', b', j1, j2, j3⟩ := nums_respell k6 h2
    obtain ⟨part', i1, i2⟩ := ih (fun t ht => hc t (by simp [ht])) (hc c (by simp)) us c' k8 k9
    obtain ⟨x', i1, i2⟩ := en i1 i2
    refine ⟨_, .tagged ((spelling_iff.mp k5).1.trans h1) j1 ((spelling_iff.mp k7).1.trans h3) ((spelling_iff.mp k9).1.trans h4) i1, ?_⟩
    simp [SamePart, noPos, j2, j3, i2, (spelling_iff.mp k5).1]
  | @noRange op ts a cs nx h1 h2 h3 ih =>
    intro hc hn ts' nx' ht hx
    obtain ⟨us, w, rfl, k1, k2⟩ := two ht
    obtain ⟨op', rfl, k3⟩ := one k2
    obtain ⟨part', i1, i2⟩ := ih (fun t ht => hc t (by simp [ht])) (hc op (by simp)) us op' k1 k3
    obtain ⟨a', i1, i2⟩ := opd i1 i2
    refine ⟨_, .noRange (by rw [(spelling_iff.mp k3).1]; exact h1) i1 (by rw [← noPos_kind, i2, noPos_kind]; exact h3), rfl⟩
  | @noted op f ts us a b c p i v cs ds es nx h1 h2 h3 h4 ih1 ih2 =>
    intro hc
    exact absurd h4.1 (hc c (by simp))
  | @only ts x cs nx h1 h2 h3 ih =>
    intro hc hn ts' nx' ht hx
    obtain ⟨part', i1, i2⟩ := ih hc hn ts' nx' ht hx
    obtain ⟨x', i1, i2⟩ := opd i1 i2
    obtain ⟨e1, _⟩ := spelling_iff.mp hx
    exact ⟨_, .only i1 (by rw [e1]; exact h2) (by rw [e1]; exact h3), i2⟩
  | @comma ts c x cs nx h1 h2 ih =>
    intro hc hn ts' nx' ht hx
    obtain ⟨us, w, rfl, k1, k2⟩ := two ht
    obtain ⟨c', rfl, k3⟩ := one k2
    obtain ⟨part', i1, i2⟩ := ih (fun t ht => hc t (by simp [ht])) (hc c (by simp)) us c' k1 k3
    obtain ⟨x', i1, i2⟩ := opd i1 i2
    exact ⟨_, .comma ((spelling_iff.mp k3).1.trans h1) i1, i2⟩
  | @marked m f ts x y cs nx h1 h2 ih =>
    intro hc hn ts' nx' ht hx
    obtain ⟨m', us, rfl, k1, k2⟩ := front ht
    obtain ⟨part', i1, i2⟩ := ih (fun t ht => hc t (List.mem_cons_of_mem _ ht)) hn us nx' k2 hx
    obtain ⟨x', i1, i2⟩ := en i1 i2
    obtain ⟨f', us, rfl, k3, k4⟩ := front k2
    obtain ⟨y', j1, j2⟩ := marked_respell k1 k3 i2 h1
    exact ⟨_, .marked j1 i1, j2⟩
  | @unclosed hd ns a b o ts x cs nx h1 h2 h3 h4 h5 ih =>
    intro hc hn ts' nx' ht hx
    obtain ⟨vs, us, rfl, k3, k4⟩ := two ht
    obtain ⟨hd', ns', rfl, k5, k6⟩ := front k3
    obtain ⟨o', us, rfl, k7, k8⟩ := front k4
    obtain ⟨a', b', j1, j2, j3⟩ := nums_respell k6 h2
    obtain ⟨part', i1, i2⟩ := ih (fun t ht => hc t (by simp [ht])) hn us nx' k8 hx
    obtain ⟨x', i1, i2⟩ := en i1 i2
    refine ⟨_, .unclosed ((spelling_iff.mp k5).1.trans h1) j1 ((spelling_iff.mp k7).1.trans h3)
      (by rw [(spelling_iff.mp hx).1]; exact h4) i1, ?_⟩
    simp [SamePart, noPos, j2, j3, i2, (spelling_iff.mp k5).1]
  | @joined op f ts us a b y cs ds es nx h1 h2 h3 h4 ih1 ih2 =>
    intro hc hn ts' nx' ht hx
    obtain ⟨vs, ws, rfl, k1, k2⟩ := two ht
    obtain ⟨op', ws, rfl, k3, k4⟩ := front k2
    obtain ⟨part', i1, i2⟩ := ih1 (fun t ht => hc t (by simp [ht])) (hc op (by simp)) vs op' k1 k3
    obtain ⟨a', i1, i2⟩ := opd i1 i2
    obtain ⟨part', j1, j2⟩ := ih2 (fun t ht => hc t (List.mem_append_right _ (List.mem_cons_of_mem _ ht))) hn ws nx' k4 hx
    obtain ⟨b', j1, j2⟩ := en j1 j2
    obtain ⟨f', ws, rfl, k5, k6⟩ := front k4
    obtain ⟨y', l1, l2⟩ := joined_respell k3 k5 i2 j2 h3
    exact ⟨_, .joined i1 j1 l1 fun _ => no_trails (by rw [(spelling_iff.mp hx).1]; exact hn), l2⟩
  | @skip c ts x cs nx h1 h2 ih =>
    intro hc
    exact absurd h1 (hc c (by simp))
  | nil =>
    intro hc hn ts' nx' ht hx
    obtain rfl : ts' = [] := by simpa using ht
    exact ⟨_, .nil, rfl⟩
  | @cons ts us x xs cs ds nx h1 h2 ih1 ih2 =>
    intro hc hn ts' nx' ht hx
    obtain ⟨vs, ws, rfl, k1, k2⟩ := two ht
    have hcu : ∀ t ∈ us, t.tok ≠ .COMMENT := fun t ht => hc t (List.mem_append_right _ ht)
    obtain ⟨part', i1, i2⟩ := ih1 (fun t ht => hc t (List.mem_append_left _ ht)) (firstTok_ne hcu hn) vs (firstTok ws nx') k1 (respell_firstTok k2 hx)
    obtain ⟨x', i1, i2⟩ := en i1 i2
    obtain ⟨part', j1, j2⟩ := ih2 hcu hn ws nx' k2 hx
    obtain ⟨xs', j1, j2⟩ := ens j1 j2
    exact ⟨_, .cons i1 j1, by simp [SamePart, noPosL, i2, j2]⟩

/-- What is declared, without positions. -/
def noPosD (ds : List (Bytes × Node)) : List (Bytes × Node) := ds.map fun d => (d.1, noPos d.2)

theorem respell_rules {eof eof' : Token} (he : eof.tok ≠ .COMMENT) (hx : spelling eof' = spelling eof) {ts rules ds cs}
    (h : Rules eof ts rules ds cs) : (∀ t ∈ ts, t.tok ≠ .COMMENT) → ∀ ts', ts'.map spelling = ts.map spelling →
    ∃ rules' ds', Rules eof' ts' rules' ds' cs ∧ noPosL rules' = noPosL rules ∧ noPosD ds' = noPosD ds := by
  have body : ∀ {ts us : List Token} {x k vs cs} {us' ts' : List Token}, Lang (.entry x) ts (firstTok us eof) cs →
      Behind eof ts us k vs → (∀ t ∈ ts, t.tok ≠ .COMMENT) → (∀ t ∈ us, t.tok ≠ .COMMENT) → ts'.map spelling = ts.map spelling →
      us'.map spelling = us.map spelling → k = none ∧ vs = us ∧ ∃ x', Lang (.entry x') ts' (firstTok us' eof') cs ∧
        noPos x' = noPos x ∧ Behind eof' ts' us' none us' := by
    intro ts us x k vs cs us' ts' h1 hb hc hu ht' hu'
    cases hb with
    | some h => exact absurd h.1 (hu _ (by simp))
    | none h =>
      have hf := respell_firstTok hu' hx
      obtain ⟨part', i1, i2⟩ := respell h1 hc (firstTok_ne hu he) ts' _ ht' hf
      cases part' with
      | entry x' =>
        refine ⟨rfl, rfl, x', i1, i2, .none (no_trails ?_)⟩
        rw [(spelling_iff.mp hf).1]
        exact firstTok_ne hu he
      | operand _ | entries _ => exact i2.elim
  induction h with
  | nil =>
    intro hc ts' ht
    obtain rfl : ts' = [] := by simpa using ht
    exact ⟨_, _, .nil, rfl, rfl⟩
  | comments h1 h2 =>
    intro hc
    obtain ⟨g, gs, rfl⟩ := List.exists_cons_of_ne_nil h1
    exact absurd (h2 g (by simp)) (hc g (by simp))
  | @declare n a ts us vs x k cs rs ds es h1 h2 h3 hb hr ih =>
    intro hc ts' ht
    rw [List.map_append] at ht
    obtain ⟨ws, us', rfl, k1, k2⟩ := List.map_eq_append_iff.mp ht
    obtain ⟨n', ws, rfl, k3, k4⟩ := List.map_eq_cons_iff.mp k1
    obtain ⟨a', ts', rfl, k5, k6⟩ := List.map_eq_cons_iff.mp k4
    obtain ⟨rfl, rfl, x', j1, j2, j3⟩ := body h3 hb (fun t ht => hc t (by simp [ht])) (fun t ht => hc t (by simp [ht])) k6 k2
    obtain ⟨rules', ds', i1, i2, i3⟩ := ih (fun t ht => hc t (by simp [ht])) us' k2
    obtain ⟨e1, e2⟩ := spelling_iff.mp k3
    refine ⟨_, _, .declare (e1.trans h1) ((spelling_iff.mp k5).1.trans h2) j1 j3 i1, ?_, ?_⟩
    · simp [noPosL, noPos, i2, j2, e2]
    · simp only [noPosD, List.map_cons] at i3 ⊢
      rw [i3, e2, j2]
  | @extend n a ts us vs x k cs rs ds es h1 h2 h3 hb hr ih =>
    intro hc ts' ht
    rw [List.map_append] at ht
    obtain ⟨ws, us', rfl, k1, k2⟩ := List.map_eq_append_iff.mp ht
    obtain ⟨n', ws, rfl, k3, k4⟩ := List.map_eq_cons_iff.mp k1
    obtain ⟨a', ts', rfl, k5, k6⟩ := List.map_eq_cons_iff.mp k4
    obtain ⟨rfl, rfl, x', j1, j2, j3⟩ := body h3 hb (fun t ht => hc t (by simp [ht])) (fun t ht => hc t (by simp [ht])) k6 k2
    obtain ⟨rules', ds', i1, i2, i3⟩ := ih (fun t ht => hc t (by simp [ht])) us' k2
    obtain ⟨e1, e2⟩ := spelling_iff.mp k3
    refine ⟨_, _, .extend (e1.trans h1) (by rw [(spelling_iff.mp k5).1]; exact h2) j1 j3 i1, ?_, i3⟩
    simp [noPosL, noPos, i2, j2, e2]

end Cddlc
