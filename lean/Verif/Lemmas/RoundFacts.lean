import Verif.Lemmas.Listable
import Verif.Lemmas.RunFile
import Mathlib.Data.List.Chain

/-! Facts about written schemas: the two readings agree on plain ones, every schema has a text,
digits, alternatives, and schemas without comments. -/

namespace Cddlc
open Spec

/-! ### The two readings -/

theorem kind_withNote (c : List Char) : (x : Node) → (withNote c x).kind = x.kind := by
  intro x; cases x <;> rfl

theorem kind_quirks : (t : Ty) → (t.node true).kind = (t.node false).kind
  | .name _ | .kw _ | .int _ | .float _ _ | .text _ | .tag _ | .tagged _ _ | .occ _ _ | .field _ _ => rfl
  | .list br _ => by cases br <;> rfl
  | .pre o _ => by cases o <;> rfl
  | .bin o _ _ => by cases o <;> rfl
  | .noted _ _ t => kind_quirks t
  | .remark t _ _ => by simp only [Ty.node, kind_withNote, kind_quirks t]

theorem kinds_quirks : (es : Ents) → (es.nodes true).map Node.kind = (es.nodes false).map Node.kind
  | .nil => rfl
  | .cons t _ es => by simp [Ents.nodes, kind_quirks t, kinds_quirks es]

mutual
/-- On plain types nothing is lost. -/
theorem plain_node : {t : Ty} → t.plain = true → t.node true = t.node false
  | .name _, _ | .kw _, _ | .int _, _ | .float _ _, _ | .text _, _ | .tag _, _ => rfl
  | .list .brace es, h => by
    simp only [Ty.plain] at h
    simp only [Ty.node, plain_nodes h, Br.node]
  | .list .paren es, h => by
    simp only [Ty.plain, Bool.and_eq_true] at h
    simp only [Ty.node, plain_nodes h.1, Br.node]
    simp [List.filter_eq_self.mpr (by simpa using h.2)]
  | .list .brack es, h => by
    simp only [Ty.plain, Bool.and_eq_true] at h
    simp only [Ty.node, plain_nodes h.1, Br.node]
    simp [List.filter_eq_self.mpr (by simpa using h.2)]
  | .tagged _ t, h => by
    simp only [Ty.plain] at h
    simp only [Ty.node, plain_node h]
  | .pre _ t, h => by
    simp only [Ty.plain] at h
    simp only [Ty.node, plain_node h]
  | .occ _ t, h => by
    simp only [Ty.plain, Bool.and_eq_true, Option.isNone_iff_eq_none] at h
    simp [Ty.node, plain_node h.1, h.2]
  | .field _ t, h => by
    simp only [Ty.plain] at h
    simp only [Ty.node, plain_node h]
  | .noted _ _ t, h | .remark t _ _, h => by
    simp only [Ty.plain] at h
    simp only [Ty.node, plain_node h]
  | .bin o l r, h => by
    simp only [Ty.plain, Bool.and_eq_true] at h
    obtain ⟨⟨⟨⟨h1, h2⟩, h3⟩, h4⟩, h5⟩ := h
    simp only [Ty.node, plain_node h1, plain_node h2]
    have up : o.isRange = true → upperEnd true (l.node false) (r.node false) = r.node false := by
      intro ho
      rw [if_pos ho] at h4
      unfold upperEnd
      rw [if_neg]
      simp only [Bool.or_eq_true, beq_iff_eq] at h4
      simp only [Bool.true_and, Bool.and_eq_true, bne_iff_ne]
      rintro ⟨⟨k1, k2⟩, k3⟩
      rcases h4 with (h4 | h4) | h4
      · exact k1 h4
      · exact k2 h4
      · exact k3 h4
    cases o with
    | choice | gchoice | size | regexp | bits | arrow | colon => rfl
    | lt | le | gt | ge | eq | ne => simp [Bin.isCmp] at h3
    | incl | excl => simp only [Bin.node, up rfl]; rfl
    | star | plus =>
      simp only [reduceCtorEq, or_true, true_or, if_true, Option.isNone_iff_eq_none] at h5
      simp [Bin.node, h5]
theorem plain_nodes : {es : Ents} → es.plain = true → es.nodes true = es.nodes false
  | .nil, _ => rfl
  | .cons t _ es, h => by
    simp only [Ents.plain, Bool.and_eq_true] at h
    simp only [Ents.nodes, plain_node h.1, plain_nodes h.2]
end

/-! ### Every schema has a text -/

/-- Is it a comment? -/
def Spec.Piece.isNote : Piece → Bool
  | .comment _ _ => true
  | _ => false

/-- A text that is to stand on the line of the one before it is not behind a comment. -/
def Beh (a b : Piece) : Prop := b.same = true → a.isNote = false

theorem lined_wf (ps : List Piece) (h : ∀ p ∈ ps, p.WF) (hc : ps.IsChain Beh) :
    PiecesWF (lined ps) ∧ ownLines (lined ps) ∧ (lined ps).map (·.1) = ps := by
  induction ps with
  | nil => exact ⟨trivial, trivial, rfl⟩
  | cons p ps ih =>
    cases ps with
    | nil =>
      refine ⟨⟨h p (by simp), ⟨by simp [ws], by simp, ?_⟩, trivial⟩, trivial, rfl⟩
      cases p <;> simp
    | cons q ps =>
      obtain ⟨i1, i2, i3⟩ := ih (fun x hx => h x (by simp [hx])) (List.isChain_cons_cons.mp hc).2
      have hb := (List.isChain_cons_cons.mp hc).1
      refine ⟨⟨h p (by simp), ?_, i1⟩, ?_, by simp [lined, i3]⟩
      · cases hs : q.same with
        | false => exact ⟨by simp [ws], by simp, by cases p <;> simp⟩
        | true =>
          refine ⟨by simp [ws], by simp, ?_⟩
          have := hb hs
          cases p <;> simp_all [Piece.isNote]
      · obtain ⟨g, l, hl⟩ : ∃ g l, lined (q :: ps) = (q, g) :: l := by
          cases ps with
          | nil => exact ⟨_, _, rfl⟩
          | cons r ps => exact ⟨_, _, rfl⟩
        rw [lined]
        rw [hl] at i2 ⊢
        refine ⟨fun _ => ?_, i2⟩
        cases hs : q.same <;> simp

/-- What the token texts of a type look like at their ends. -/
structure TyEnds (t : Ty) (ps : List Piece) : Prop where
  chain : ps.IsChain Beh
  ne : ps ≠ []
  last : t.takes = false → ∀ x ∈ ps.getLast?, x.isNote = false
  head : t.startsSame = false → ∀ x ∈ ps.head?, x.same = false
  start : t.isNoted = false → ∀ x ∈ ps.head?, x.same = false

theorem ends_one {t : Ty} {s : Piece} (h : s.isNote = false) : TyEnds t [s] := by
  have h2 : s.same = false := by cases s <;> simp_all [Piece.isNote, Piece.same]
  exact ⟨.singleton _, by simp, by simp [h], by simp [h2], by simp [h2]⟩

theorem same_of_note {s : Piece} (h : s.isNote = false) : s.same = false := by
  cases s <;> simp_all [Piece.isNote, Piece.same]

theorem bin_op_note (o : Bin) : o.op.isNote = false := by cases o <;> rfl
theorem pre_op_note (o : Pre) : o.op.isNote = false := by cases o <;> rfl
theorem occ_op_note (b : Bool) : (occOp b).isNote = false := by cases b <;> rfl
theorem opens_note (b : Br) : b.opens.isNote = false := by cases b <;> rfl
theorem closes_note (b : Br) : b.closes.isNote = false := by cases b <;> rfl

theorem numeral_note {s : Piece} {v : Nat} (h : numeral s = some v) : s.isNote = false := by
  cases s <;> simp_all [numeral, Piece.isNote]

theorem tagNum_chain {h : TagNum} (hw : h.WF) : h.pieces.IsChain Beh ∧ ∀ x ∈ h.pieces, x.isNote = false := by
  cases h with
  | bare => exact ⟨.nil, by simp [TagNum.pieces]⟩
  | major m =>
    obtain ⟨v, hv, _⟩ := hw
    exact ⟨.singleton _, by simp [TagNum.pieces, numeral_note hv]⟩
  | both a b => exact ⟨.singleton _, by simp [TagNum.pieces, Piece.isNote]⟩

theorem chain_append {l l' : List Piece} (h : l.IsChain Beh) (h' : l'.IsChain Beh)
    (hj : (∀ x ∈ l.getLast?, x.isNote = false) ∨ ∀ y ∈ l'.head?, y.same = false) : (l ++ l').IsChain Beh := by
  rw [List.isChain_append]
  refine ⟨h, h', fun x hx y hy hs => ?_⟩
  rcases hj with hj | hj
  · exact hj x hx
  · rw [hj y hy] at hs; cases hs

theorem chain_cons {a : Piece} {l : List Piece} (h : a.isNote = false) (h' : l.IsChain Beh) : (a :: l).IsChain Beh :=
  chain_append (l := [a]) (.singleton _) h' (.inl (by simp [h]))

theorem last_mem {l l' : List Piece} (h : l' ≠ []) {x : Piece} (hx : x ∈ (l ++ l').getLast?) : x ∈ l'.getLast? := by
  rwa [List.getLast?_append_of_ne_nil _ h] at hx

theorem head_mem {l l' : List Piece} (h : l ≠ []) {x : Piece} (hx : x ∈ (l ++ l').head?) : x ∈ l.head? := by
  cases l with
  | nil => exact absurd rfl h
  | cons a l => exact hx

theorem notes_ends (same : Bool) {cs : List (List Char)} (h : cs ≠ []) : (notes same cs).IsChain Beh ∧ notes same cs ≠ [] ∧
    ∀ x ∈ (notes same cs).head?, x.same = same := by
  cases cs with
  | nil => exact absurd rfl h
  | cons c cs =>
    refine ⟨?_, by simp [notes], by simp [notes, Piece.same]⟩
    have : ∀ (a : Piece) (cs : List (List Char)), (a :: cs.map (Piece.comment · false)).IsChain Beh := by
      intro a cs
      induction cs generalizing a with
      | nil => exact .singleton _
      | cons c cs ih => exact List.isChain_cons_cons.mpr ⟨(fun h => by cases h), ih _⟩
    exact this _ cs

theorem atom_last : {t : Ty} → t.atom = true → t.takes = false ∧ t.isNoted = false
  | .name _, _ | .kw _, _ | .int _, _ | .float _ _, _ | .text _, _ | .list _ _, _ | .tag _, _ | .tagged _ _, _ => ⟨rfl, rfl⟩

theorem single_last : {t : Ty} → t.single = true → t.isNoted = false
  | .field _ _, _ | .bin _ _ _, _ => rfl

theorem ends_head {t : Ty} {a : Piece} {l : List Piece} (h : a.isNote = false) (hc : l.IsChain Beh)
    (hl : t.takes = false → ∀ x ∈ (a :: l).getLast?, x.isNote = false) : TyEnds t (a :: l) :=
  ⟨chain_cons h hc, by simp, hl, by simp [same_of_note h], by simp [same_of_note h]⟩

mutual
theorem ty_ends : (t : Ty) → t.WF → TyEnds t t.pieces ∧
    (t.single = true → ∀ x ∈ t.pieces.getLast?, x.isNote = false)
  | .name _, _ | .kw _, _ | .float _ _, _ | .text _, _ => ⟨ends_one rfl, nofun⟩
  | .int s, h => by
    obtain ⟨v, hv, _⟩ := h
    exact ⟨ends_one (numeral_note hv), nofun⟩
  | .list br es, h => by
    simp only [Ty.WF] at h
    obtain ⟨e1, e2⟩ := ents_ends es h
    refine ⟨ends_head (opens_note br) (chain_append e1 (.singleton _) (.inr (by simp [same_of_note (closes_note br)]))) ?_, nofun⟩
    intro _ x hx
    rw [← List.cons_append] at hx
    have := last_mem (by simp) hx
    simp at this; rw [← this]; exact closes_note br
  | .tag h, hw => by
    simp only [Ty.WF] at hw
    obtain ⟨c1, c2⟩ := tagNum_chain hw
    refine ⟨ends_head rfl c1 ?_, nofun⟩
    intro _ x hx
    rcases List.mem_cons.mp (List.mem_of_getLast? hx) with rfl | hx
    · rfl
    · exact c2 _ hx
  | .tagged h t, hw => by
    simp only [Ty.WF] at hw
    obtain ⟨c1, c2⟩ := tagNum_chain hw.1
    obtain ⟨e, -⟩ := ty_ends t hw.2
    refine ⟨ends_head rfl (chain_append c1 (chain_cons rfl (chain_append e.chain (.singleton _) (.inr (by simp [Piece.same])))) ?_) ?_, nofun⟩
    · exact .inl fun x hx => c2 _ (List.mem_of_getLast? hx)
    · intro _ x hx
      rw [← List.cons_append, ← List.cons_append, ← List.append_assoc] at hx
      have := last_mem (by simp) hx
      simp at this; rw [← this]; rfl
  | .pre o t, hw => by
    simp only [Ty.WF] at hw
    obtain ⟨e, -⟩ := ty_ends t hw
    refine ⟨ends_head (pre_op_note o) e.chain fun ht x hx => ?_, nofun⟩
    exact e.last ht x (last_mem (l := [o.op]) e.ne hx)
  | .occ b t, hw => by
    simp only [Ty.WF] at hw
    obtain ⟨e, -⟩ := ty_ends t hw
    refine ⟨ends_head (occ_op_note b) e.chain fun ht x hx => ?_, nofun⟩
    exact e.last ht x (last_mem (l := [occOp b]) e.ne hx)
  | .field k t, hw => by
    simp only [Ty.WF] at hw
    obtain ⟨e, -⟩ := ty_ends t hw.2
    refine ⟨ends_head rfl (chain_cons rfl e.chain) nofun, fun hs x hx => ?_⟩
    refine e.last (by simpa [Ty.single] using hs) x (last_mem (l := [.word k, .op ":" .COLON]) e.ne hx)
  | .bin o l r, hw => by
    simp only [Ty.WF] at hw
    obtain ⟨h1, h2, h3, -⟩ := hw
    obtain ⟨el, -⟩ := ty_ends l h2
    obtain ⟨er, -⟩ := ty_ends r h3
    obtain ⟨a1, a2⟩ := atom_last h1
    have hlast : ∀ x ∈ (Ty.pieces (.bin o l r)).getLast?, x ∈ r.pieces.getLast? := by
      intro x hx
      refine last_mem (l := [o.op]) er.ne (last_mem (l := l.pieces) (by simp) hx)
    refine ⟨⟨chain_append el.chain (chain_cons (bin_op_note o) er.chain) (.inl (el.last a1)), by simp [Ty.pieces], ?_,
      fun _ x hx => el.start a2 x (head_mem el.ne hx), fun _ x hx => el.start a2 x (head_mem el.ne hx)⟩, ?_⟩
    · intro ht x hx
      refine er.last ?_ x (hlast x hx)
      simp only [Ty.takes, Bool.or_eq_false_iff] at ht
      exact ht.2
    · intro ht x hx
      refine er.last ?_ x (hlast x hx)
      simp only [Ty.single, Bool.and_eq_true] at ht
      simpa using ht.2
  | .noted same cs t, hw => by
    simp only [Ty.WF] at hw
    obtain ⟨e, -⟩ := ty_ends t hw.2.2
    obtain ⟨n1, n2, n3⟩ := notes_ends same hw.1
    refine ⟨⟨chain_append n1 e.chain (.inr (e.start hw.2.1)), by simp [Ty.pieces, n2], ?_, ?_, nofun⟩, nofun⟩
    · intro ht x hx
      exact e.last ht x (last_mem e.ne hx)
    · intro ht x hx
      rw [n3 x (head_mem n2 hx)]
      exact ht
  | .remark t comma c, hw => by
    simp only [Ty.WF] at hw
    obtain ⟨e, e'⟩ := ty_ends t hw.2
    refine ⟨⟨chain_append e.chain ?_ (.inl (e' hw.1)), by simp [Ty.pieces], nofun,
      fun _ x hx => e.start (single_last hw.1) x (head_mem e.ne hx),
      fun _ x hx => e.start (single_last hw.1) x (head_mem e.ne hx)⟩, nofun⟩
    cases comma
    · exact .singleton _
    · exact chain_cons rfl (.singleton _)
theorem ents_ends {close : Tok} : (es : Ents) → es.WF close → es.pieces.IsChain Beh ∧
    (es.startsSame = false → ∀ x ∈ es.pieces.head?, x.same = false)
  | .nil, _ => ⟨.nil, by simp [Ents.pieces]⟩
  | .cons t comma es, h => by
    simp only [Ents.WF] at h
    obtain ⟨h1, h2, -, h4⟩ := h
    obtain ⟨e, -⟩ := ty_ends t h1
    obtain ⟨f1, f2⟩ := ents_ends es h2
    refine ⟨?_, fun hs x hx => e.head hs x (head_mem e.ne hx)⟩
    simp only [Ents.pieces]
    cases comma with
    | true => exact chain_append e.chain (chain_cons rfl f1) (.inr (by simp [Piece.same]))
    | false =>
      refine chain_append e.chain f1 ?_
      cases ht : t.takes with
      | true => exact .inr (f2 (h4 ht))
      | false => exact .inl (e.last ht)
end

theorem leads_chain (cs : List (List Char)) {l : List Piece} (h : l.IsChain Beh) (hh : ∀ x ∈ l.head?, x.same = false) :
    (cs.map (Piece.comment · false) ++ l).IsChain Beh ∧ ∀ x ∈ (cs.map (Piece.comment · false) ++ l).head?, x.same = false := by
  induction cs with
  | nil => exact ⟨h, hh⟩
  | cons c cs ih =>
    refine ⟨?_, by simp [Piece.same]⟩
    exact chain_append (l := [.comment c false]) (.singleton _) ih.1 (.inr ih.2)

theorem schema_chain {s : Schema} (hs : s.WF) : s.pieces.IsChain Beh := by
  have : ∀ rs : List SRule, (∀ r ∈ rs, r.body.WF) →
      (rs.flatMap (·.pieces) ++ s.tail.map (Piece.comment · false)).IsChain Beh ∧
      ∀ x ∈ (rs.flatMap (·.pieces) ++ s.tail.map (Piece.comment · false)).head?, x.same = false := by
    intro rs h
    induction rs with
    | nil => simpa using leads_chain s.tail (l := []) .nil (by simp)
    | cons r rs ih =>
      obtain ⟨i1, i2⟩ := ih fun r hr => h r (by simp [hr])
      rw [List.flatMap_cons, List.append_assoc, SRule.pieces, List.append_assoc]
      refine leads_chain r.lead ?_ (by simp [Piece.same])
      rw [List.cons_append, List.cons_append]
      refine chain_cons rfl (chain_cons (by cases r.assign <;> rfl) ?_)
      exact chain_append (ty_ends r.body (h r (by simp))).1.chain i1 (.inr i2)
  exact (this s.rules fun r hr => (hs r hr).2.1).1

theorem render_written {s : Schema} (hs : s.WF) (h : ∀ p ∈ s.pieces, p.WF) : s.WrittenAs s.render :=
  have := lined_wf _ h (schema_chain hs)
  ⟨[], _, by simp, this.1, this.2.1, this.2.2, rfl⟩

/-! ### Repeated names -/

theorem duplicates_nil (seen : List Bytes) (rs : List SRule) : duplicates seen rs = [] ↔
    ((rs.filter (·.assign = .eq)).map fun r => enc r.name).Nodup ∧
    ∀ k ∈ (rs.filter (·.assign = .eq)).map (fun r => enc r.name), k ∉ seen := by
  induction rs generalizing seen with
  | nil => simp [duplicates]
  | cons r rs ih =>
    unfold duplicates
    by_cases h1 : r.assign = .eq
    · rw [if_pos h1]
      by_cases h2 : enc r.name ∈ seen
      · simp [h2, h1]
      · rw [if_neg h2, ih]
        simp only [List.filter_cons, h1, decide_true, if_true, List.map_cons, List.nodup_cons, List.mem_cons, not_or]
        constructor
        · rintro ⟨a, b⟩
          refine ⟨⟨fun hm => (b _ hm).1 rfl, a⟩, ?_⟩
          rintro k (rfl | hk)
          · exact h2
          · exact (b k hk).2
        · rintro ⟨⟨a, b⟩, c⟩
          refine ⟨b, fun k hk => ⟨?_, c k (.inr hk)⟩⟩
          rintro rfl
          exact a hk
    · rw [if_neg h1, ih]
      simp [h1]

/-! ### Digits -/

theorem digitNum_char : ∀ d < 16, digitNum (Nat.digitChar d) = d := by decide
theorem digitChar_hex : ∀ d < 16, hexDigit (Nat.digitChar d) = true := by decide
theorem digitChar_dec : ∀ d < 10, digit (Nat.digitChar d) = true := by decide
theorem digitChar_oct : ∀ d < 8, octDigit (Nat.digitChar d) = true := by decide
theorem digitChar_bin : ∀ d < 2, binDigit (Nat.digitChar d) = true := by decide
theorem digitChar_zero : ∀ d < 10, d ≠ 0 → Nat.digitChar d ≠ '0' := by decide

theorem toDigits_mem {b : Nat} (hb : 1 < b) (v : Nat) : ∀ c ∈ Nat.toDigits b v, ∃ d < b, c = Nat.digitChar d := by
  induction v using Nat.strongRecOn with
  | ind v ih =>
    intro c hc
    rcases Nat.lt_or_ge v b with h | h
    · rw [Nat.toDigits_of_lt_base h] at hc
      exact ⟨v, h, by simpa using hc⟩
    · rw [Nat.toDigits_of_base_le hb h] at hc
      rcases List.mem_append.mp hc with hc | hc
      · exact ih (v / b) (Nat.div_lt_self (by omega) hb) c hc
      · exact ⟨v % b, Nat.mod_lt _ (by omega), by simpa using hc⟩

theorem ofDigits_toDigits {b : Nat} (hb : 1 < b) (hb' : b ≤ 16) (v : Nat) : ofDigits b (Nat.toDigits b v) = v := by
  induction v using Nat.strongRecOn with
  | ind v ih =>
    rcases Nat.lt_or_ge v b with h | h
    · rw [Nat.toDigits_of_lt_base h]
      simp [ofDigits, digitNum_char v (by omega)]
    · have := ih (v / b) (Nat.div_lt_self (by omega) hb)
      have hm : v % b < b := Nat.mod_lt _ (by omega)
      rw [Nat.toDigits_of_base_le hb h]
      unfold ofDigits at this ⊢
      rw [List.foldl_append, this]
      simp only [List.foldl_cons, List.foldl_nil]
      rw [digitNum_char _ (by omega), Nat.mul_comm]
      exact Nat.div_add_mod v b

theorem toDigits_head {v : Nat} (hv : v ≠ 0) : (Nat.toDigits 10 v).head? ≠ some '0' := by
  induction v using Nat.strongRecOn with
  | ind v ih =>
    rcases Nat.lt_or_ge v 10 with h | h
    · rw [Nat.toDigits_of_lt_base h]
      simpa using digitChar_zero v h hv
    · rw [Nat.toDigits_of_base_le (by decide) h]
      have := ih (v / 10) (Nat.div_lt_self (by omega) (by decide)) (by omega)
      have hne : Nat.toDigits 10 (v / 10) ≠ [] := Nat.toDigits_ne_nil
      cases hd : Nat.toDigits 10 (v / 10) with
      | nil => exact absurd hd hne
      | cons c cs => rw [hd] at this; simpa using this

/-- The four spellings of a number. -/
theorem spellings (v : Nat) :
    (∀ s ∈ [Piece.dec (Nat.toDigits 10 v), .hex (Nat.toDigits 16 v), .oct (Nat.toDigits 8 v), .bin (Nat.toDigits 2 v)],
      s.WF ∧ numeral s = some v) := by
  intro s hs
  simp only [List.mem_cons, List.not_mem_nil, or_false] at hs
  rcases hs with rfl | rfl | rfl | rfl
  · refine ⟨⟨Nat.toDigits_ne_nil, ?_⟩, ?_⟩
    · intro c hc
      obtain ⟨d, hd, rfl⟩ := toDigits_mem (by decide) v c hc
      exact digitChar_dec d hd
    · unfold numeral
      dsimp only
      rw [if_neg, ofDigits_toDigits (by decide) (by decide)]
      rintro ⟨h1, h2⟩
      by_cases hv : v = 0
      · subst hv; simp [Nat.toDigits_zero] at h2
      · exact toDigits_head hv h1
  · refine ⟨?_, ?_⟩
    · intro c hc
      obtain ⟨d, hd, rfl⟩ := toDigits_mem (by decide) v c hc
      exact digitChar_hex d hd
    · unfold numeral
      dsimp only
      rw [if_neg Nat.toDigits_ne_nil, ofDigits_toDigits (by decide) (by decide)]
  · refine ⟨?_, ?_⟩
    · intro c hc
      obtain ⟨d, hd, rfl⟩ := toDigits_mem (by decide) v c hc
      exact digitChar_oct d hd
    · unfold numeral
      dsimp only
      rw [if_neg Nat.toDigits_ne_nil, ofDigits_toDigits (by decide) (by decide)]
  · refine ⟨?_, ?_⟩
    · intro c hc
      obtain ⟨d, hd, rfl⟩ := toDigits_mem (by decide) v c hc
      exact digitChar_bin d hd
    · unfold numeral
      dsimp only
      rw [if_neg Nat.toDigits_ne_nil, ofDigits_toDigits (by decide) (by decide)]

/-! ### Alternatives -/

theorem alternatives_noPos : (x : Node) → alternatives (noPos x) = (alternatives x).map noPos := by
  intro x
  match x with
  | .typeChoice p t a b =>
    by_cases h : t = .TYPE_CHOICE
    · subst h
      simp only [noPos, alternatives, List.map_cons, alternatives_noPos b]
    · have h1 : alternatives (.typeChoice p t a b) = [.typeChoice p t a b] := by
        rw [alternatives.eq_2]; intro _ _ _ hc; cases hc; exact h rfl
      have h2 : alternatives (noPos (.typeChoice p t a b)) = [noPos (.typeChoice p t a b)] := by
        rw [noPos, alternatives.eq_2]; intro _ _ _ hc; cases hc; exact h rfl
      rw [h1, h2]; rfl
  | .nil | .typedNil _ | .array .. | .badNode .. | .boolType .. | .boolLit .. | .bstr .. | .bytes .. | .cddl ..
  | .comment _ | .commentGroup _ | .bits .. | .comparator .. | .regexp .. | .size .. | .entry .. | .enumeration ..
  | .floatType .. | .floatLit .. | .group .. | .groupChoice .. | .ident _ | .intType .. | .nintType .. | .intLit ..
  | .map .. | .null .. | .optional .. | .nm .. | .range .. | .rule .. | .tag .. | .textLit .. | .tstr _
  | .uintType .. | .uintLit _ | .unwrap .. => simp [noPos, alternatives]

theorem alternatives_single {x : Node} (h : x.kind ≠ .typeChoice) : alternatives x = [x] := by
  rw [alternatives.eq_2]
  rintro p a b rfl
  exact h rfl

theorem choices_node (q : Bool) (t : Ty) (us : List Ty) (h : ∀ u ∈ (t :: us).getLast?, (u.node q).kind ≠ .typeChoice) :
    alternatives ((Ty.choices t us).node q) = (t :: us).map (·.node q) := by
  induction us generalizing t with
  | nil => exact alternatives_single (h t (by simp))
  | cons u us ih =>
    have := ih u (by simpa using h)
    simp only [Ty.choices, Ty.node, Bin.node, Bin.op, Piece.tok, alternatives, this, List.map_cons]

/-! ### Schemas without comments -/

theorem noNotes_kind (x : Node) : (noNotes x).kind = x.kind := by cases x <;> simp [noNotes, Node.kind]

theorem noNotes_withNote (c : List Char) (x : Node) : noNotes (withNote c x) = noNotes x := by
  cases x <;> simp [noNotes, withNote]

theorem noNotesL_map (xs : List Node) : noNotesL xs = xs.map noNotes := by
  induction xs with
  | nil => rfl
  | cons x xs ih => simp [noNotesL, ih]

theorem keyName_noNotes (x : Node) : keyName (noNotes x) = keyName x := by cases x <;> simp [noNotes, keyName]

theorem lowNum_noNotes (x : Node) : lowNum (noNotes x) = lowNum x := by cases x <;> simp [noNotes, lowNum]

theorem rangeChecks_noNotes (tok : Tok) (x y : Node) : rangeChecks tok (noNotes x) (noNotes y) = rangeChecks tok x y := by
  cases x <;> cases y <;> simp [noNotes, rangeChecks]

theorem bin_noNotes (o : Bin) (m : Option Nat) (l r : Node) :
    noNotes (o.node false m l r) = o.node false m (noNotes l) (noNotes r) := by
  cases o
  case regexp => cases l <;> simp [Bin.node, noNotes]
  all_goals simp [Bin.node, noNotes, keyName_noNotes, lowNum_noNotes, upperEnd]

mutual
theorem strip_node : (t : Ty) → t.strip.node false = noNotes (t.node false)
  | .name _ | .int _ | .float _ _ | .text _ | .tag _ => by simp [Ty.strip, Ty.node, noNotes]
  | .kw k => by cases k <;> simp [Ty.strip, Ty.node, builtinNode, noNotes]
  | .list br es => by cases br <;> simp [Ty.strip, Ty.node, strip_nodes es, Br.node, noNotes]
  | .tagged _ t | .field _ t => by simp [Ty.strip, Ty.node, strip_node t, noNotes]
  | .pre o t => by cases o <;> simp [Ty.strip, Ty.node, strip_node t, noNotes, Pre.node]
  | .occ _ t => by simp [Ty.strip, Ty.node, strip_node t, noNotes]
  | .noted _ _ t => by simp only [Ty.strip, Ty.node, strip_node t]
  | .remark t _ _ => by simp only [Ty.strip, Ty.node, strip_node t, noNotes_withNote]
  | .bin o l r => by simp [Ty.strip, Ty.node, strip_node l, strip_node r, bin_noNotes]
theorem strip_nodes : (es : Ents) → es.strip.nodes false = noNotesL (es.nodes false)
  | .nil => by simp [Ents.strip, Ents.nodes, noNotesL]
  | .cons t _ es => by simp only [Ents.strip, Ents.nodes, strip_node t, strip_nodes es, noNotesL]
end

theorem strip_kinds (es : Ents) : (es.strip.nodes false).all (listable ·.kind) = (es.nodes false).all (listable ·.kind) := by
  rw [strip_nodes, noNotesL_map, List.all_map]
  congr 1
  funext x
  exact congrArg _ (noNotes_kind x)

theorem strip_firstInt : (t : Ty) → t.strip.firstInt = none → t.firstInt = none
  | .name _, _ | .kw _, _ | .float _ _, _ | .text _, _ | .tag _, _ | .list _ _, _ | .tagged _ _, _ | .pre _ _, _
  | .field _ _, _ | .occ _ _, _ | .noted _ _ _, _ => rfl
  | .remark t _ _, h => strip_firstInt t h
  | .int _, h => h
  | .bin _ l _, h => strip_firstInt l h

mutual
theorem strip_plain : {t : Ty} → t.strip.plain = true → t.plain = true
  | .name _, _ | .kw _, _ | .int _, _ | .float _ _, _ | .text _, _ | .tag _, _ => rfl
  | .list .brace es, h => by
    simp only [Ty.strip, Ty.plain] at h ⊢
    exact strip_plains h
  | .list .paren es, h => by
    simp only [Ty.strip, Ty.plain, Bool.and_eq_true, strip_kinds] at h ⊢
    exact ⟨strip_plains h.1, h.2⟩
  | .list .brack es, h => by
    simp only [Ty.strip, Ty.plain, Bool.and_eq_true, strip_kinds] at h ⊢
    exact ⟨strip_plains h.1, h.2⟩
  | .tagged _ t, h | .pre _ t, h | .field _ t, h => by
    simp only [Ty.strip, Ty.plain] at h ⊢
    exact strip_plain h
  | .noted _ _ t, h | .remark t _ _, h => by
    simp only [Ty.strip, Ty.plain] at h ⊢
    exact strip_plain h
  | .occ _ t, h => by
    simp only [Ty.strip, Ty.plain, Bool.and_eq_true, Option.isNone_iff_eq_none] at h ⊢
    exact ⟨strip_plain h.1, strip_firstInt t h.2⟩
  | .bin o l r, h => by
    simp only [Ty.strip, Ty.plain, Bool.and_eq_true, strip_node, noNotes_kind] at h ⊢
    obtain ⟨⟨⟨⟨h1, h2⟩, h3⟩, h4⟩, h5⟩ := h
    refine ⟨⟨⟨⟨strip_plain h1, strip_plain h2⟩, h3⟩, h4⟩, ?_⟩
    by_cases ho : o = .star ∨ o = .plus
    · rw [if_pos ho, Option.isNone_iff_eq_none] at h5 ⊢
      exact strip_firstInt r h5
    · rw [if_neg ho]
theorem strip_plains : {es : Ents} → es.strip.plain = true → es.plain = true
  | .nil, _ => rfl
  | .cons t _ es, h => by
    simp only [Ents.strip, Ents.plain, Bool.and_eq_true] at h ⊢
    exact ⟨strip_plain h.1, strip_plains h.2⟩
end

mutual
theorem strip_checks : {t : Ty} → t.strip.plain = true → t.strip.checks = t.checks
  | .name _, _ | .kw _, _ | .int _, _ | .float _ _, _ | .text _, _ | .tag _, _ => rfl
  | .list .brace es, h => by
    simp only [Ty.strip, Ty.plain, Ty.checks] at h ⊢
    exact strip_checkss h
  | .list .paren es, h => by
    simp only [Ty.strip, Ty.plain, Bool.and_eq_true, Ty.checks] at h ⊢
    exact strip_checkss h.1
  | .list .brack es, h => by
    simp only [Ty.strip, Ty.plain, Bool.and_eq_true, Ty.checks] at h ⊢
    exact strip_checkss h.1
  | .tagged _ t, h | .pre _ t, h | .field _ t, h => by
    simp only [Ty.strip, Ty.plain, Ty.checks] at h ⊢
    exact strip_checks h
  | .noted _ _ t, h | .remark t _ _, h => by
    simp only [Ty.strip, Ty.checks] at h ⊢
    exact strip_checks h
  | .occ _ t, h => by
    simp only [Ty.strip, Ty.plain, Bool.and_eq_true, Ty.checks] at h ⊢
    exact strip_checks h.1
  | .bin o l r, h => by
    have hp := h
    simp only [Ty.strip, Ty.plain, Bool.and_eq_true] at h
    obtain ⟨⟨⟨⟨h1, h2⟩, h3⟩, h4⟩, h5⟩ := h
    simp only [Ty.strip, Ty.checks, strip_checks h1, strip_checks h2, plain_node h1, plain_node h2, strip_node,
      plain_node (strip_plain h1), plain_node (strip_plain h2), rangeChecks_noNotes]
theorem strip_checkss : {es : Ents} → es.strip.plain = true → es.strip.checks = es.checks
  | .nil, _ => rfl
  | .cons t _ es, h => by
    simp only [Ents.strip, Ents.plain, Bool.and_eq_true] at h
    simp only [Ents.strip, Ents.checks, strip_checks h.1, strip_checkss h.2]
end

theorem strip_kindOf (rs : List SRule) (k : Bytes) : kindOf (rs.map SRule.strip) k = kindOf rs k := by
  unfold kindOf
  rw [List.find?_map, Option.map_map]
  have : ∀ r : SRule, ((r.strip.body.node true).kind) = ((r.body.node true).kind) := by
    intro r
    rw [kind_quirks, kind_quirks]
    exact (congrArg Node.kind (strip_node r.body)).trans (noNotes_kind _)
  show Option.map (fun r : SRule => (r.strip.body.node true).kind) _ = _
  simp only [this]
  rfl

theorem strip_duplicates (seen : List Bytes) (rs : List SRule) :
    duplicates seen (rs.map SRule.strip) = duplicates seen rs := by
  induction rs generalizing seen with
  | nil => rfl
  | cons r rs ih =>
    simp only [List.map_cons, duplicates, ih]
    rfl

theorem strip_errors {s : Schema} (h : ∀ r ∈ s.rules, r.strip.body.plain = true) : s.strip.errors = s.errors := by
  unfold Schema.errors Schema.strip
  dsimp only
  rw [strip_duplicates]
  congr 1
  have h1 : (s.rules.map SRule.strip).flatMap (·.body.checks) = s.rules.flatMap (·.body.checks) := by
    rw [List.flatMap_map]
    have aux : ∀ rs : List SRule, (∀ r ∈ rs, r.strip.body.plain = true) →
        rs.flatMap (fun r => r.strip.body.checks) = rs.flatMap (·.body.checks) := by
      intro rs h
      induction rs with
      | nil => rfl
      | cons r rs ih =>
        rw [List.flatMap_cons, List.flatMap_cons, ih fun r hr => h r (by simp [hr])]
        exact congrArg (· ++ _) (strip_checks (h r (by simp)))
    exact aux _ h
  rw [h1]
  congr 1
  funext c
  have : kindOf (s.rules.map SRule.strip) = kindOf s.rules := funext (strip_kindOf s.rules)
  rw [this]

theorem noComments {cs : List (List Char)} : (commentNodes cs).filter (·.kind = .rule) = [] := by
  match cs with
  | [] => rfl
  | [_] => rfl
  | _ :: _ :: _ => rfl

theorem rule_nodes (q : Bool) (s : Schema) : (s.nodes q).filter (·.kind = .rule) = s.rules.map (·.node q) := by
  unfold Schema.nodes
  rw [List.filter_append, noComments, List.append_nil]
  induction s.rules with
  | nil => rfl
  | cons r rs ih =>
    rw [List.flatMap_cons, List.filter_append, ih, List.filter_append, noComments]
    rfl

theorem notes_nodes (q : Bool) (s : Schema) :
    (noNotesL (s.nodes q)).filter (·.kind = .rule) = s.rules.map fun r => noNotes (r.node q) := by
  rw [noNotesL_map, List.filter_map]
  have : ((fun x : Node => decide (x.kind = .rule)) ∘ noNotes) = fun x => decide (x.kind = .rule) := by
    funext x
    simp [noNotes_kind]
  rw [this, rule_nodes, List.map_map]
  rfl

/-! ### The rules of the result -/

theorem rules_of {rules : List Node} {s : Schema} {q : Bool} (h : noPosL rules = s.nodes q) {i : Nat} {r : SRule}
    (hr : s.rules[i]? = some r) : ∃ x, ruleValue rules i = some (enc r.name, x) ∧ noPos x = r.body.node q := by
  have h1 := congrArg (List.filter fun x => x.kind = .rule) h
  rw [rule_nodes, noPosL_map, List.filter_map] at h1
  have h2 : (rules.filter ((fun x => decide (x.kind = .rule)) ∘ noPos)) = rules.filter (·.kind = .rule) := by
    congr 1
    funext x
    simp [noPos_kind]
  rw [h2] at h1
  have h3 := congrArg (·[i]?) h1
  simp only [List.getElem?_map, hr, Option.map_some] at h3
  unfold ruleValue
  cases hx : (rules.filter (·.kind = .rule))[i]? with
  | none => rw [hx] at h3; cases h3
  | some y =>
    rw [hx] at h3
    have h4 : noPos y = r.node q := Option.some.inj h3
    cases y with
    | rule p nm v tc =>
      unfold SRule.node at h4
      simp only [noPos] at h4
      injection h4 with _ e2 e3 _
      injection e2 with _ e4
      exact ⟨v, by rw [← e4], e3⟩
    | _ => simp [noPos, SRule.node] at h4

variable [Unicode]
open PState Lexer

section
variable [Marks]

/-! ### Values that are rejected -/

/-- Reading these token texts fails at the last of them, with this message. -/
def FailOK (body : List Piece) (m : Msg) : Prop := ∀ n prec p ts r u rs, body.length + 3 ≤ n → Texts ts body →
  Feeds p (ts ++ r :: u :: rs) → r.tok = .EOF → (p.cur.precedence = 0 → prec = 0) →
  ∃ x d q, parseEntry n prec p = .ok (x, some d, q) ∧ noPosMsg d.msg = m ∧ Sees q (r :: u :: rs)

/-- A number that does not fit. -/
theorem fail_big {s : Piece} {v : Nat} (hs : s.WF) (hv : numeral s = some v) (hbig : 2 ^ 63 ≤ v) :
    FailOK [s] (.tokenExpected .INT {}) := by
  intro n prec p ts r u rs hn hx hf hr _
  obtain ⟨n, rfl⟩ : ∃ k, n = k + 1 := ⟨n - 1, by simp at hn; omega⟩
  obtain ⟨t2, ts', rfl, h1, h2, h3⟩ := texts_cons hx
  rw [texts_nil h3] at hf
  obtain ⟨d1, d2, d3⟩ := cur_of hf.1
  have hp2 : p.cur = .INT := by rw [d1, h1]; exact (numeral_head hs hv).1
  have hl2 : p.lit = enc s.lit := by rw [d3, h2]
  have hl : p.cur.isLiteral p.lit = true := by rw [hp2, hl2]; exact numeral_isLiteral hs hv
  refine ⟨.typedNil .intLit, errExpected p.pos .INT, p, ?_, rfl, hf.2⟩
  rw [parseEntry]
  unfold parseEntryBody
  rw [skip_none (by rw [hp2]; decide)]
  show (match selectNud (parseEntry n) n p with | none => _ | some nud => _) = _
  rw [select_of hp2 (by decide)]
  show Out.bind (parseIntegerType p) _ = _
  unfold parseIntegerType
  rw [if_pos hl]
  unfold parseIntegerLiteral
  rw [if_pos hl, hl2, parseInt_numeral hs hv, if_pos hbig]
  rfl

/-- A range between numbers of different kinds. -/
theorem fail_range {o : Bin} (ho : o = .incl ∨ o = .excl) {l t : Ty} {m : Msg} (hlw : l.WF)
    (hlp : ∀ p ∈ l.pieces, p.WF) (hw : t.WF) (hp : ∀ p ∈ t.pieces, p.WF)
    (h : (∃ s, l = .int s ∧ (t.node true).kind = .floatLit ∧ m = .floatInIntRange) ∨
      (∃ a b, l = .float a b ∧ (t.node true).kind = .intLit ∧ m = .intInFloatRange)) :
    FailOK (l.pieces ++ o.op :: t.pieces) m := by
  intro n prec p ts r u rs hn hx hf hr hz
  obtain ⟨n, rfl⟩ : ∃ k, n = k + 1 := ⟨n - 1, by omega⟩
  obtain ⟨ts1, ts2, rfl, hx1, hx2⟩ := texts_append hx
  obtain ⟨a, ts3, rfl, i1, i2, hx3⟩ := texts_cons hx2
  have hoc : o.op.tok = .INCLUSIVE_BOUND ∨ o.op.tok = .EXCLUSIVE_BOUND := by
    rcases ho with rfl | rfl
    · exact .inl rfl
    · exact .inr rfl
  rw [List.length_append, List.length_cons] at hn
  have hatom : AtomOK l := by
    rcases h with ⟨s, rfl, _⟩ | ⟨c, d, rfl, _⟩
    · exact atom_int hlw (hlp _ (by simp [Ty.pieces]))
    · exact atom_float hlw (hlp _ (by simp [Ty.pieces]))
  have hl1 : 1 ≤ l.pieces.length := by
    rcases h with ⟨s, rfl, _⟩ | ⟨c, d, rfl, _⟩ <;> simp [Ty.pieces]
  have hbes : Beside l a.tok := by
    rcases h with ⟨s, rfl, _⟩ | ⟨c, d, rfl, _⟩ <;> exact ⟨fun _ h => (by cases h), fun _ h => (by cases h)⟩
  have hf' : Feeds p (ts1 ++ a :: (ts3 ++ r :: u :: rs)) := by simpa using hf
  have hfirst : p.cur = l.first := feeds_first hlw hlp hx1 hf'
  have hpc : p.cur.precedence = 0 ∧ p.cur ≠ .COMMENT := by
    rw [hfirst]
    rcases h with ⟨s, rfl, _⟩ | ⟨c, d, rfl, _⟩ <;> exact ⟨rfl, by simp [Ty.first]⟩
  have hz' := hz hpc.1
  subst hz'
  have hrest : ∃ v vs, ts3 ++ r :: u :: rs = v :: vs := by
    cases ts3 with
    | nil => exact ⟨_, _, rfl⟩
    | cons v vs => exact ⟨_, _, rfl⟩
  obtain ⟨v, vs, hvs⟩ := hrest
  rw [hvs] at hf'
  obtain ⟨nud, x0, p2, k1, k2, k3, k4, k5, k6⟩ := hatom n p ts1 a v vs (by omega) hx1 hf' hbes
  obtain ⟨p3, b1, b2, b3, b4⟩ := next_sees k5
  rw [← hvs] at b3
  have hf3 : Feeds p3 (a :: (ts3 ++ r :: u :: rs)) := ⟨b2, b3⟩
  obtain ⟨x, q, c1, c2, c3, c4⟩ := child (entry_ok hw hp) (n := n) (by omega) hx3 hf3
    ⟨by rw [hr]; exact mayPrecede_any (by decide) (by decide) (by decide) (by decide) _,
      fun _ => ⟨fun h => (by rw [hr] at h; cases h), fun h => (by rw [hr] at h; cases h)⟩⟩
  have hsees := (end_sees c3 (by rw [hr]; decide)).2
  have hpk : p2.peek = o.op.tok := (peek_of k5).1.trans i1
  have hled : ledOf (parseEntry n) p2.peek = some (parseBound (parseEntry n)) := by
    rw [hpk]; rcases hoc with h | h <;> rw [h] <;> rfl
  have hprec : 0 < p2.peek.precedence := by
    rw [hpk]; rcases hoc with h | h <;> rw [h] <;> decide
  have done : ∀ y d, parseBound (parseEntry n) x0 p3 = .ok (y, some d, q) →
      parseEntry (n + 1) 0 p = .ok (y, some d, q) := by
    intro y d hb
    refine parseEntry_of (skip_none hpc.2) k1 k2 ?_
    obtain ⟨n, rfl⟩ : ∃ k, n = k + 1 := ⟨n - 1, by omega⟩
    have key : ledStep (parseEntry (n + 1)) 0 (x0, p2) = .ok (.inr (y, some d, q)) := by
      unfold ledStep
      dsimp only
      rw [if_pos ⟨k4, hprec⟩, hled]
      dsimp only
      rw [b1]
      show Out.bind (parseBound (parseEntry (n + 1)) x0 p3) _ = _
      rw [hb]
      rfl
    rw [loopOut, key]
  rcases h with ⟨s, rfl, hk, rfl⟩ | ⟨c, d, rfl, hk, rfl⟩
  · obtain ⟨pos, rfl⟩ := noPos_intLit k3
    rw [← c2, noPos_kind] at hk
    cases x <;> try (cases hk; done)
    case floatLit rg tok fv =>
      refine ⟨.range p3.pos p3.cur (.intLit pos .INT ((numeral s).getD 0))
        (.badNode rg.start tok (.floatLit rg tok fv) rg.stop), ⟨.floatInIntRange, rg.start, rg.stop⟩, q, done _ _ ?_, rfl, hsees⟩
      show Out.bind (nextEntry _ p3) _ = _
      rw [c1]
      rfl
    case typedNil k => exact absurd c2.symm ((node_real true t hw).2 k)
  · obtain ⟨rg, rfl⟩ := noPos_floatLit k3
    rw [← c2, noPos_kind] at hk
    cases x <;> try (cases hk; done)
    case intLit pos tok v =>
      refine ⟨.range p3.pos p3.cur (.floatLit rg .FLOAT (fraction c d))
        (.badNode pos tok (.intLit pos tok v) (pos.to (decInt v).length)), ⟨.intInFloatRange, pos, pos.to (decInt v).length⟩, q, done _ _ ?_, rfl, hsees⟩
      show Out.bind (nextEntry _ p3) _ = _
      rw [c1]
      rfl
    case typedNil k => exact absurd c2.symm ((node_real true t hw).2 k)

/-- A rule with a value that is rejected. -/
theorem fail_rule {w : List Char} {body : List Piece} {msg : Msg} (hw : word w = .IDENT) (hb : FailOK body msg)
    {n : Nat} {p : PState} {acc : List Node} {t0 t1 u u' : Token} {ts us} (hn : body.length + 3 ≤ n)
    (h0 : t0.tok = word w ∧ t0.lit = enc w) (h1 : t1.tok = .ASSIGN) (h2 : Texts ts body)
    (hf : Feeds p (t0 :: t1 :: (ts ++ u :: u' :: us))) (hu : u.tok = .EOF) :
    ∃ q d es, fileStep n (acc, p) = .ok (.inl (acc ++ [.rule {} ⟨t0.pos, enc w⟩ .nil none], q)) ∧
      Feeds q (u :: u' :: us) ∧ q.errors = es ++ [d] ∧ noPosMsg d.msg = msg := by
  obtain ⟨c1, c2, c3⟩ := cur_of hf.1
  have hcur : p.cur = .IDENT := by rw [c1]; exact h0.1.trans hw
  have hlit : p.lit = enc w := by rw [c3]; exact h0.2
  obtain ⟨p1, a1, a2, a3⟩ := feeds_into (ts := t1 :: ts) hf
  have hp1 : p1.cur = .ASSIGN := (cur_of a2.1).1.trans h1
  obtain ⟨p2, b1, b2, b3⟩ := feeds_into a2
  obtain ⟨x, d, q, k1, k2, k3⟩ := hb n p2.cur.precedence p2 ts u u' us hn h2 b2 hu id
  obtain ⟨q', f1, f2, f3, f4⟩ := next_sees (p := q.addError d) (t := u) (u := u') (ts := us) k3
  refine ⟨q', d, q.errors, ?_, ⟨f2, f3⟩, f4.2.1, k2⟩
  unfold fileStep
  dsimp only
  rw [if_neg (by rw [hcur]; decide)]
  have hrule : parseRule n p = .ok (.rule {} ⟨t0.pos, enc w⟩ .nil none, some d, q) := by
    unfold parseRule
    rw [hcur]
    show Out.bind p.next _ = _
    rw [a1]
    show (match p1.cur with | .ASSIGN => _ | .TYPE_CHOICE_ASSIGN | .GROUP_CHOICE_ASSIGN => _ | _ => _) = _
    rw [hp1]
    show Out.bind (nextEntry (parseEntry n) p1) _ = _
    rw [nextEntry_of b1 k1, ← c2, ← hlit]
    rfl
  rw [hrule]
  show Out.bind (q.addError d).next _ = _
  rw [f1]
  rfl

end

/-- Rules, and then a rule with a value that is rejected. -/
theorem fail_parse {rs : List SRule} (hr : Schema.WF ⟨rs, []⟩) {w : List Char} {body : List Piece} {msg : Msg}
    (hw : word w = .IDENT) (hb : ∀ [Marks], FailOK body msg) {g : List Char}
    (hg : ∀ c ∈ g, ws c = true) {ps : List (Piece × List Char)} (hp : PiecesWF ps) (ho : ownLines ps)
    (he : ps.map (·.1) = rs.flatMap (·.pieces) ++ (.word w :: Assign.eq.op :: body)) {n : Nat} (hn : ps.length + 3 ≤ n) :
    ∃ rules pos d res, parseSource n (enc (g ++ renderAll ps)) = .ok res ∧
      res.cddl = some (rules ++ [.rule {} ⟨pos, enc w⟩ .nil none]) ∧
      noPosL rules = Schema.nodes true ⟨rs, []⟩ ∧ d ∈ res.errs ∧ noPosMsg d.msg = msg := by
  obtain ⟨_, p, ts, e1, e2, h1, h2, h3, h4, h5, h6, h7, h8, h9⟩ := new_feeds hg ps hp ho Env.new
  have hwf : ∀ pc ∈ ps.map (·.1), pc.WF := pieces_wf hp
  rw [he] at h8 hwf
  have hlen : (rs.flatMap SRule.pieces).length + (body.length + 2) = ps.length := by
    have := congrArg List.length he
    rw [List.length_append] at this
    simpa using this.symm
  obtain ⟨ts1, ts2, rfl, hx1, hx2⟩ := texts_append h8
  obtain ⟨t0, ts3, rfl, i1, i2, hx3⟩ := texts_cons hx2
  obtain ⟨t1, ts4, rfl, i3, i4, hx4⟩ := texts_cons hx3
  rw [List.append_assoc] at h9
  obtain ⟨xs, q, ds, new, m', k1, k2, k3, k4, k5, k6, k7, k8, k9⟩ := rules_pass (e1 := t0) (e2 := t1) (es := ts4 ++ [e1, e2])
    (.inl (i1.trans hw)) (fun h => by rw [i1.trans hw] at h; cases h) (n := n) rs (done := []) (seen := []) (acc := []) (m := n) (p := p) (ts := ts1)
    (fun r h => ⟨(hr r h).1, (hr r h).2.1⟩) (by simp)
    (fun r h pc hpc => hwf pc (by
      simp only [List.mem_append, List.mem_flatMap]
      exact .inl ⟨r, h, by simp [SRule.pieces, hpc]⟩))
    (fun r h hc => (hr r (by simpa using h)).2.2 hc) (by simp)
    (by intro k; rw [h2]; rfl) hx1 h9 (by omega) (by omega)
  obtain ⟨m', rfl⟩ : ∃ k, m' = k + 1 + 1 := ⟨m' - 2, by omega⟩
  obtain ⟨q2, d, es, l1, l2, l3, l4⟩ := fail_rule (n := n) (acc := [] ++ xs) hw hb (by omega) ⟨i1, i2⟩ i3
    hx4 k3 h6
  refine ⟨xs, t0.pos, d, ⟨some _, q2.runTasks.errors, q2.runTasks⟩, ?_, rfl, ?_, ?_, l4⟩
  · unfold parseSource
    rw [h1]
    show p.parseFile n = _
    unfold parseFile
    rw [if_neg (by rw [h5]; simp)]
    show Out.bind (loopOut (fileStep n) n ([], p)) _ = _
    rw [k1, loopOut, l1]
    dsimp only
    rw [loopOut]
    unfold fileStep
    dsimp only
    rw [if_pos ((cur_of l2.1).1.trans h6)]
    rfl
  · rw [k4]; simp [Schema.nodes, commentNodes]
  · unfold runTasks
    dsimp only
    rw [l3]
    simp

end Cddlc
