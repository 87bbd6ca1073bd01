import Verif.Lemmas.Listable
import Verif.Lemmas.RunTy

/-! The parser returns the tree of a type when it is fed the tokens of the type. -/

namespace Cddlc
variable [Unicode] [Marks]
open Spec PState

/-- What may stand behind an operand. -/
def Beside (t : Ty) (nx : Tok) : Prop :=
  (∀ w, t = .name w → nx ≠ .COLON) ∧
  ∀ h, t = .tag h → nx ≠ .LPAREN ∧ (h = .bare → nx ≠ .INT ∧ nx ≠ .FLOAT)

/-- The handler of the first token reads exactly the type `t`. -/
def NudOK (n : Nat) (p : PState) (t : Ty) (rest : List Token) : Prop :=
  ∃ nud x q, selectNud (parseEntry n) n p = some nud ∧ nud p = .ok (x, none, q) ∧
    noPos x = t.node true ∧ q.cur ≠ .COMMA ∧ Sees q rest ∧ Eff p q t.checks

def AtomOK (t : Ty) : Prop := ∀ n p ts r u rs, t.pieces.length + 2 ≤ n → Texts ts t.pieces →
  Feeds p (ts ++ r :: u :: rs) → Beside t r.tok → NudOK n p t (r :: u :: rs)

/-- The tokens `r` and `u` may stand behind the type: it does not go on, and no comment on its line is
taken into it. -/
def Near (t : Ty) (r u : Token) : Prop :=
  t.mayPrecede r.tok = true ∧ (t.takes = true → Calm r ∧ (r.tok = .COMMA → Calm u))

/-- As `EntryOK`, for the part behind the skipped comments. -/
def TailOK (t : Ty) : Prop := ∀ n prec p ts r u rs, t.pieces.length + 2 ≤ n → Texts ts t.pieces →
  Feeds p (ts ++ r :: u :: rs) → Near t r u → (p.cur.precedence = 0 → prec = 0) →
  ∃ nud x0 p2 x q, selectNud (parseEntry n) n p = some nud ∧ nud p = .ok (x0, none, p2) ∧
    loopOut (ledStep (parseEntry n) prec) n (x0, p2) = .ok (x, none, q) ∧
    noPos x = t.node true ∧ End q (r :: u :: rs) ∧ Eff p q t.checks

/-- `parseEntry` reads exactly the type `t` and a comma behind it. -/
def EntryOK (t : Ty) : Prop := ∀ n prec p ts r u rs, t.pieces.length + 3 ≤ n → Texts ts t.pieces →
  Feeds p (ts ++ r :: u :: rs) → Near t r u → (p.cur.precedence = 0 → prec = 0) →
  ∃ x q, parseEntry n prec p = .ok (x, none, q) ∧ noPos x = t.node true ∧ End q (r :: u :: rs) ∧
    Eff p q t.checks

def EntsOK : Ents → Prop
  | .nil => True
  | .cons t _ es => EntryOK t ∧ EntsOK es

/-! ### The first token -/

theorem feeds_first {t : Ty} (ht : t.WF) (hp : ∀ p ∈ t.pieces, p.WF) {p : PState} {ts rest}
    (hx : Texts ts t.pieces) (hf : Feeds p (ts ++ rest)) : p.cur = t.first := by
  obtain ⟨pc, pcs, h1, h2⟩ := pieces_head t ht hp
  rw [h1] at hx
  obtain ⟨a, ts', rfl, h3, _, _⟩ := texts_cons hx
  rw [(cur_of hf.1).1, h3, h2]

omit [Unicode] in
theorem atom_prec {t : Ty} (ha : t.atom = true) (ht : t.WF) : t.first.precedence = 0 := by
  cases t with
  | kw k =>
    rcases builtins_mem ht with rfl | rfl | rfl | rfl | rfl | rfl | rfl | rfl | rfl | rfl | rfl | rfl |
      rfl | rfl | rfl | rfl <;> decide
  | list br es => cases br <;> rfl
  | _ => first | (simp [Ty.atom] at ha; done) | rfl

omit [Unicode] in
theorem atom_noted {t : Ty} (ha : t.atom = true) : t.isNoted = false := by
  cases t <;> first | rfl | (simp [Ty.atom] at ha)

theorem select_of {n p} {k : Tok} (h : p.cur = k) (hk : k ≠ .IDENT) :
    selectNud (parseEntry n) n p = nudOf (parseEntry n) n k := by
  unfold selectNud
  rw [h, if_neg (fun h => hk h.1)]

/-! ### Going on -/

theorem feeds_into {p : PState} {a : Token} {ts : List Token} {r u rs}
    (h : Feeds p (a :: (ts ++ r :: u :: rs))) :
    ∃ q, p.next = .ok q ∧ Feeds q (ts ++ r :: u :: rs) ∧ Same p q := by
  match ts with
  | [] => exact feeds_next h
  | [b] => exact feeds_next (s := a) (t := b) (u := r) h
  | b :: c :: ts => exact feeds_next (s := a) (t := b) (u := c) (ts := ts ++ r :: u :: rs) h

/-- Going to the next token and reading a type there. -/
theorem child {t : Ty} (ht : EntryOK t) {n : Nat} {p : PState} {a : Token} {ts r u rs}
    (hn : t.pieces.length + 3 ≤ n) (hx : Texts ts t.pieces) (hf : Feeds p (a :: (ts ++ r :: u :: rs)))
    (hm : Near t r u) :
    ∃ x q, nextEntry (parseEntry n) p = .ok (x, none, q) ∧ noPos x = t.node true ∧
      End q (r :: u :: rs) ∧ Eff p q t.checks := by
  obtain ⟨p1, h1, h2, h3⟩ := feeds_into hf
  obtain ⟨x, q, k1, k2, k3, k4⟩ := ht n p1.cur.precedence p1 ts r u rs hn hx h2 hm id
  exact ⟨x, q, nextEntry_of h1 k1, k2, k3, h3.then k4⟩

theorem end_sees {q : PState} {r rs} (h : End q (r :: rs)) (hr : r.tok ≠ .COMMA) :
    q.cur ≠ .COMMA ∧ Sees q (r :: rs) := by
  obtain ⟨_, _, h1, h2⟩ := h
  cases h1
  rcases h2 with h2 | h2
  · exact absurd h2.1 hr
  · exact h2.2

theorem end_no_trail {q : PState} {r u rs} (h : End q (r :: u :: rs)) (hc : Calm r)
    (hc' : r.tok = .COMMA → Calm u) :
    ¬ (q.peek = .COMMENT ∧ sameLine q.pos q.peekPos = true) := by
  obtain ⟨_, _, h1, h2⟩ := h
  cases h1
  rcases h2 with h2 | h2
  · exact no_trail h2.2.2 (hc' h2.1)
  · exact no_trail h2.2.2 hc

/-! ### Operands without parts -/

theorem atom_name {w : List Char} (h : (Ty.name w).WF) (hp : (Piece.word w).WF) : AtomOK (.name w) := by
  intro n p ts r u rs hn hx hf hb
  obtain ⟨a, ts', rfl, h1, h2, h3⟩ := texts_cons (show Texts ts [Piece.word w] from hx)
  rw [texts_nil h3] at hf
  obtain ⟨hc, hs⟩ := hf
  obtain ⟨c1, c2, c3⟩ := cur_of hc
  have hw : word w = .IDENT := h
  have hcur : p.cur = .IDENT := by rw [c1, h1]; exact hw
  have hpk : p.peek ≠ .COLON := by rw [(peek_of hs).1]; exact hb.1 w rfl
  have hlit : p.lit = enc w := by rw [c3, h2]; rfl
  cases w with
  | nil => exact absurd hp (by simp [Piece.WF])
  | cons c w =>
    have hsel : selectNud (parseEntry n) n p = some parseNamedIdentifier := by
      unfold selectNud
      rw [if_neg (fun h => hpk h.2), hcur]
      rfl
    have hc128 : c.toNat < 128 := by
      obtain ⟨_, hc', h⟩ := hp.1
      cases hc'
      simp only [idStart, alpha, Bool.or_eq_true, Bool.and_eq_true, decide_eq_true_eq] at h
      rcases h with ((h | rfl) | rfl) | rfl
      · have h1 : ∀ d : Char, c ≤ d → c.toNat ≤ d.toNat := fun d h => h
        rcases h with h | h
        · have := h1 _ h.2
          exact Nat.lt_of_le_of_lt this (by decide)
        · have := h1 _ h.2
          exact Nat.lt_of_le_of_lt this (by decide)
      all_goals decide
    have hlit' : p.lit = UInt8.ofNat c.toNat :: enc w := by
      rw [hlit, enc_cons, enc_ascii hc128]; rfl
    by_cases hd : c = '$'
    · subst hd
      refine ⟨_, .ident ⟨p.pos, p.lit⟩, p, hsel, ?_, ?_, ?_, hs, ?_⟩
      · unfold parseNamedIdentifier; rw [hlit']; rfl
      · rw [noPos, hlit]; rfl
      · rw [hcur]; decide
      · exact (Same.refl p).eff
    · have hne : UInt8.ofNat c.toNat ≠ 36 := by
        intro h
        apply hd
        have h2 := congrArg UInt8.toNat h
        rw [UInt8.toNat_ofNat', Nat.mod_eq_of_lt (by omega)] at h2
        exact Char.toNat_inj.mp h2
      refine ⟨_, .ident ⟨p.pos, p.lit⟩, p.addTask (.exists p.lit p.pos), hsel, ?_, ?_, ?_, sees_task hs, ?_⟩
      · unfold parseNamedIdentifier
        rw [hlit']
        dsimp only
        rw [if_pos hne]
      · rw [noPos, hlit]; rfl
      · show p.cur ≠ _; rw [hcur]; decide
      · refine eff_task ?_
        rw [hlit]
        simp [Task.check, Ty.checks, hd]

omit [Unicode] in
theorem word_builtin {k : Tok} (h : (Ty.kw k).WF) : word (builtin k) = k := by
  rcases builtins_mem h with rfl | rfl | rfl | rfl | rfl | rfl | rfl | rfl | rfl | rfl | rfl | rfl |
      rfl | rfl | rfl | rfl <;> decide

theorem kw_nud {k : Tok} {n : Nat} {p : PState} {rec : Rec} (h : (Ty.kw k).WF) (hcur : p.cur = k)
    (hlit : p.lit = enc (builtin k)) :
    ∃ nud x, nudOf rec n k = some nud ∧ nud p = .ok (x, none, p) ∧ noPos x = builtinNode k ∧
      k ≠ .IDENT ∧ k ≠ .COMMA := by
  rcases builtins_mem h with rfl | rfl | rfl | rfl | rfl | rfl | rfl | rfl | rfl | rfl | rfl | rfl |
      rfl | rfl | rfl | rfl
  case inr.inl =>
    refine ⟨_, .boolLit ⟨p.pos, p.pos.to 3⟩ true, rfl, ?_, rfl, by decide, by decide⟩
    show parseBooleanLiteral p = _
    unfold parseBooleanLiteral
    rw [if_pos (hlit.trans (by decide))]
  case inr.inr.inl =>
    refine ⟨_, .boolLit ⟨p.pos, p.pos.to 4⟩ false, rfl, ?_, rfl, by decide, by decide⟩
    show parseBooleanLiteral p = _
    unfold parseBooleanLiteral
    rw [if_neg (by rw [hlit]; decide), if_pos (hlit.trans (by decide))]
  all_goals first
    | (refine ⟨_, _, rfl, rfl, by simp only [noPos, hcur]; rfl, by decide, by decide⟩; done)
    | (refine ⟨_, .floatType p.pos p.cur, rfl, ?_, by simp only [noPos, hcur]; rfl, by decide, by decide⟩
       show parseFloatType p = _
       unfold parseFloatType
       rw [if_neg (by rw [hlit, hcur]; decide)])
    | (refine ⟨_, .uintType ⟨p.pos, p.pos.to 4⟩ p.cur, rfl, ?_, by simp only [noPos, hcur]; rfl, by decide, by decide⟩
       show parseUintType p = _
       unfold parseUintType
       rw [if_neg (by rw [hlit, hcur]; decide)])
    | (refine ⟨_, .intType p.pos p.cur, rfl, ?_, by simp only [noPos, hcur]; rfl, by decide, by decide⟩
       show parseIntegerType p = _
       unfold parseIntegerType
       rw [if_neg (by rw [hlit, hcur]; decide)])

theorem atom_kw {k : Tok} (h : (Ty.kw k).WF) : AtomOK (.kw k) := by
  intro n p ts r u rs hn hx hf hb
  obtain ⟨a, ts', rfl, h1, h2, h3⟩ := texts_cons (show Texts ts [Piece.word (builtin k)] from hx)
  rw [texts_nil h3] at hf
  obtain ⟨hc, hs⟩ := hf
  obtain ⟨c1, c2, c3⟩ := cur_of hc
  have hcur : p.cur = k := by rw [c1, h1]; exact word_builtin h
  have hlit : p.lit = enc (builtin k) := by rw [c3, h2]; rfl
  obtain ⟨nud, x, k1, k2, k3, k4, k5⟩ := kw_nud (n := n) (rec := parseEntry n) h hcur hlit
  exact ⟨nud, x, p, (select_of hcur k4).trans k1, k2, k3, by rw [hcur]; exact k5, hs, (Same.refl p).eff⟩

theorem atom_int {s : Piece} (h : (Ty.int s).WF) (hp : s.WF) : AtomOK (.int s) := by
  intro n p ts r u rs hn hx hf hb
  obtain ⟨a, ts', rfl, h1, h2, h3⟩ := texts_cons (show Texts ts [s] from hx)
  rw [texts_nil h3] at hf
  obtain ⟨hc, hs⟩ := hf
  obtain ⟨c1, c2, c3⟩ := cur_of hc
  obtain ⟨v, hv, hlt⟩ := h
  have hcur : p.cur = .INT := by rw [c1, h1]; exact (numeral_head hp hv).1
  have hlit : p.lit = enc s.lit := by rw [c3, h2]
  have hl : p.cur.isLiteral p.lit = true := by rw [hcur, hlit]; exact numeral_isLiteral hp hv
  refine ⟨parseIntegerType, .intLit p.pos p.cur v, p, select_of hcur (by decide), ?_, ?_, by rw [hcur]; decide,
    hs, (Same.refl p).eff⟩
  · unfold parseIntegerType
    rw [if_pos hl]
    unfold parseIntegerLiteral
    rw [if_pos hl, hlit, parseInt_numeral hp hv, if_neg (by omega)]
  · simp only [noPos, hcur, Ty.node, hv]; rfl

theorem atom_float {a b : List Char} (h : (Ty.float a b).WF) (hp : (Piece.frac a b).WF) :
    AtomOK (.float a b) := by
  intro n p ts r u rs hn hx hf hb
  obtain ⟨t0, ts', rfl, h1, h2, h3⟩ := texts_cons (show Texts ts [Piece.frac a b] from hx)
  rw [texts_nil h3] at hf
  obtain ⟨hc, hs⟩ := hf
  obtain ⟨c1, c2, c3⟩ := cur_of hc
  have hcur : p.cur = .FLOAT := by rw [c1, h1]; rfl
  have hlit : p.lit = enc (Piece.frac a b).lit := by rw [c3, h2]
  have hl : p.cur.isLiteral p.lit = true := by rw [hcur, hlit]; exact frac_isLiteral hp
  refine ⟨parseFloatType, .floatLit ⟨p.pos, p.pos.to ((p.lit.length : Int) - 1)⟩ p.cur (fraction a b), p,
    select_of hcur (by decide), ?_, ?_, by rw [hcur]; decide, hs, (Same.refl p).eff⟩
  · unfold parseFloatType
    rw [if_pos hl]
    unfold parseFloatLiteral
    have hw : (fraction a b).mant < (2 ^ 1024 - 2 ^ 970) * 10 ^ (fraction a b).scale := h
    have : parseFloat p.lit = .ok (fraction a b) := by
      rw [hlit, parseFloat_frac hp, if_neg (Nat.not_le.mpr hw)]
    rw [this]
  · simp only [noPos, hcur]; rfl

theorem atom_text {s : List Char} : AtomOK (.text s) := by
  intro n p ts r u rs hn hx hf hb
  obtain ⟨t0, ts', rfl, h1, h2, h3⟩ := texts_cons (show Texts ts [Piece.str s] from hx)
  rw [texts_nil h3] at hf
  obtain ⟨hc, hs⟩ := hf
  obtain ⟨c1, c2, c3⟩ := cur_of hc
  have hcur : p.cur = .TEXT_LITERAL := by rw [c1, h1]; rfl
  have hlit : p.lit = enc s := by rw [c3, h2]; rfl
  exact ⟨parseTextLiteral, .textLit p.pos p.cur p.lit, p, select_of hcur (by decide), rfl,
    by simp only [noPos, hcur, hlit]; rfl, by rw [hcur]; decide, hs, (Same.refl p).eff⟩

/-! ### Tags -/

/-- Reading what follows `#`. -/
theorem tag_num {h : TagNum} (hw : h.WF) (hp : ∀ p ∈ h.pieces, p.WF) {rec : Rec} {p : PState} {t0 ts r u rs}
    (hx : Texts ts h.pieces) (hf : Feeds p (t0 :: (ts ++ r :: u :: rs))) (ht0 : t0.tok = .HASH)
    (hr : h = .bare → r.tok ≠ .INT ∧ r.tok ≠ .FLOAT) :
    ∃ a b q, parseTag rec p = parseTagItem rec p.pos p.cur a b q ∧ a.map noPosU = h.majorNum ∧
      b.map noPosU = h.minorNum ∧ Sees q (r :: u :: rs) ∧ q.cur ≠ .COMMA ∧ Same p q := by
  have hcur : p.cur = .HASH := (cur_of hf.1).1.trans ht0
  cases h with
  | bare =>
    rw [texts_nil hx] at hf
    have hs : Sees p (r :: u :: rs) := hf.2
    refine ⟨none, none, p, ?_, rfl, rfl, hs, by rw [hcur]; decide, .refl p⟩
    unfold parseTag
    have hpk := (peek_of hs).1
    obtain ⟨h1, h2⟩ := hr rfl
    split
    · rename_i h; exact absurd (hpk.symm.trans h) h1
    · rename_i h; exact absurd (hpk.symm.trans h) h2
    · rfl
  | major m =>
    obtain ⟨v, hv, hlt⟩ := hw
    have hm := hp m (by simp [TagNum.pieces])
    obtain ⟨t1, ts', rfl, h1, h2, h3⟩ := texts_cons (show Texts ts [m] from hx)
    rw [texts_nil h3] at hf
    obtain ⟨q, k1, k2, k3, k4⟩ := next_sees (show Sees p (t1 :: r :: (u :: rs)) from hf.2)
    have hpk : p.peek = .INT := (peek_of (show Sees p (t1 :: r :: (u :: rs)) from hf.2)).1.trans
      (h1.trans (numeral_head hm hv).1)
    refine ⟨some { value := v }, none, q, ?_, ?_, rfl, k3, ?_, k4⟩
    · unfold parseTag
      rw [hpk]
      show Out.bind p.next _ = _
      rw [k1]
      show (match parseUint q.lit with | .error _ => _ | .ok major => _) = _
      rw [(cur_of k2).2.2, h2, parseUint_numeral hm hv, if_neg (by omega)]
    · simp [TagNum.majorNum, hv, noPosU]
    · rw [(cur_of k2).1, h1, (numeral_head hm hv).1]; decide
  | both a b =>
    obtain ⟨⟨v, hv, hlt⟩, w, hw, hlt'⟩ := hw
    have hm := hp (.frac a b) (by simp [TagNum.pieces])
    obtain ⟨t1, ts', rfl, h1, h2, h3⟩ := texts_cons (show Texts ts [.frac a b] from hx)
    rw [texts_nil h3] at hf
    obtain ⟨q, k1, k2, k3, k4⟩ := next_sees (show Sees p (t1 :: r :: (u :: rs)) from hf.2)
    have hpk : p.peek = .FLOAT := (peek_of (show Sees p (t1 :: r :: (u :: rs)) from hf.2)).1.trans h1
    have hqc : q.cur = .FLOAT := (cur_of k2).1.trans h1
    have hwa : (Piece.dec a).WF := ⟨hm.1, hm.2.2.1⟩
    have hwb : (Piece.dec b).WF := ⟨hm.2.1, hm.2.2.2⟩
    refine ⟨some ⟨q.pos, q.cur, v⟩, some ⟨q.pos, q.cur, w⟩, q, ?_, ?_, ?_, k3, by rw [hqc]; decide, k4⟩
    · unfold parseTag
      rw [hpk]
      show Out.bind p.next _ = _
      rw [k1]
      have : q.parseFloatTag = .ok (⟨q.pos, q.cur, v⟩, ⟨q.pos, q.cur, w⟩) := by
        unfold parseFloatTag
        rw [(cur_of k2).2.2, h2, splitDots_frac hm]
        dsimp only
        have ea : parseUint (enc a) = .ok v := by
          have := parseUint_numeral hwa hv
          rw [if_neg (by omega)] at this
          exact this
        have eb : parseUint (enc b) = .ok w := by
          have := parseUint_numeral hwb hw
          rw [if_neg (by omega)] at this
          exact this
        rw [ea, eb]
      show (match q.parseFloatTag with | .error _ => _ | .ok (major, number) => _) = _
      rw [this]
    · simp [TagNum.majorNum, hv, noPosU, hqc]
    · simp [TagNum.minorNum, hw, noPosU, hqc]

theorem atom_tag {h : TagNum} (hw : h.WF) (hp : ∀ p ∈ h.pieces, p.WF) : AtomOK (.tag h) := by
  intro n p ts r u rs hn hx hf hb
  obtain ⟨t0, ts', rfl, h1, h2, h3⟩ := texts_cons (show Texts ts (Piece.op "#" .HASH :: h.pieces) from hx)
  obtain ⟨b1, b2⟩ := hb.2 h rfl
  obtain ⟨a, b, q, k1, k2, k3, k4, k5, k6⟩ := tag_num hw hp (rec := parseEntry n) h3 hf h1 b2
  have hcur : p.cur = .HASH := (cur_of hf.1).1.trans h1
  refine ⟨parseTag (parseEntry n), .tag p.pos p.cur a b .nil, q, select_of hcur (by decide), ?_, ?_, k5, k4, k6.eff⟩
  · rw [k1]
    unfold parseTagItem
    rw [if_neg (by rw [(peek_of k4).1]; exact b1)]
  · simp only [noPos, hcur, k2, k3, Ty.node]

theorem atom_tagged {h : TagNum} {t : Ty} (hw : h.WF) (hp : ∀ p ∈ h.pieces, p.WF) (ht : EntryOK t) :
    AtomOK (.tagged h t) := by
  intro n p ts r u rs hn hx hf hb
  obtain ⟨t0, ts', rfl, h1, h2, h3⟩ := texts_cons (show Texts ts (Piece.op "#" .HASH ::
    (h.pieces ++ .op "(" .LPAREN :: (t.pieces ++ [.op ")" .RPAREN]))) from hx)
  obtain ⟨ts1, ts2, rfl, h4, h5⟩ := texts_append h3
  obtain ⟨t1, ts3, rfl, h6, _, h7⟩ := texts_cons h5
  obtain ⟨ts4, ts5, rfl, h8, h9⟩ := texts_append h7
  obtain ⟨t2, ts6, rfl, h10, _, h11⟩ := texts_cons h9
  rw [texts_nil h11] at hf
  have hf' : Feeds p (t0 :: (ts1 ++ t1 :: (ts4 ++ t2 :: (r :: u :: rs)))) := by simpa using hf
  obtain ⟨v, vs, hv⟩ : ∃ v vs, ts4 ++ t2 :: (r :: u :: rs) = v :: vs := by
    cases ts4 <;> exact ⟨_, _, rfl⟩
  rw [hv] at hf'
  have e1 : t1.tok = .LPAREN := h6
  obtain ⟨a, b, q, k1, k2, k3, k4, k5, k6⟩ := tag_num hw hp (rec := parseEntry n) h4 hf' h1
    (fun _ => by rw [e1]; decide)
  have hcur : p.cur = .HASH := (cur_of hf.1).1.trans h1
  rw [← hv] at k4
  obtain ⟨q1, j1, j2, j3⟩ := feeds_into (p := q) (a := q.curTok) (ts := t1 :: ts4) (r := t2) (u := r)
    (rs := u :: rs) ⟨rfl, k4⟩
  have e2 : t2.tok = .RPAREN := h10
  obtain ⟨x, q2, i1, i2, i3, i4⟩ := child ht (n := n) (a := t1) (r := t2) (u := r) (rs := u :: rs)
    (by simp [Ty.pieces] at hn; omega) h8 j2 ⟨mayPrecede_any (by rw [e2]; decide) (by rw [e2]; decide)
      (by rw [e2]; decide) (by rw [e2]; decide) t, fun _ => ⟨fun h => by simp [e2] at h, fun h => by simp [e2] at h⟩⟩
  have i5 := (end_sees i3 (by rw [e2]; decide)).2
  obtain ⟨q3, m1, m2, m3, m4⟩ := next_sees i5
  refine ⟨parseTag (parseEntry n), .tag p.pos p.cur a b x, q3, select_of hcur (by decide), ?_, ?_, ?_, m3, ?_⟩
  · rw [k1]
    unfold parseTagItem
    have hpk : q.peek = .LPAREN := (peek_of (show Sees q (t1 :: (ts4 ++ t2 :: r :: u :: rs)) from k4)).1.trans e1
    rw [if_pos hpk]
    show Out.bind q.next _ = _
    rw [j1]
    show Out.bind (nextEntry (parseEntry n) q1) _ = _
    rw [i1]
    show Out.bind (q2.expectPeek .RPAREN) _ = _
    have : q2.expectPeek .RPAREN = .ok q3 := by
      unfold expectPeek
      rw [if_neg (by rw [(peek_of i5).1, e2]; decide), m1]
    rw [this]
    rfl
  · simp only [noPos, hcur, k2, k3, Ty.node, i2]
  · rw [(cur_of m2).1, e2]; decide
  · exact (k6.trans j3).then (i4.same m4)

/-! ### Brackets -/

theorem list_loop {close : Tok} (hclose : close ∉ infixes ∧ close ≠ .INT ∧ close ≠ .FLOAT ∧ close ≠ .LPAREN ∧
      close ≠ .COMMA ∧ (close = .RPAREN ∨ close = .RBRACK ∨ close = .RBRACE)) {keep : Node → Bool} {m : Nat} :
    (es : Ents) → EntsOK es → es.WF close → (∀ p ∈ es.pieces, p.WF) →
    ∀ {acc n p ts c r rs}, es.pieces.length + 3 ≤ m → es.pieces.length + 1 ≤ n → Texts ts es.pieces →
    Feeds p (ts ++ c :: r :: rs) → c.tok = close →
    ∃ xs q, loopOut (listStep (parseEntry m) close keep) n (acc, p) = .ok (acc ++ xs.filter keep, none, q) ∧
      noPosL xs = es.nodes true ∧ q.curTok = c ∧ Sees q (r :: rs) ∧ Eff p q es.checks
  | .nil, _, _, _, acc, n, p, ts, c, r, rs, _, hn, hx, hf, hc => by
    rw [texts_nil hx] at hf
    obtain ⟨n, rfl⟩ : ∃ k, n = k + 1 := ⟨n - 1, by omega⟩
    refine ⟨[], p, ?_, rfl, hf.1, hf.2, (Same.refl p).eff⟩
    rw [loopOut]
    unfold listStep
    dsimp only
    rw [if_pos ((cur_of hf.1).1.trans hc)]
    simp
  | .cons t comma es, ⟨ht, hes⟩, ⟨w1, w2, w3, w4⟩, hp, acc, n, p, ts, c, r, rs, hm, hn, hx, hf, hc => by
    have hpt : ∀ p ∈ t.pieces, p.WF := fun p h => hp p (by simp [Ents.pieces, h])
    have hpe : ∀ p ∈ es.pieces, p.WF := fun p h => hp p (by simp [Ents.pieces, h])
    obtain ⟨n, rfl⟩ : ∃ k, n = k + 1 := ⟨n - 1, by omega⟩
    obtain ⟨ts1, ts2, rfl, hx1, hx2⟩ := texts_append (show Texts ts (t.pieces ++ _) from hx)
    obtain ⟨ts3, ts4, rfl, hx3, hx4⟩ := texts_append hx2
    have hlen : t.pieces.length + (es.pieces.length + if comma then 1 else 0) =
        (Ents.cons t comma es).pieces.length := by
      cases comma <;> simp [Ents.pieces] <;> omega
    have hpos : 0 < t.pieces.length := by
      obtain ⟨pc, pcs, h1, _⟩ := pieces_head t w1 hpt
      rw [h1]; simp
    have hf' : Feeds p (ts1 ++ (ts3 ++ (ts4 ++ c :: r :: rs))) := by simpa using hf
    have hcur : p.cur ≠ close := by
      rw [feeds_first w1 hpt hx1 hf']
      obtain ⟨f1, f2, f3, _⟩ := first_start t w1
      rcases hclose.2.2.2.2.2 with h | h | h <;> rw [h] <;> assumption
    have hcalm : t.takes = true → ∀ v vs, ts4 ++ c :: r :: rs = v :: vs → Calm v := by
      intro htk v vs hv
      cases es with
      | nil =>
        rw [texts_nil hx4] at hv
        cases hv
        intro h
        rw [hc] at h
        rcases hclose.2.2.2.2.2 with h' | h' | h' <;> rw [h'] at h <;> cases h
      | cons t' cm' es' =>
        have hpt' : ∀ p ∈ t'.pieces, p.WF := fun p h => hpe p (by simp [Ents.pieces, h])
        obtain ⟨pc, pcs, h1, h2⟩ := pieces_head t' w2.1 hpt'
        simp only [Ents.pieces, h1, List.cons_append] at hx4
        obtain ⟨v', ts5, rfl, e1, _, e2, _⟩ := texts_marked hx4
        cases hv
        intro _
        rw [e2]
        cases hs : pc.same with
        | false => rfl
        | true =>
          have h3 := head_same t' w2.1 hpt' pc pcs h1 hs
          have h4 := w4 htk
          simp only [Ents.startsSame] at h4
          rw [h3] at h4
          cases h4
    -- the entry, and the token behind it and its comma
    have entry : ∃ x q1 p1, parseEntry m p.cur.precedence p = .ok (x, none, q1) ∧ q1.next = .ok p1 ∧
        noPos x = t.node true ∧ Feeds p1 (ts4 ++ c :: r :: rs) ∧ Eff p p1 t.checks := by
      cases comma with
      | true =>
        obtain ⟨cm, ts5, rfl, e1, _, e2⟩ := texts_cons (show Texts ts3 [.op "," .COMMA] from hx3)
        rw [texts_nil e2] at hf'
        have hcm : cm.tok = .COMMA := e1
        obtain ⟨v, vs, hv⟩ : ∃ v vs, ts4 ++ c :: r :: rs = v :: vs := by
          cases ts4 <;> exact ⟨_, _, rfl⟩
        obtain ⟨x, q1, k1, k2, k3, k4⟩ := ht m p.cur.precedence p ts1 cm v vs (by omega) hx1
          (by rw [← hv]; exact hf') ⟨mayPrecede_any (by rw [hcm]; decide) (by rw [hcm]; decide)
            (by rw [hcm]; decide) (by rw [hcm]; decide) t,
            fun htk => ⟨fun h => by simp [hcm] at h, fun _ => hcalm htk v vs hv⟩⟩ id
        obtain ⟨_, _, j1, j2⟩ := k3
        cases j1
        have j3 := j2.resolve_right (fun h => h.1 hcm)
        rw [← hv] at j3
        obtain ⟨p1, i1, i2, i3⟩ := feeds_into (p := q1) (a := cm) ⟨j3.2.1, j3.2.2⟩
        exact ⟨x, q1, p1, k1, i1, k2, i2, k4.same i3⟩
      | false =>
        rw [texts_nil (show Texts ts3 [] from hx3)] at hf'
        have hv : ∃ v w vs, ts4 ++ c :: r :: rs = v :: w :: vs ∧ v.tok = es.first close ∧ v.tok ≠ .COMMA := by
          cases es with
          | nil =>
            rw [texts_nil hx4]
            exact ⟨_, _, _, rfl, hc, by rw [hc]; exact hclose.2.2.2.2.1⟩
          | cons t' cm' es' =>
            obtain ⟨pc, pcs, h1, h2⟩ := pieces_head t' w2.1 (fun p h => hpe p (by simp [Ents.pieces, h]))
            simp only [Ents.pieces, h1, List.cons_append] at hx4
            obtain ⟨v, ts5, rfl, e1, _, _⟩ := texts_cons hx4
            have hcm : v.tok ≠ .COMMA := by rw [e1, h2]; exact (first_start t' w2.1).2.2.2.1
            cases ts5 with
            | nil => exact ⟨v, _, _, rfl, e1.trans h2, hcm⟩
            | cons w ts5 => exact ⟨v, _, _, rfl, e1.trans h2, hcm⟩
        obtain ⟨v, w, vs, hv, hv1, hv2⟩ := hv
        rw [show [] ++ (ts4 ++ c :: r :: rs) = v :: w :: vs from hv] at hf'
        obtain ⟨x, q1, k1, k2, k3, k4⟩ := ht m p.cur.precedence p ts1 v w vs (by omega) hx1
          hf' ⟨by rw [hv1]; exact w3 rfl, fun htk => ⟨hcalm htk _ _ hv, fun h => absurd h hv2⟩⟩ id
        obtain ⟨p1, i1, i2, i3, i4⟩ := next_sees (end_sees k3 hv2).2
        exact ⟨x, q1, p1, k1, i1, k2, by rw [hv]; exact ⟨i2, i3⟩, k4.same i4⟩
    obtain ⟨x, q1, p1, k1, k2, k3, k4, k5⟩ := entry
    obtain ⟨xs, q, j1, j2, j3, j4, j5⟩ := list_loop hclose (keep := keep) es hes w2 hpe
      (acc := if keep x then acc ++ [x] else acc) (n := n) (m := m) (by omega) (by omega) hx4 k4 hc
    refine ⟨x :: xs, q, ?_, ?_, j3, j4, k5.trans j5⟩
    · have key : listStep (parseEntry m) close keep (acc, p) =
          .ok (.inl (if keep x then acc ++ [x] else acc, p1)) := by
        unfold listStep
        dsimp only
        rw [if_neg hcur]
        show Out.bind (parseEntry m p.cur.precedence p) _ = _
        rw [k1]
        show Out.bind q1.next _ = _
        rw [k2]
        rfl
      rw [loopOut, key]
      dsimp only
      rw [j1]
      cases hk : keep x <;> simp [hk]
    · simp only [noPosL, j2, k3, Ents.nodes]

theorem parseList_ok {close : Tok} (hclose : close ∉ infixes ∧ close ≠ .INT ∧ close ≠ .FLOAT ∧ close ≠ .LPAREN ∧
      close ≠ .COMMA ∧ (close = .RPAREN ∨ close = .RBRACK ∨ close = .RBRACE)) {keep : Node → Bool} {n : Nat}
    {es : Ents} (hes : EntsOK es) (hw : es.WF close) (hp : ∀ p ∈ es.pieces, p.WF)
    {p a ts c r rs} (hn : es.pieces.length + 3 ≤ n) (hx : Texts ts es.pieces)
    (hf : Feeds p (a :: (ts ++ c :: r :: rs))) (hc : c.tok = close) :
    ∃ xs q, parseList (parseEntry n) n close keep p = .ok (xs.filter keep, none, q) ∧
      noPosL xs = es.nodes true ∧ q.curTok = c ∧ Sees q (r :: rs) ∧ Eff p q es.checks := by
  obtain ⟨p1, h1, h2, h3⟩ := feeds_into hf
  obtain ⟨xs, q, j1, j2, j3, j4, j5⟩ := list_loop hclose (keep := keep) es hes hw hp (acc := []) (n := n)
    hn (by omega) hx h2 hc
  refine ⟨xs, q, ?_, j2, j3, j4, h3.then j5⟩
  unfold parseList
  show Out.bind p.next _ = _
  rw [h1]
  show loopOut _ n ([], p1) = _
  simpa using j1

omit [Unicode] in
theorem nodes_real (b : Bool) {close : Tok} : (es : Ents) → es.WF close →
    (es.nodes b).filter (fun e => !e.isNil) = es.nodes b
  | .nil, _ => rfl
  | .cons t _ es, h => by
    rw [Ents.nodes, List.filter_cons_of_pos (by simp [(node_real b t h.1).1]), nodes_real b es h.2.1]

theorem atom_list {br : Br} {es : Ents} (hes : EntsOK es) (hw : es.WF br.closes.tok)
    (hp : ∀ p ∈ es.pieces, p.WF) : AtomOK (.list br es) := by
  intro n p ts r u rs hn hx hf hb
  obtain ⟨t0, ts', rfl, h1, h2, h3⟩ := texts_cons (show Texts ts (br.opens :: (es.pieces ++ [br.closes])) from hx)
  obtain ⟨ts1, ts2, rfl, h4, h5⟩ := texts_append h3
  obtain ⟨c, ts3, rfl, h6, _, h7⟩ := texts_cons h5
  rw [texts_nil h7] at hf
  have hf' : Feeds p (t0 :: (ts1 ++ c :: r :: (u :: rs))) := by simpa using hf
  have hcur : p.cur = br.opens.tok := (cur_of hf'.1).1.trans h1
  have hn' : es.pieces.length + 3 ≤ n := by simp [Ty.pieces] at hn; omega
  have hcl : c.tok = br.closes.tok := h6
  cases br with
  | paren =>
    obtain ⟨xs, q, j1, j2, j3, j4, j5⟩ := parseList_ok (close := .RPAREN) (by decide) (keep := fun e => e.kind.isGroupEntry)
      hes hw hp hn' h4 hf' hcl
    refine ⟨parseGroup (parseEntry n) n, .group p.pos (xs.filter fun e => e.kind.isGroupEntry), q,
      select_of hcur (by decide), ?_, ?_, by rw [(cur_of j3).1, hcl]; decide, j4, j5⟩
    · unfold parseGroup
      show Out.bind (parseList (parseEntry n) n .RPAREN _ p) _ = _
      rw [j1]; rfl
    · rw [noPos, noPosL_filter, j2]; simp only [← listable_kind]; rfl
  | brack =>
    obtain ⟨xs, q, j1, j2, j3, j4, j5⟩ := parseList_ok (close := .RBRACK) (by decide) (keep := fun e => e.kind.isGroupEntry)
      hes hw hp hn' h4 hf' hcl
    refine ⟨parseArray (parseEntry n) n, .array p.pos (xs.filter fun e => e.kind.isGroupEntry), q,
      select_of hcur (by decide), ?_, ?_, by rw [(cur_of j3).1, hcl]; decide, j4, j5⟩
    · unfold parseArray
      show Out.bind (parseList (parseEntry n) n .RBRACK _ p) _ = _
      rw [j1]; rfl
    · rw [noPos, noPosL_filter, j2]; simp only [← listable_kind]; rfl
  | brace =>
    obtain ⟨xs, q, j1, j2, j3, j4, j5⟩ := parseList_ok (close := .RBRACE) (by decide) (keep := fun e => !e.isNil)
      hes hw hp hn' h4 hf' hcl
    refine ⟨parseMap (parseEntry n) n, .map p.pos (xs.filter fun e => !e.isNil), q,
      select_of hcur (by decide), ?_, ?_, by rw [(cur_of j3).1, hcl]; decide, j4, j5⟩
    · unfold parseMap
      show Out.bind (parseList (parseEntry n) n .RBRACE _ p) _ = _
      rw [j1]; rfl
    · rw [noPos]
      have : noPosL (xs.filter fun e => !e.isNil) = (noPosL xs).filter (fun e => !e.isNil) := by
        rw [noPosL_map, noPosL_map, List.filter_map]
        congr 1
        refine List.filter_congr ?_
        intro x _
        simp [noPos_isNil]
      rw [this, j2, nodes_real true es hw]; rfl

/-! ### Operators -/

/-- An operand alone. -/
theorem tail_atom {t : Ty} (ha : t.atom = true) (hw : t.WF) (hp : ∀ p ∈ t.pieces, p.WF) (h : AtomOK t) :
    TailOK t := by
  intro n prec p ts r u rs hn hx hf hm hz
  have hb : Beside t r.tok := by
    refine ⟨?_, ?_⟩
    · intro w _ h
      exact mayPrecede_infix t hm.1 (by rw [h]; decide)
    · rintro hd rfl
      have hm := hm.1
      cases hd <;> simp only [Ty.mayPrecede, decide_eq_true_eq] at hm <;> simp_all
  obtain ⟨nud, x, q, k1, k2, k3, k4, k5, k6⟩ := h n p ts r u rs hn hx hf hb
  have hz' : prec = 0 := hz (by rw [feeds_first hw hp hx hf]; exact atom_prec ha hw)
  subst hz'
  obtain ⟨q', j1, j2, j3⟩ := finish (rec := parseEntry n) (n := n) (x := x) k4 k5 (mayPrecede_infix t hm.1) (by omega)
  exact ⟨nud, x, q, x, q', k1, k2, j1, k3, j2, k6.same j3⟩

theorem tail_pre {o : Pre} {t : Ty} (h : EntryOK t) : TailOK (.pre o t) := by
  intro n prec p ts r u rs hn hx hf hm hz
  obtain ⟨t0, ts', rfl, h1, h2, h3⟩ := texts_cons (show Texts ts (o.op :: t.pieces) from hx)
  have hlen : t.pieces.length + 3 ≤ n := by simp [Ty.pieces] at hn; omega
  obtain ⟨x, q, k1, k2, k3, k4⟩ := child h hlen h3 hf hm
  have hcur : p.cur = o.op.tok := (cur_of hf.1).1.trans h1
  obtain ⟨n', rfl⟩ : ∃ k, n = k + 1 := ⟨n - 1, by omega⟩
  have hi := mayPrecede_infix t hm.1
  cases o with
  | opt =>
    refine ⟨parseOptional (parseEntry (n' + 1)), .optional p.pos p.cur x, q, _, q, select_of hcur (by decide), ?_,
      end_stop k3 hi, ?_, k3, k4⟩
    · unfold parseOptional
      show Out.bind (nextEntry _ p) _ = _
      rw [k1]; rfl
    · simp only [noPos, k2, hcur]; rfl
  | amp =>
    refine ⟨parseEnumeration (parseEntry (n' + 1)), .enumeration p.pos p.cur x, q, _, q, select_of hcur (by decide), ?_,
      end_stop k3 hi, ?_, k3, k4⟩
    · unfold parseEnumeration
      show Out.bind (nextEntry _ p) _ = _
      rw [k1]; rfl
    · simp only [noPos, k2, hcur]; rfl
  | tilde =>
    refine ⟨parseUnwrap (parseEntry (n' + 1)), .unwrap p.pos p.cur x, q, _, q, select_of hcur (by decide), ?_,
      end_stop k3 hi, ?_, k3, k4⟩
    · unfold parseUnwrap
      show Out.bind (nextEntry _ p) _ = _
      rw [k1]; rfl
    · simp only [noPos, k2, hcur]; rfl

/-- The operator, the upper bound if there is one, and the item. -/
theorem occ_upper {t : Ty} (ht : EntryOK t) (hw : t.WF) (hp : ∀ p ∈ t.pieces, p.WF) {n : Nat} {p : PState}
    {lo : UintLit} {a : Token} {ts r u rs} (hn : t.pieces.length + 3 ≤ n) (hx : Texts ts t.pieces)
    (hf : Feeds p (a :: (ts ++ r :: u :: rs))) (hm : Near t r u) :
    ∃ m x q, parseOccUpper (parseEntry n) lo p = .ok (.nm p.pos p.cur (some lo) m x, none, q) ∧
      m.map noPosU = t.firstInt.map (fun m => ⟨{}, .INT, m⟩) ∧ noPos x = t.node true ∧
      End q (r :: u :: rs) ∧ Eff p q t.checks := by
  obtain ⟨p1, h1, h2, h3⟩ := feeds_into hf
  obtain ⟨x, q, k1, k2, k3, k4⟩ := ht n p1.cur.precedence p1 ts r u rs hn hx h2 hm id
  obtain ⟨pc, pcs, hpc, _⟩ := pieces_head t hw hp
  have hfi := first_int t hw hp pc pcs hpc
  rw [hpc] at hx
  obtain ⟨b, ts', rfl, e1, e2, e3⟩ := texts_cons hx
  have hs : Sees p (b :: (ts' ++ r :: u :: rs)) := hf.2
  obtain ⟨g1, _, g3⟩ := peek_of hs
  have item : ∀ m, parseOccItem (parseEntry n) p.pos p.cur (some lo) m p1 =
      .ok (.nm p.pos p.cur (some lo) m x, none, q) := by
    intro m
    unfold parseOccItem
    show Out.bind (parseEntry n p1.cur.precedence p1) _ = _
    rw [k1]; rfl
  cases hfi' : t.firstInt with
  | none =>
    rw [hfi'] at hfi
    refine ⟨none, x, q, ?_, rfl, k2, k3, h3.then k4⟩
    unfold parseOccUpper
    rw [if_neg (by
      rw [g1, g3, e1, e2]
      rintro ⟨h, h'⟩
      rw [h] at h'
      exact hfi ⟨h, h'⟩)]
    show Out.bind p.next _ = _
    rw [h1]
    exact item none
  | some v =>
    rw [hfi'] at hfi
    obtain ⟨f1, f2, f3⟩ := hfi
    obtain ⟨c1, c2, c3⟩ := cur_of h2.1
    refine ⟨some ⟨p1.pos, p1.cur, v⟩, x, q, ?_, ?_, k2, k3, h3.then k4⟩
    · unfold parseOccUpper
      rw [if_pos (by rw [g1, g3, e1, e2, f1]; exact ⟨rfl, f2⟩)]
      show Out.bind p.next _ = _
      rw [h1]
      have hl : p1.cur.isLiteral p1.lit = true := by rw [c1, c3, e1, e2, f1]; exact f2
      have : p1.parseUintType = .ok (.uintLit ⟨p1.pos, p1.cur, v⟩, none, p1) := by
        unfold parseUintType
        rw [if_pos hl]
        unfold parseUintLiteral
        rw [if_pos hl, c3, e2, f3]
      show Out.bind p1.parseUintType _ = _
      rw [this]
      exact item _
    · simp [noPosU, c1, e1, f1]

theorem tail_occ {plus : Bool} {t : Ty} (h : EntryOK t) (hw : t.WF) (hp : ∀ p ∈ t.pieces, p.WF) :
    TailOK (.occ plus t) := by
  intro n prec p ts r u rs hn hx hf hm hz
  obtain ⟨t0, ts', rfl, h1, h2, h3⟩ := texts_cons (show Texts ts (occOp plus :: t.pieces) from hx)
  have hlen : t.pieces.length + 3 ≤ n := by simp [Ty.pieces] at hn; omega
  have hcur : p.cur = (occOp plus).tok := (cur_of hf.1).1.trans h1
  obtain ⟨n', rfl⟩ : ∃ k, n = k + 1 := ⟨n - 1, by omega⟩
  have hi := mayPrecede_infix t hm.1
  cases plus with
  | false =>
    obtain ⟨m, x, q, k1, k2, k3, k4, k5⟩ := occ_upper h hw hp (lo := ⟨p.pos, .UINT, 0⟩) hlen h3 hf hm
    refine ⟨parseZMOccurrence (parseEntry (n' + 1)), _, q, _, q, select_of hcur (by decide), k1,
      end_stop k4 hi, ?_, k4, k5⟩
    simp only [noPos, k2, k3, hcur]; rfl
  | true =>
    obtain ⟨m, x, q, k1, k2, k3, k4, k5⟩ := occ_upper h hw hp (lo := ⟨p.pos, .UINT, 1⟩) hlen h3 hf hm
    refine ⟨parseOMOccurrence (parseEntry (n' + 1)), _, q, _, q, select_of hcur (by decide), k1,
      end_stop k4 hi, ?_, k4, k5⟩
    simp only [noPos, k2, k3, hcur]; rfl

/-- `key: value` and `key => value`, from the operator on. -/
theorem colon_ok {t : Ty} (ht : EntryOK t) {n : Nat} {p : PState} {left : Node} {k : Bytes}
    {a : Token} {ts r u rs} (hn : t.pieces.length + 3 ≤ n) (hx : Texts ts t.pieces)
    (hf : Feeds p (a :: (ts ++ r :: u :: rs))) (hm : Near t r u) (hc : Calm r ∧ (r.tok = .COMMA → Calm u))
    (hl : (∃ pos, left = .ident ⟨pos, k⟩) ∨ ∃ pos tok v, left = .intLit pos tok v ∧ k = decInt v) :
    ∃ x q, parseColon (parseEntry n) left p = .ok (x, none, q) ∧
      noPos x = .entry {} ⟨{}, k⟩ (t.node true) none ∧ End q (r :: u :: rs) ∧ Eff p q t.checks := by
  obtain ⟨x, q, k1, k2, k3, k4⟩ := child ht hn hx hf hm
  have hnt := end_no_trail k3 hc.1 hc.2
  rcases hl with ⟨pos, rfl⟩ | ⟨pos, tok, v, rfl, rfl⟩
  · refine ⟨.entry p.pos ⟨pos, k⟩ x none, q, ?_, by simp [noPos, k2], k3, k4⟩
    unfold parseColon
    dsimp only
    show Out.bind (nextEntry _ p) _ = _
    rw [k1]
    show (if q.peek = .COMMENT ∧ sameLine q.pos q.peekPos = true then _ else _) = _
    rw [if_neg hnt]
  · refine ⟨.entry p.pos ⟨p.pos, decInt v⟩ x none, q, ?_, by simp [noPos, k2], k3, k4⟩
    unfold parseColon
    dsimp only
    show Out.bind (nextEntry _ p) _ = _
    rw [k1]
    show (if q.peek = .COMMENT ∧ sameLine q.pos q.peekPos = true then _ else _) = _
    rw [if_neg hnt]

theorem tail_field {k : List Char} {t : Ty} (hk : word k = .IDENT) (h : EntryOK t) : TailOK (.field k t) := by
  intro n prec p ts r u rs hn hx hf hm hz
  obtain ⟨t0, ts', rfl, h1, h2, h3⟩ := texts_cons (show Texts ts (.word k :: .op ":" .COLON :: t.pieces) from hx)
  obtain ⟨t1, ts'', rfl, h4, h5, h6⟩ := texts_cons h3
  have hlen : t.pieces.length + 4 ≤ n := by simp [Ty.pieces] at hn; omega
  obtain ⟨c1, c2, c3⟩ := cur_of hf.1
  have hcur : p.cur = .IDENT := by rw [c1, h1]; exact hk
  have hlit : p.lit = enc k := by rw [c3, h2]; rfl
  have e1 : t1.tok = .COLON := h4
  have hpk : p.peek = .COLON := (peek_of (show Sees p (t1 :: (ts'' ++ r :: u :: rs)) from hf.2)).1.trans e1
  obtain ⟨p1, j1, j2, j3⟩ := feeds_into (ts := t1 :: ts'') hf
  have hz' : prec = 0 := hz (by rw [hcur]; rfl)
  subst hz'
  obtain ⟨x, q, k1, k2, k3, k4⟩ := colon_ok h (n := n) (left := .ident ⟨p.pos, p.lit⟩) (by omega) h6 j2
    ⟨hm.1, fun _ => hm.2 rfl⟩ (hm.2 rfl) (.inl ⟨p.pos, rfl⟩)
  obtain ⟨n', rfl⟩ : ∃ m, n = m + 2 := ⟨n - 2, by omega⟩
  refine ⟨parseIdentifier, .ident ⟨p.pos, p.lit⟩, p, x, q, ?_, rfl, ?_, ?_, k3, j3.then k4⟩
  · unfold selectNud; rw [if_pos ⟨hcur, hpk⟩]
  · rw [led_step (led := parseColon (parseEntry (n' + 2))) (p1 := p1) (y := x) (q := q) (by rw [hcur]; decide)
      (by rw [hpk]; decide) (by rw [hpk]; rfl) j1 k1]
    exact end_stop k3 (mayPrecede_infix t hm.1)
  · rw [k2, hlit]; rfl

/-! ### Infix operators -/

omit [Unicode] in
/-- The kinds of names, numbers and fractions. -/
theorem upper_ident {b : Node} {i : Ident} : upperEnd true (.ident i) b = b := by
  simp [upperEnd, Node.kind]

/-- A range, from the operator on. -/
theorem bound_ok {o : Bin} (ho : o = .incl ∨ o = .excl) {l t : Ty} (ht : EntryOK t) (hw : t.WF) {n : Nat}
    {p : PState} {left : Node} (hl : noPos left = l.node true) (hfit : o.fits l t) {a : Token} {ts r u rs}
    (ha : a.tok = o.op.tok) (hn : t.pieces.length + 3 ≤ n) (hx : Texts ts t.pieces)
    (hf : Feeds p (a :: (ts ++ r :: u :: rs))) (hm : Near t r u) :
    ∃ y q, parseBound (parseEntry n) left p = .ok (y, none, q) ∧
      noPos y = .range {} o.op.tok (l.node true) (upperEnd true (l.node true) (t.node true)) ∧
      End q (r :: u :: rs) ∧ Eff p q (t.checks ++ rangeChecks o.op.tok (l.node true) (t.node true)) := by
  obtain ⟨x, q, k1, k2, k3, k4⟩ := child ht hn hx hf hm
  have hcur : p.cur = o.op.tok := (cur_of hf.1).1.trans ha
  have hfit' : (∃ w, l = .name w) ∨ (∃ s, l = .int s ∧ (t.node true).kind ≠ .floatLit) ∨
    (∃ a b, l = .float a b ∧ (t.node true).kind ≠ .intLit) := by
    rcases ho with rfl | rfl <;> exact hfit
  have hreal := (node_real true t hw).2
  have hx0 : ∀ k, x ≠ .typedNil k := by
    rintro k rfl
    exact hreal k k2.symm
  have eff0 : ∀ {cs}, cs = [] → Eff p q (t.checks ++ cs) := by rintro _ rfl; simpa using k4
  have effT : ∀ tk {cs}, [tk].filterMap Task.check = cs → Eff p (q.addTask tk) (t.checks ++ cs) :=
    fun tk cs h => k4.trans (eff_task h)
  have endT : ∀ tk, End (q.addTask tk) (r :: u :: rs) := by
    intro tk
    obtain ⟨_, _, h1, h2⟩ := k3
    cases h1
    exact ⟨_, _, rfl, h2⟩
  rw [← k2] at hfit' ⊢
  rcases hfit' with ⟨w, rfl⟩ | ⟨s, rfl, hk⟩ | ⟨c, d, rfl, hk⟩
  · obtain ⟨pos, rfl⟩ := noPos_ident hl
    have key : parseBound (parseEntry n) (.ident ⟨pos, enc w⟩) p =
        .ok (.range p.pos p.cur (.ident ⟨pos, enc w⟩) x, none, q.addTask (.identBound p.cur ⟨pos, enc w⟩ x)) := by
      show Out.bind (nextEntry _ p) _ = _
      rw [k1]; rfl
    refine ⟨_, _, key, ?_, endT _, effT _ ?_⟩
    · simp only [noPos, hcur, Ty.node, upper_ident]
    · rw [hcur]
      cases x <;> rfl
  · obtain ⟨pos, rfl⟩ := noPos_intLit hl
    rw [noPos_kind] at hk
    have key : ∀ res, (match x with
        | .intLit .. => .ok (.range p.pos p.cur (.intLit pos .INT ((numeral s).getD 0)) x, none, q)
        | .floatLit r tok _ =>
          .ok (.range p.pos p.cur (.intLit pos .INT ((numeral s).getD 0)) (.badNode r.start tok x r.stop),
            some ⟨.floatInIntRange, r.start, r.stop⟩, q)
        | .ident i =>
          .ok (.range p.pos p.cur (.intLit pos .INT ((numeral s).getD 0)) x, none, q.addTask (.intBound i.name i.pos i.stop))
        | _ => .ok (.range p.pos p.cur (.intLit pos .INT ((numeral s).getD 0)) .nil, none, q) : PRes) = res →
        parseBound (parseEntry n) (.intLit pos .INT ((numeral s).getD 0)) p = res := by
      intro res h
      show Out.bind (nextEntry _ p) _ = _
      rw [k1]; exact h
    clear hl
    cases x
    case floatLit => exact absurd rfl hk
    case typedNil k => exact absurd rfl (hx0 k)
    case ident i =>
      exact ⟨_, _, key _ rfl, by rw [noPos, hcur]; rfl, endT _, effT _ rfl⟩
    all_goals exact ⟨_, _, key _ rfl, by rw [noPos, hcur]; rfl, k3, eff0 rfl⟩
  · obtain ⟨rg, rfl⟩ := noPos_floatLit hl
    rw [noPos_kind] at hk
    have key : ∀ res, (match x with
        | .floatLit .. => .ok (.range p.pos p.cur (.floatLit rg .FLOAT (fraction c d)) x, none, q)
        | .intLit pos tok v =>
          .ok (.range p.pos p.cur (.floatLit rg .FLOAT (fraction c d)) (.badNode pos tok x (pos.to (decInt v).length)),
            some ⟨.intInFloatRange, pos, pos.to (decInt v).length⟩, q)
        | .ident i =>
          .ok (.range p.pos p.cur (.floatLit rg .FLOAT (fraction c d)) x, none, q.addTask (.floatBound i.name i.pos i.stop))
        | _ => .ok (.range p.pos p.cur (.floatLit rg .FLOAT (fraction c d)) .nil, none, q) : PRes) = res →
        parseBound (parseEntry n) (.floatLit rg .FLOAT (fraction c d)) p = res := by
      intro res h
      show Out.bind (nextEntry _ p) _ = _
      rw [k1]; exact h
    clear hl
    cases x
    case intLit => exact absurd rfl hk
    case typedNil k => exact absurd rfl (hx0 k)
    case ident i =>
      exact ⟨_, _, key _ rfl, by rw [noPos, hcur]; rfl, endT _, effT _ rfl⟩
    all_goals exact ⟨_, _, key _ rfl, by rw [noPos, hcur]; rfl, k3, eff0 rfl⟩

/-- An infix operator applied to a left operand, from the operator on. -/
theorem led_ok {o : Bin} {l t : Ty} (hlw : l.WF) (ht : EntryOK t) (hw : t.WF) (hp : ∀ p ∈ t.pieces, p.WF)
    {n : Nat} {p : PState} {left : Node} (hl : noPos left = l.node true) (hfit : o.fits l t) {a : Token}
    {ts r u rs} (ha : a.tok = o.op.tok) (hal : a.lit = enc o.op.lit) (hn : t.pieces.length + 3 ≤ n)
    (hx : Texts ts t.pieces) (hf : Feeds p (a :: (ts ++ r :: u :: rs))) (hmb : Near (.bin o l t) r u) :
    ∃ led y q, ledOf (parseEntry n) o.op.tok = some led ∧ led left p = .ok (y, none, q) ∧
      noPos y = o.node true t.firstInt (l.node true) (t.node true) ∧ End q (r :: u :: rs) ∧
      Eff p q (t.checks ++ (if o.isRange then rangeChecks o.op.tok (l.node true) (t.node true) else [])) := by
  have hm : Near t r u := ⟨hmb.1, fun h => hmb.2 (by simp [Ty.takes, h])⟩
  obtain ⟨x, q, k1, k2, k3, k4⟩ := child ht hn hx hf hm
  have hcur : p.cur = o.op.tok := (cur_of hf.1).1.trans ha
  have hlit : p.lit = enc o.op.lit := (cur_of hf.1).2.2.trans hal
  have k4' : Eff p q (t.checks ++ []) := by simpa using k4
  have kinds : left.kind = (l.node true).kind := by rw [← hl, noPos_kind]
  have choice : ∀ {res}, res = .ok (.typeChoice p.pos p.cur left x, none, q) →
      parseTypeChoice (parseEntry n) left p = res := by
    rintro _ rfl
    show Out.bind (nextEntry _ p) _ = _
    rw [k1]; rfl
  have cmp : l ∈ [Ty.kw .UINT, .kw .INT, .kw .FLOAT, .kw .FLOAT16, .kw .FLOAT32, .kw .FLOAT64] →
      parseComparatorOp (parseEntry n) left p =
        .ok (.comparator p.pos p.cur p.lit (.typedNil .intType) x, none, q) := by
    intro h
    have hk : left.kind = .uintType ∨ left.kind = .intType ∨ left.kind = .floatType := by
      rw [kinds]
      simp only [List.mem_cons, List.not_mem_nil, or_false] at h
      rcases h with rfl | rfl | rfl | rfl | rfl | rfl <;> decide
    unfold parseComparatorOp
    rcases hk with h | h | h <;> rw [h] <;>
      (show Out.bind (nextEntry _ p) _ = _; rw [k1]; rfl)
  have occ : (∃ s, l = .int s) → ∃ y q, parseOccurrence (parseEntry n) left p = .ok (y, none, q) ∧
      noPos y = .nm {} p.cur (some (lowNum (l.node true))) (t.firstInt.map fun m => ⟨{}, .INT, m⟩) (t.node true) ∧
      End q (r :: u :: rs) ∧ Eff p q (t.checks ++ []) := by
    rintro ⟨s, rfl⟩
    obtain ⟨pos, rfl⟩ := noPos_intLit hl
    obtain ⟨m, x, q, k1, k2, k3, k4, k5⟩ := occ_upper ht hw hp
      (lo := ⟨pos, .UINT, (((numeral s).getD 0 : Nat) : Int).toNat⟩) hn hx hf hm
    refine ⟨Node.nm p.pos p.cur (some ⟨pos, .UINT, (((numeral s).getD 0 : Nat) : Int).toNat⟩) m x, q, ?_, ?_, k4,
      by simpa using k5⟩
    · unfold parseOccurrence
      dsimp only
      rw [if_neg (by omega), k1]
    · simp only [noPos, k2, k3]; rfl
  have col : (o = .arrow ∨ o = .colon) → ((∃ w, l = .name w) ∨ ∃ s, l = .int s) → ∃ y q, parseColon (parseEntry n) left p = .ok (y, none, q) ∧
      noPos y = .entry {} ⟨{}, keyName (l.node true)⟩ (t.node true) none ∧
      End q (r :: u :: rs) ∧ Eff p q (t.checks ++ []) := by
    intro ho h
    obtain ⟨y, q, k1, k2, k3, k4⟩ := colon_ok (left := left) (k := keyName (l.node true)) ht hn hx hf hm
      (hmb.2 (by rcases ho with rfl | rfl <;> rfl)) (by
      rcases h with ⟨w, rfl⟩ | ⟨s, rfl⟩
      · exact .inl (noPos_ident hl)
      · obtain ⟨pos, rfl⟩ := noPos_intLit hl
        exact .inr ⟨_, _, _, rfl, rfl⟩)
    exact ⟨y, q, k1, k2, k3, by simpa using k4⟩
  cases o with
  | choice => exact ⟨_, _, q, rfl, choice rfl, by simp only [noPos, hl, k2, hcur]; rfl, k3, k4'⟩
  | gchoice => exact ⟨_, _, q, rfl, choice rfl, by simp only [noPos, hl, k2, hcur]; rfl, k3, k4'⟩
  | size =>
    refine ⟨_, .size p.pos p.cur x left, q, rfl, ?_, by simp only [noPos, hl, k2, hcur]; rfl, k3, k4'⟩
    have h : l ∈ [Ty.kw .TSTR, .kw .TEXT, .kw .BSTR, .kw .UINT] := hfit
    have hk : left.kind = .bstr ∨ left.kind = .uintType ∨ left.kind = .tstr := by
      rw [kinds]
      simp only [List.mem_cons, List.not_mem_nil, or_false] at h
      rcases h with rfl | rfl | rfl | rfl <;> decide
    unfold parseSizeOperator
    rcases hk with h | h | h <;> rw [h] <;>
      (show Out.bind (nextEntry _ p) _ = _; rw [k1]; rfl)
  | regexp =>
    obtain ⟨h1, h2⟩ := hfit
    have : ∃ k, noPos left = .tstr ⟨{}, k⟩ ∧ l.node true = .tstr ⟨{}, k⟩ := by
      rw [hl]
      simp only [List.mem_cons, List.not_mem_nil, or_false] at h1
      rcases h1 with rfl | rfl <;> exact ⟨_, rfl, rfl⟩
    obtain ⟨k, e1, e2⟩ := this
    obtain ⟨pos, rfl⟩ := noPos_tstr e1
    refine ⟨_, .regexp p.pos p.cur ⟨pos, k⟩ x, q, rfl, ?_, ?_, k3, k4'⟩
    · unfold parseRegexp
      dsimp only
      obtain ⟨pc, pcs, hpc, hpc'⟩ := pieces_head t hw hp
      rw [hpc] at hx
      obtain ⟨b, ts', rfl, g1, _, _⟩ := texts_cons hx
      have hpk : p.peek = t.first := by
        rw [(peek_of (show Sees p (b :: (ts' ++ r :: u :: rs)) from hf.2)).1, g1, hpc']
      rw [if_neg (by rw [hpk]; rcases h2 with h2 | h2 <;> rw [h2] <;> decide)]
      show Out.bind (nextEntry _ p) _ = _
      rw [k1]; rfl
    · rw [e2]; simp only [noPos, k2, hcur]; rfl
  | bits =>
    refine ⟨_, .bits p.pos p.cur left x, q, rfl, ?_, by simp only [noPos, hl, k2, hcur]; rfl, k3, k4'⟩
    show Out.bind (nextEntry _ p) _ = _
    rw [k1]; rfl
  | lt => exact ⟨_, _, q, rfl, cmp hfit, by simp only [noPos, k2, hcur, hlit]; rfl, k3, k4'⟩
  | le => exact ⟨_, _, q, rfl, cmp hfit, by simp only [noPos, k2, hcur, hlit]; rfl, k3, k4'⟩
  | gt => exact ⟨_, _, q, rfl, cmp hfit, by simp only [noPos, k2, hcur, hlit]; rfl, k3, k4'⟩
  | ge => exact ⟨_, _, q, rfl, cmp hfit, by simp only [noPos, k2, hcur, hlit]; rfl, k3, k4'⟩
  | eq => exact ⟨_, _, q, rfl, cmp hfit, by simp only [noPos, k2, hcur, hlit]; rfl, k3, k4'⟩
  | ne => exact ⟨_, _, q, rfl, cmp hfit, by simp only [noPos, k2, hcur, hlit]; rfl, k3, k4'⟩
  | incl =>
    obtain ⟨y, q, j1, j2, j3, j4⟩ := bound_ok (.inl rfl) ht hw hl hfit ha hn hx hf hm
    exact ⟨_, y, q, rfl, j1, j2, j3, j4⟩
  | excl =>
    obtain ⟨y, q, j1, j2, j3, j4⟩ := bound_ok (.inr rfl) ht hw hl hfit ha hn hx hf hm
    exact ⟨_, y, q, rfl, j1, j2, j3, j4⟩
  | arrow =>
    obtain ⟨y, q, j1, j2, j3, j4⟩ := col (.inl rfl) hfit
    exact ⟨_, y, q, rfl, j1, j2, j3, j4⟩
  | colon =>
    obtain ⟨y, q, j1, j2, j3, j4⟩ := col (.inr rfl) (.inr hfit)
    exact ⟨_, y, q, rfl, j1, j2, j3, j4⟩
  | star =>
    obtain ⟨y, q, j1, j2, j3, j4⟩ := occ hfit
    exact ⟨_, y, q, rfl, j1, by rw [j2, hcur]; rfl, j3, j4⟩
  | plus =>
    obtain ⟨y, q, j1, j2, j3, j4⟩ := occ hfit
    exact ⟨_, y, q, rfl, j1, by rw [j2, hcur]; rfl, j3, j4⟩

/-- `key: value` and `key => value` with a comment behind it, from the operator on. -/
theorem colon_note {t : Ty} (ht : EntryOK t) (htk : t.takes = false) {n : Nat} {p : PState} {left : Node} {k : Bytes}
    {a c : Token} {comma : Bool} {ts cms r u rs} (hn : t.pieces.length + 3 ≤ n) (hx : Texts ts t.pieces)
    (hcms : Texts cms (if comma then [.op "," .COMMA] else [])) (hct : c.tok = .COMMENT) (hcm : Marks.same c = true)
    (hf : Feeds p (a :: (ts ++ (cms ++ c :: r :: u :: rs))))
    (hl : (∃ pos, left = .ident ⟨pos, k⟩) ∨ ∃ pos tok v, left = .intLit pos tok v ∧ k = decInt v) :
    ∃ x q, parseColon (parseEntry n) left p = .ok (x, none, q) ∧
      noPos x = .entry {} ⟨{}, k⟩ (t.node true) (some ⟨{}, c.lit⟩) ∧ q.curTok = c ∧ Sees q (r :: u :: rs) ∧
      Eff p q t.checks := by
  have value : ∃ x q, nextEntry (parseEntry n) p = .ok (x, none, q) ∧ noPos x = t.node true ∧
      Sees q (c :: r :: u :: rs) ∧ Eff p q t.checks := by
    have free : ∀ v w : Token, t.takes = true → Calm v ∧ (v.tok = .COMMA → Calm w) := by
      intro v w h; rw [htk] at h; cases h
    cases comma with
    | true =>
      obtain ⟨cm, ts5, rfl, e1, _, e2⟩ := texts_cons (show Texts cms [.op "," .COMMA] from hcms)
      have hcm' : cm.tok = .COMMA := e1
      rw [texts_nil e2] at hf
      obtain ⟨x, q, k1, k2, ⟨_, _, j1, j2⟩, k4⟩ := child ht hn hx (r := cm) (u := c) (rs := r :: u :: rs) hf
        ⟨mayPrecede_any (by rw [hcm']; decide) (by rw [hcm']; decide) (by rw [hcm']; decide) (by rw [hcm']; decide) t,
          free _ _⟩
      cases j1
      exact ⟨x, q, k1, k2, (j2.resolve_right (fun h => h.1 hcm')).2.2, k4⟩
    | false =>
      rw [texts_nil (show Texts cms [] from hcms)] at hf
      obtain ⟨x, q, k1, k2, k3, k4⟩ := child ht hn hx (r := c) (u := r) (rs := u :: rs) hf
        ⟨mayPrecede_any (by rw [hct]; decide) (by rw [hct]; decide) (by rw [hct]; decide) (by rw [hct]; decide) t,
          free _ _⟩
      exact ⟨x, q, k1, k2, (end_sees k3 (by rw [hct]; decide)).2, k4⟩
  obtain ⟨x, q1, k1, k2, k3, k4⟩ := value
  obtain ⟨q, j1, j2, j3, j4⟩ := next_sees k3
  have hc : q.parseInnerComment = ⟨c.pos, c.lit⟩ := by
    unfold parseInnerComment
    rw [(cur_of j2).2.1, (cur_of j2).2.2]
  rcases hl with ⟨pos, rfl⟩ | ⟨pos, tok, v, rfl, rfl⟩
  · refine ⟨.entry p.pos ⟨pos, k⟩ x (some ⟨c.pos, c.lit⟩), q, ?_, by simp [noPos, k2], j2, j3, k4.same j4⟩
    unfold parseColon
    dsimp only
    show Out.bind (nextEntry _ p) _ = _
    rw [k1]
    show (if q1.peek = .COMMENT ∧ sameLine q1.pos q1.peekPos = true then _ else _) = _
    rw [if_pos (trail k3 hct hcm), j1, ← hc]
    rfl
  · refine ⟨.entry p.pos ⟨p.pos, decInt v⟩ x (some ⟨c.pos, c.lit⟩), q, ?_, by simp [noPos, k2], j2, j3, k4.same j4⟩
    unfold parseColon
    dsimp only
    show Out.bind (nextEntry _ p) _ = _
    rw [k1]
    show (if q1.peek = .COMMENT ∧ sameLine q1.pos q1.peekPos = true then _ else _) = _
    rw [if_pos (trail k3 hct hcm), j1, ← hc]
    rfl

theorem tail_field_note {k : List Char} {t : Ty} {comma : Bool} {c : List Char} (hk : word k = .IDENT) (h : EntryOK t)
    (htk : t.takes = false) : TailOK (.remark (.field k t) comma c) := by
  intro n prec p ts r u rs hn hx hf hm hz
  obtain ⟨t0, ts', rfl, h1, h2, h3⟩ := texts_cons (show Texts ts (.word k :: .op ":" .COLON :: (t.pieces ++
    ((if comma then [.op "," .COMMA] else []) ++ [.comment c true]))) from hx)
  obtain ⟨t1, ts'', rfl, h4, h5, h6⟩ := texts_cons h3
  obtain ⟨us, vs, rfl, h7, h8⟩ := texts_append h6
  obtain ⟨cms, ws, rfl, h9, h10⟩ := texts_append h8
  obtain ⟨tc, ws', rfl, g1, g2, g3, g4⟩ := texts_marked h10
  rw [texts_nil g4] at hf
  have hlen : t.pieces.length + 4 ≤ n := by simp [Ty.pieces] at hn; omega
  obtain ⟨c1, c2, c3⟩ := cur_of hf.1
  have hcur : p.cur = .IDENT := by rw [c1, h1]; exact hk
  have hlit : p.lit = enc k := by rw [c3, h2]; rfl
  have e1 : t1.tok = .COLON := h4
  have hf1 : Feeds p (t0 :: t1 :: (us ++ (cms ++ tc :: r :: u :: rs))) := by simpa using hf
  have hpk : p.peek = .COLON := (peek_of (show Sees p (t1 :: _) from hf1.2)).1.trans e1
  obtain ⟨p1, j1, j2, j3⟩ := feeds_into (ts := t1 :: (us ++ (cms ++ [tc]))) (r := r) (u := u) (rs := rs)
    (by simpa using hf1)
  have j2' : Feeds p1 (t1 :: (us ++ (cms ++ tc :: r :: u :: rs))) := by simpa using j2
  have hz' : prec = 0 := hz (by rw [hcur]; rfl)
  subst hz'
  obtain ⟨x, q, k1, k2, k3, k4, k5⟩ := colon_note h htk (n := n) (left := .ident ⟨p.pos, p.lit⟩) (by omega) h7 h9 g1 g3
    j2' (.inl ⟨p.pos, rfl⟩)
  have hqc : q.cur ≠ .COMMA := by rw [(cur_of k3).1, g1]; simp [Piece.tok]
  obtain ⟨n', rfl⟩ : ∃ m, n = m + 3 := ⟨n - 3, by omega⟩
  obtain ⟨q', i1, i2, i3⟩ := finish (rec := parseEntry (n' + 3)) (n := n' + 2) (x := x) hqc k4
    (mayPrecede_infix (.remark (.field k t) comma c) hm.1) (by omega)
  refine ⟨parseIdentifier, .ident ⟨p.pos, p.lit⟩, p, x, q', ?_, rfl, ?_, ?_, i2, j3.then (k5.same i3)⟩
  · unfold selectNud; rw [if_pos ⟨hcur, hpk⟩]
  · rw [led_step (led := parseColon (parseEntry (n' + 3))) (p1 := p1) (y := x) (q := q) (by rw [hcur]; decide)
      (by rw [hpk]; decide) (by rw [hpk]; rfl) j1 k1]
    exact i1
  · rw [k2, hlit, g2]; rfl

theorem tail_bin_note {o : Bin} {l t : Ty} {comma : Bool} {c : List Char} (ho : o = .arrow ∨ o = .colon)
    (ha : l.atom = true) (hlw : l.WF) (hfit : o.fits l t)
    (hpl : ∀ p ∈ l.pieces, p.WF) (hl : AtomOK l) (ht : EntryOK t) (htk : t.takes = false) :
    TailOK (.remark (.bin o l t) comma c) := by
  intro n prec p ts r u rs hn hx hf hm hz
  obtain ⟨ts1, ts2, rfl, h1, h2⟩ := texts_append (show Texts ts (l.pieces ++ (o.op :: (t.pieces ++
    ((if comma then [.op "," .COMMA] else []) ++ [.comment c true])))) by
      have : (Ty.remark (.bin o l t) comma c).pieces = l.pieces ++ (o.op :: (t.pieces ++
        ((if comma then [.op "," .COMMA] else []) ++ [.comment c true]))) := by simp [Ty.pieces]
      rw [← this]; exact hx)
  obtain ⟨a, ts3, rfl, h3, h4, h5⟩ := texts_cons h2
  obtain ⟨us, vs, rfl, h7, h8⟩ := texts_append h5
  obtain ⟨cms, ws, rfl, h9, h10⟩ := texts_append h8
  obtain ⟨tc, ws', rfl, g1, g2, g3, g4⟩ := texts_marked h10
  rw [texts_nil g4] at hf
  have hlen : l.pieces.length + (t.pieces.length + 2) + 2 ≤ n := by simp [Ty.pieces] at hn; omega
  have hpos : 0 < l.pieces.length := by
    obtain ⟨pc, pcs, h1, _⟩ := pieces_head l hlw hpl
    rw [h1]; simp
  have hf' : Feeds p (ts1 ++ a :: (us ++ (cms ++ tc :: r :: u :: rs))) := by simpa using hf
  obtain ⟨v, vs', hv⟩ : ∃ v vs, us ++ (cms ++ tc :: r :: u :: rs) = v :: vs := by
    cases us with
    | nil => cases cms <;> exact ⟨_, _, rfl⟩
    | cons a as => exact ⟨_, _, rfl⟩
  have hop : 0 < o.op.tok.precedence ∧ o.op.tok ≠ .LPAREN ∧ o.op.tok ≠ .INT ∧ o.op.tok ≠ .FLOAT := by
    cases o <;> decide
  have hb : Beside l a.tok := by
    rw [h3]
    refine ⟨?_, fun h _ => ⟨hop.2.1, fun _ => hop.2.2⟩⟩
    rintro w rfl
    rcases ho with rfl | rfl
    · decide
    · obtain ⟨s, h⟩ := hfit; cases h
  obtain ⟨nud, x, q1, k1, k2, k3, k4, k5, k6⟩ := hl n p ts1 a v vs' (by omega) h1 (by rw [← hv]; exact hf') hb
  have hz' : prec = 0 := hz (by rw [feeds_first hlw hpl h1 hf']; exact atom_prec ha hlw)
  subst hz'
  rw [← hv] at k5
  obtain ⟨p2, j1, j2, j3⟩ := feeds_into (p := q1) (a := q1.curTok) (ts := a :: (us ++ (cms ++ [tc]))) (r := r) (u := u)
    (rs := rs) ⟨rfl, by simpa using k5⟩
  have j2' : Feeds p2 (a :: (us ++ (cms ++ tc :: r :: u :: rs))) := by simpa using j2
  have hkey : (∃ w, l = .name w) ∨ ∃ s, l = .int s := by
    rcases ho with rfl | rfl
    · exact hfit
    · exact .inr hfit
  obtain ⟨y, q, i1, i2, i3, i4, i5⟩ := colon_note ht htk (n := n) (left := x) (k := keyName (l.node true)) (by omega) h7 h9
    g1 g3 j2' (by
      rcases hkey with ⟨w, rfl⟩ | ⟨s, rfl⟩
      · exact .inl (noPos_ident k3)
      · obtain ⟨pos, rfl⟩ := noPos_intLit k3
        exact .inr ⟨_, _, _, rfl, rfl⟩)
  have hqc : q.cur ≠ .COMMA := by rw [(cur_of i3).1, g1]; simp [Piece.tok]
  obtain ⟨n', rfl⟩ : ∃ m, n = m + 3 := ⟨n - 3, by omega⟩
  obtain ⟨q', m1, m2, m3⟩ := finish (rec := parseEntry (n' + 3)) (n := n' + 2) (x := y) hqc i4
    (mayPrecede_infix (.remark (.bin o l t) comma c) hm.1) (by omega)
  have hpk : q1.peek = o.op.tok := (peek_of (show Sees q1 (a :: _) from k5)).1.trans h3
  have hled : ledOf (parseEntry (n' + 3)) o.op.tok = some (parseColon (parseEntry (n' + 3))) := by
    rcases ho with rfl | rfl <;> rfl
  refine ⟨nud, x, q1, y, q', k1, k2, ?_, ?_, m2, ?_⟩
  · rw [led_step (led := _) (p1 := p2) (y := y) (q := q) k4 (by rw [hpk]; exact hop.1) (by rw [hpk]; exact hled) j1 i1]
    exact m1
  · rw [i2, g2]
    rcases ho with rfl | rfl <;> rfl
  · have hch : (Ty.remark (.bin o l t) comma c).checks = l.checks ++ t.checks := by
      rcases ho with rfl | rfl <;> simp [Ty.checks, Bin.isRange]
    rw [hch]
    exact k6.trans (j3.then (i5.same m3))

theorem tail_bin {o : Bin} {l t : Ty} (ha : l.atom = true) (hlw : l.WF) (hw : t.WF) (hfit : o.fits l t)
    (hpl : ∀ p ∈ l.pieces, p.WF) (hp : ∀ p ∈ t.pieces, p.WF) (hl : AtomOK l) (ht : EntryOK t) :
    TailOK (.bin o l t) := by
  intro n prec p ts r u rs hn hx hf hm hz
  obtain ⟨ts1, ts2, rfl, h1, h2⟩ := texts_append (show Texts ts (l.pieces ++ o.op :: t.pieces) from hx)
  obtain ⟨a, ts3, rfl, h3, h4, h5⟩ := texts_cons h2
  have hlen : l.pieces.length + (t.pieces.length + 1) + 2 ≤ n := by simpa [Ty.pieces] using hn
  have hpos : 0 < l.pieces.length := by
    obtain ⟨pc, pcs, h1, _⟩ := pieces_head l hlw hpl
    rw [h1]; simp
  have hf' : Feeds p (ts1 ++ a :: (ts3 ++ r :: u :: rs)) := by simpa using hf
  obtain ⟨v, vs, hv⟩ : ∃ v vs, ts3 ++ r :: u :: rs = v :: vs := by
    cases ts3 <;> exact ⟨_, _, rfl⟩
  have hop : o.op.tok ∈ infixes ∧ 0 < o.op.tok.precedence ∧ o.op.tok ≠ .LPAREN ∧ o.op.tok ≠ .INT ∧ o.op.tok ≠ .FLOAT := by
    cases o <;> decide
  have hb : Beside l a.tok := by
    rw [h3]
    refine ⟨?_, fun h _ => ⟨hop.2.2.1, fun _ => hop.2.2.2⟩⟩
    rintro w rfl
    cases o with
    | colon => obtain ⟨s, h⟩ := hfit; cases h
    | _ => decide
  obtain ⟨nud, x, q1, k1, k2, k3, k4, k5, k6⟩ := hl n p ts1 a v vs (by omega) h1 (by rw [← hv]; exact hf') hb
  have hz' : prec = 0 := hz (by rw [feeds_first hlw hpl h1 hf']; exact atom_prec ha hlw)
  subst hz'
  rw [← hv] at k5
  obtain ⟨p2, j1, j2, j3⟩ := feeds_into (p := q1) (a := q1.curTok) (ts := a :: ts3) ⟨rfl, k5⟩
  obtain ⟨led, y, q, i1, i2, i3, i4, i5⟩ := led_ok hlw ht hw hp (n := n) k3 hfit h3 h4 (by omega) h5 j2 hm
  obtain ⟨n', rfl⟩ : ∃ m, n = m + 2 := ⟨n - 2, by omega⟩
  have hpk : q1.peek = o.op.tok := (peek_of (show Sees q1 (a :: (ts3 ++ r :: u :: rs)) from k5)).1.trans h3
  refine ⟨nud, x, q1, y, q, k1, k2, ?_, i3, i4, k6.trans (j3.then i5)⟩
  rw [led_step (led := led) (p1 := p2) (y := y) (q := q) k4 (by rw [hpk]; exact hop.2.1) (by rw [hpk]; exact i1) j1 i2]
  exact end_stop i4 (mayPrecede_infix t hm.1)

/-! ### All types -/

theorem entry_of_tail {t : Ty} (hn : t.isNoted = false) (hw : t.WF) (hp : ∀ p ∈ t.pieces, p.WF) (h : TailOK t) :
    EntryOK t := by
  intro n prec p ts r u rs hlen hx hf hm hz
  obtain ⟨n, rfl⟩ : ∃ m, n = m + 1 := ⟨n - 1, by omega⟩
  obtain ⟨nud, x0, p2, x, q, k1, k2, k3, k4, k5, k6⟩ := h n prec p ts r u rs (by omega) hx hf hm hz
  exact ⟨x, q, parseEntry_of (skip_none (by rw [feeds_first hw hp hx hf]; exact (first_start t hw).2.2.2.2.2 hn)) k1 k2 k3,
    k4, k5, k6⟩

theorem entry_noted {same : Bool} {cs : List (List Char)} {t : Ty} (hc : cs ≠ []) (hn : t.isNoted = false) (hw : t.WF)
    (hp : ∀ p ∈ t.pieces, p.WF) (h : TailOK t) : EntryOK (.noted same cs t) := by
  intro n prec p ts r u rs hlen hx hf hm hz
  obtain ⟨n, rfl⟩ : ∃ m, n = m + 1 := ⟨n - 1, by omega⟩
  obtain ⟨ts1, ts2, rfl, h1, h2⟩ := texts_append (show Texts ts (notes same cs ++ t.pieces) from hx)
  obtain ⟨g1, g3⟩ := texts_notes h1
  have hnl : (notes same cs).length = cs.length := by cases cs <;> simp [notes]
  have hlen' : cs.length + t.pieces.length + 3 ≤ n + 1 := by simpa [Ty.pieces, hnl] using hlen
  obtain ⟨pc, pcs, hpc, hpc'⟩ := pieces_head t hw hp
  have h2' := h2
  rw [hpc] at h2'
  obtain ⟨b, ts3, rfl, e1, _, _⟩ := texts_cons h2'
  have hne : ts1 ≠ [] := by
    rintro rfl
    cases cs with
    | nil => exact hc rfl
    | cons c cs => simp at g3
  obtain ⟨v, vs, hv⟩ : ∃ v vs, ts3 ++ r :: u :: rs = v :: vs := by
    cases ts3 <;> exact ⟨_, _, rfl⟩
  have hf' : Feeds p (ts1 ++ b :: v :: vs) := by rw [← hv]; simpa using hf
  have hbt : b.tok ≠ .COMMENT := by rw [e1, hpc']; exact (first_start t hw).2.2.2.2.2 hn
  have hpl : 0 < t.pieces.length := by rw [hpc]; simp
  obtain ⟨p1, j1, j2, j3⟩ := skip_comments (n := n) g1 hne hf' hbt (by omega)
  rw [← hv] at j2
  have hpcur : p.cur = .COMMENT := by
    cases ts1 with
    | nil => exact absurd rfl hne
    | cons c ts1 => exact (cur_of hf.1).1.trans (g1 c (by simp))
  have hz' : prec = 0 := hz (by rw [hpcur]; rfl)
  obtain ⟨nud, x0, p2, x, q, k1, k2, k3, k4, k5, k6⟩ := h n prec p1 (b :: ts3) r u rs (by omega) h2 j2 hm (fun _ => hz')
  exact ⟨x, q, parseEntry_of j1 k1 k2 k3, k4, k5, j3.then k6⟩

theorem ents_ok {k : Nat} {close : Tok} (ih : ∀ t : Ty, t.pieces.length < k → t.WF → (∀ p ∈ t.pieces, p.WF) → EntryOK t) :
    (es : Ents) → es.pieces.length < k → es.WF close → (∀ p ∈ es.pieces, p.WF) → EntsOK es
  | .nil, _, _, _ => trivial
  | .cons t comma es, hk, hw, hp => by
    have hlen : t.pieces.length ≤ (Ents.cons t comma es).pieces.length ∧
        es.pieces.length ≤ (Ents.cons t comma es).pieces.length := by
      simp [Ents.pieces]; omega
    exact ⟨ih t (by omega) hw.1 (fun p h => hp p (by simp [Ents.pieces, h])),
      ents_ok ih es (by omega) hw.2.1 (fun p h => hp p (by simp [Ents.pieces, h]))⟩

theorem all_ok (k : Nat) : ∀ t : Ty, t.pieces.length < k → t.WF → (∀ p ∈ t.pieces, p.WF) →
    EntryOK t ∧ (t.isNoted = false → TailOK t) ∧ (t.atom = true → AtomOK t) := by
  induction k with
  | zero => intro t h; omega
  | succ k ih =>
    intro t hk hw hp
    have ihE : ∀ t : Ty, t.pieces.length < k → t.WF → (∀ p ∈ t.pieces, p.WF) → EntryOK t :=
      fun t h1 h2 h3 => (ih t h1 h2 h3).1
    have hatom : t.atom = true → AtomOK t := by
      intro ha
      cases t with
      | name w => exact atom_name hw (hp _ (by simp [Ty.pieces]))
      | kw c => exact atom_kw hw
      | int s => exact atom_int hw (hp _ (by simp [Ty.pieces]))
      | float a b => exact atom_float hw (hp _ (by simp [Ty.pieces]))
      | text s => exact atom_text
      | list br es =>
        have hpe : ∀ p ∈ es.pieces, p.WF := fun p h => hp p (by simp [Ty.pieces, h])
        exact atom_list (ents_ok ihE es (by simp [Ty.pieces] at hk; omega) hw hpe) hw hpe
      | tag h => exact atom_tag hw (fun p h => hp p (by simp [Ty.pieces, h]))
      | tagged h t =>
        exact atom_tagged hw.1 (fun p h => hp p (by simp [Ty.pieces, h]))
          (ihE t (by simp [Ty.pieces] at hk; omega) hw.2 (fun p h => hp p (by simp [Ty.pieces, h])))
      | _ => simp [Ty.atom] at ha
    have htail : t.isNoted = false → TailOK t := by
      intro hn
      cases t with
      | pre o t => exact tail_pre (ihE t (by simp [Ty.pieces] at hk; omega) hw (fun p h => hp p (by simp [Ty.pieces, h])))
      | occ o t =>
        have hpt : ∀ p ∈ t.pieces, p.WF := fun p h => hp p (by simp [Ty.pieces, h])
        exact tail_occ (ihE t (by simp [Ty.pieces] at hk; omega) hw hpt) hw hpt
      | field c t =>
        exact tail_field hw.1 (ihE t (by simp [Ty.pieces] at hk; omega) hw.2 (fun p h => hp p (by simp [Ty.pieces, h])))
      | bin o l r =>
        have hpl : ∀ p ∈ l.pieces, p.WF := fun p h => hp p (by simp [Ty.pieces, h])
        have hpr : ∀ p ∈ r.pieces, p.WF := fun p h => hp p (by simp [Ty.pieces, h])
        simp only [Ty.pieces, List.length_append, List.length_cons] at hk
        obtain ⟨w1, w2, w3, w4⟩ := hw
        exact tail_bin w1 w2 w3 w4 hpl hpr ((ih l (by omega) w2 hpl).2.2 w1) (ihE r (by omega) w3 hpr)
      | noted _ cs t => simp [Ty.isNoted] at hn
      | remark t comma c =>
        obtain ⟨hs, hwt⟩ := hw
        cases t with
        | field w v =>
          have hpv : ∀ p ∈ v.pieces, p.WF := fun p h => hp p (by simp [Ty.pieces, h])
          exact tail_field_note hwt.1 (ihE v (by simp [Ty.pieces] at hk; omega) hwt.2 hpv)
            (by simpa [Ty.single] using hs)
        | bin o l v =>
          have hpl : ∀ p ∈ l.pieces, p.WF := fun p h => hp p (by simp [Ty.pieces, h])
          have hpv : ∀ p ∈ v.pieces, p.WF := fun p h => hp p (by simp [Ty.pieces, h])
          simp only [Ty.pieces, List.length_append, List.length_cons] at hk
          obtain ⟨w1, w2, w3, w4⟩ := hwt
          simp only [Ty.single, Bool.and_eq_true, Bool.or_eq_true, decide_eq_true_eq, Bool.not_eq_true'] at hs
          exact tail_bin_note hs.1 w1 w2 w4 hpl ((ih l (by omega) w2 hpl).2.2 w1) (ihE v (by omega) w3 hpv) hs.2
        | _ => simp [Ty.single] at hs
      | _ => exact tail_atom rfl hw hp (hatom rfl)
    refine ⟨?_, htail, hatom⟩
    cases hn : t.isNoted with
    | false => exact entry_of_tail hn hw hp (htail hn)
    | true =>
      cases t with
      | noted same cs t =>
        obtain ⟨w1, w2, w3⟩ := hw
        have hpt : ∀ p ∈ t.pieces, p.WF := fun p h => hp p (by simp [Ty.pieces, h])
        have hlen : t.pieces.length < k := by
          have hnl : (notes same cs).length = cs.length := by cases cs <;> simp [notes]
          simp only [Ty.pieces, List.length_append, hnl] at hk
          have : 0 < cs.length := List.length_pos_iff.mpr w1
          omega
        exact entry_noted w1 w2 w3 hpt ((ih t hlen w3 hpt).2.1 w2)
      | _ => simp [Ty.isNoted] at hn

/-- `parseEntry`, fed the tokens of a type, returns its tree and stops behind it. -/
theorem entry_ok {t : Ty} (hw : t.WF) (hp : ∀ p ∈ t.pieces, p.WF) : EntryOK t :=
  (all_ok _ t (Nat.lt_succ_self _) hw hp).1

end Cddlc
