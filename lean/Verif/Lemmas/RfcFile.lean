import Verif.Lemmas.Rfc

/-! Files of the RFC that the parser can read; which names are to be declared. -/

namespace Cddlc
open Spec

/-! ### The rules -/

theorem rfcFile_head {strict ts rs} (h : RfcFile strict ts rs) : ∀ f, ts.head? = some f → f.tok ≠ .COMMENT ∧ (strict = true → f.tok = .IDENT) := by
  cases h with
  | nil => nofun
  | rule hn _ _ _ hs _ =>
    intro f hf
    cases hf
    exact ⟨(rfcStarters_ok _ (id_starts hn)).1, hs⟩

theorem rfc_rules {ts rs} {eof : Token} (he : eof.tok = .EOF) (h : RfcFile true ts rs) :
    ∃ rules ds cs, Rules eof ts rules ds cs ∧ rules.map ruleName = rs.map (some ·.2) ∧ ds.map (·.1) = assigned rs := by
  induction h with
  | nil => exact ⟨_, _, _, .nil, rfl, rfl⟩
  | @rule n params a ts us rs s hn hp ha ht hk hu ih =>
    obtain ⟨rules, ds, cs, h1, h2, h3⟩ := ih
    obtain rfl : params = [] := hp.resolve_right (by simp)
    have hnx : (firstTok us eof).tok = .IDENT ∨ (firstTok us eof).tok = .EOF := by
      cases us with
      | nil => exact .inr he
      | cons u us => exact .inl ((rfcFile_head hu u rfl).2 rfl)
    have hi : (firstTok us eof).tok ∉ infixes ∧ (firstTok us eof).tok ≠ .COMMA ∧ (firstTok us eof).tok ≠ .COMMENT ∧
        (firstTok us eof).tok ∉ [Tok.LPAREN, .INT, .FLOAT] := by
      rcases hnx with h | h <;> rw [h] <;> decide
    have hm : EForm ts := by
      have := rfc_meaning ht
      rcases ha with ⟨-, rfl | rfl⟩ | ⟨-, rfl⟩ | ⟨-, rfl⟩ <;> exact this
    obtain ⟨x, cs', hx⟩ := hm [] _ (cont_stop hi.1 hi.2.1) hi.2.2.1 fun l _ => tagSafe_of hi.2.2.2
    rw [List.append_nil] at hx
    have hb : Behind eof ts us none us := .none fun h => hi.2.2.1 h.1
    by_cases hs : a.tok = .ASSIGN
    · exact ⟨_, _, _, .declare (hk rfl) hs hx hb h1, by simp [ruleName, h2], by simp [assigned, hs, h3]⟩
    · refine ⟨_, _, _, .extend (hk rfl) ?_ hx hb h1, by simp [ruleName, h2], by simp [assigned, hs, h3]⟩
      rcases ha with ⟨h, -⟩ | ⟨h, -⟩ | ⟨h, -⟩
      · exact absurd h hs
      · exact .inl h
      · exact .inr h

/-! ### The names -/

theorem uses_mono {l k} (h : Uses l k) (a b : List Token) : Uses (a ++ l ++ b) k := by
  obtain ⟨pre, t, u, post, rfl, h⟩ := h
  exact ⟨a ++ pre, t, u, post ++ b, by simp, h⟩

theorem uses_of {l l' k} (h : Uses l k) (a b : List Token) (e : l' = a ++ l ++ b) : Uses l' k := e ▸ uses_mono h a b

/-- What is to be checked is about names that are used, or about ranges. -/
def Checked (ts : List Token) (nx : Token) (cs : List Check) : Prop :=
  ∀ c ∈ cs, (∃ k, c = .declared k ∧ Uses (ts ++ [nx]) k) ∨ ∃ t ∈ ts, t.tok = .INCLUSIVE_BOUND ∨ t.tok = .EXCLUSIVE_BOUND

theorem Checked.mono {ts nx cs ts' nx'} (h : Checked ts nx cs) (a b : List Token) (e : ts' ++ [nx'] = a ++ (ts ++ [nx]) ++ b)
    (hm : ∀ t ∈ ts, t ∈ ts') : Checked ts' nx' cs := by
  intro c hc
  rcases h c hc with ⟨k, h1, h2⟩ | ⟨t, h1, h2⟩
  · exact .inl ⟨k, h1, uses_of h2 a b e⟩
  · exact .inr ⟨t, hm t h1, h2⟩

theorem Checked.append {ts nx cs ds} (h : Checked ts nx cs) (h' : Checked ts nx ds) : Checked ts nx (cs ++ ds) := by
  intro c hc
  exact (List.mem_append.mp hc).elim (h c) (h' c)

theorem lang_checked {part ts nx cs} (h : Lang part ts nx cs) : Checked ts nx cs := by
  induction h with
  | @name t nx h =>
    intro c hc
    split at hc
    · cases hc
    · rename_i hn
      obtain rfl := List.mem_singleton.mp hc
      exact .inl ⟨_, rfl, [], t, nx, [], rfl, h, fun e => hn (.inl e), fun e => hn (.inr e), rfl⟩
  | single => nofun
  | @group o c ts _ _ nx _ _ _ ih | @array o c ts _ _ nx _ _ _ ih | @map o c ts _ _ nx _ _ _ ih =>
    exact ih.mono [o] [nx] (by simp) (by simp +contextual)
  | tag => nofun
  | @tagged h ns a b o c ts x cs nx _ _ _ _ _ ih => exact ih.mono (h :: ns ++ [o]) [nx] (by simp) (by simp +contextual)
  | @noRange op ts a cs nx _ _ _ ih => exact ih.mono [] [nx] (by simp) (by simp +contextual)
  | @noted op f ts us a b c r i v cs ds es nx _ _ hj _ ih1 ih2 =>
    refine (ih1.mono [] (f :: us ++ [c, nx]) (by simp) (by simp +contextual)).append (.append
      (ih2.mono (ts ++ [op]) [nx] (by simp) ?_) ?_)
    · intro t ht
      simp only [List.mem_append, List.mem_cons] at ht ⊢
      rcases ht with h | h <;> simp [h]
    · cases hj <;> nofun
  | only _ _ _ ih => exact ih
  | @comma ts c x cs nx _ _ ih => exact ih.mono [] [nx] (by simp) (by simp +contextual)
  | @marked m f ts x y cs nx _ _ ih =>
    exact ih.mono [m] [] (by simp) fun t ht => List.mem_cons_of_mem _ ht
  | @unclosed h ns a b o ts x cs nx _ _ _ _ _ ih => exact ih.mono (h :: ns ++ [o]) [] (by simp) (by simp +contextual)
  | @joined op f ts us a b y cs ds es nx _ _ hj _ ih1 ih2 =>
    refine (ih1.mono [] (f :: us ++ [nx]) (by simp) (by simp +contextual)).append (.append
      (ih2.mono (ts ++ [op]) [] (by simp) ?_) ?_)
    · intro t ht
      simp only [List.mem_append, List.mem_cons] at ht ⊢
      rcases ht with h | h <;> simp [h]
    · cases hj with
      | range h => exact fun c _ => .inr ⟨op, by simp, h⟩
      | _ => nofun
  | @skip c ts x cs nx _ _ ih => exact ih.mono [c] [] (by simp) (by simp +contextual)
  | nil => nofun
  | @cons ts us x xs cs ds nx _ _ ih1 ih2 =>
    refine .append ?_ (ih2.mono ts [] (by simp) (by simp +contextual))
    cases us with
    | nil => exact ih1.mono [] [] (by simp [firstTok]) (by simp)
    | cons u us => exact ih1.mono [] (us ++ [nx]) (by simp [firstTok]) (by simp +contextual)

theorem rules_checked {eof ts rules ds cs} (h : Rules eof ts rules ds cs) : Checked ts eof cs := by
  have one : ∀ {n a : Token} {ts us vs : List Token} {k cs es}, Checked ts (firstTok us eof) cs → Behind eof ts us k vs → Checked vs eof es →
      Checked (n :: a :: ts ++ us) eof (cs ++ es) := by
    intro n a ts us vs k cs es h1 h2 h3
    refine .append ?_ ?_
    · cases us with
      | nil => exact h1.mono [n, a] [] (by simp [firstTok]) (by simp +contextual)
      | cons u us => exact h1.mono [n, a] (us ++ [eof]) (by simp [firstTok]) (by simp +contextual)
    · cases h2 with
      | none => exact h3.mono (n :: a :: ts) [] (by simp) (by simp +contextual)
      | @some c us =>
        cases us with
        | nil => exact h3.mono (n :: a :: ts ++ [c]) [] (by simp) (by simp +contextual)
        | cons u us => exact h3.mono (n :: a :: ts ++ [c, u]) [] (by simp) (by simp +contextual)
  induction h with
  | nil => nofun
  | @comments gs us rs ds es _ _ _ _ ih => exact ih.mono gs [] (by simp) (by simp +contextual)
  | declare _ _ h1 h2 _ ih => exact one (lang_checked h1) h2 ih
  | extend _ _ h1 h2 _ ih => exact one (lang_checked h1) h2 ih

/-! ### The RFC -/

/-- The conditions take sentences away. -/
theorem rfc_of_strict {s ts} (h : Rfc true s ts) : Rfc false s ts := by
  induction h with
  | value h => exact .value h nofun
  | name h => exact .name h nofun
  | paren h1 h2 _ ih => exact .paren h1 h2 ih
  | map h1 h2 _ ih => exact .map h1 h2 ih
  | array h1 h2 _ ih => exact .array h1 h2 ih
  | unwrap h1 h2 => exact .unwrap h1 h2 nofun
  | enumGroup h1 h2 h3 _ ih => exact .enumGroup h1 h2 h3 ih
  | enumName h1 h2 => exact .enumName h1 h2 nofun
  | tagged h1 h2 h3 h4 h5 _ _ ih => exact .tagged h1 h2 h3 h4 h5 ih nofun
  | tag h1 h2 => exact .tag h1 h2 nofun
  | hash h => exact .hash h
  | generic h1 h2 h3 _ _ ih => exact .generic h1 h2 h3 ih rfl
  | lastArg _ ih => exact .lastArg ih
  | moreArgs _ h _ ih1 ih2 => exact .moreArgs ih1 h ih2
  | plain _ ih => exact .plain ih
  | operator _ h _ _ ih1 ih2 => exact .operator ih1 h ih2 nofun
  | last _ ih => exact .last ih
  | choice _ h _ ih1 ih2 => exact .choice ih1 h ih2
  | keyless _ ih => exact .keyless ih
  | inline h1 h2 _ ih => exact .inline h1 h2 ih
  | colon h1 h2 _ _ ih => exact .colon h1 h2 ih nofun
  | arrow _ h _ _ ih1 ih2 => exact .arrow ih1 h ih2 nofun
  | once _ ih => exact .once ih
  | optional h _ ih => exact .optional h ih
  | oneOrMore h _ _ ih => exact .oneOrMore h ih nofun
  | between h1 h2 h3 h4 _ _ ih => exact .between h1 h2 h3 h4 ih nofun
  | noMore => exact .noMore
  | more _ h _ _ ih1 ih2 => exact .more ih1 h ih2 nofun
  | lastGroup _ ih => exact .lastGroup ih
  | groupChoice _ h _ _ ih1 ih2 => exact .groupChoice ih1 h ih2 nofun

theorem rfcFile_of_strict {ts rs} (h : RfcFile true ts rs) : RfcFile false ts rs := by
  induction h with
  | nil => exact .nil
  | rule h1 h2 h3 h4 _ _ ih => exact .rule h1 (h2.imp_right fun h => nomatch h.1) h3 (rfc_of_strict h4) nofun ih

/-- Tokens a type can end with. -/
def rfcEnders : List Tok :=
  [.IDENT, .INT, .UINT, .NINT, .FLOAT, .FLOAT16, .FLOAT32, .FLOAT64, .TSTR, .TEXT, .TEXT_LITERAL, .BYTES, .BSTR, .BOOL, .TRUE, .FALSE,
   .NIL, .NULL, .ANY, .RPAREN, .RBRACE, .RBRACK, .HASH, .RIGHT_ANGLE_BRACKET]

theorem id_ends {t : Token} (h : IsId t) : t.tok ∈ rfcEnders := by
  rcases h with h | h | h
  · simp only [List.mem_cons, List.not_mem_nil, or_false] at h
    rcases h with h | h | h | h | h | h | h | h | h | h | h | h | h | h | h | h <;> simp [h, rfcEnders]
  · simp [h.1, rfcEnders]
  · simp [h.1, rfcEnders]

theorem rfc_last {strict s ts} (h : Rfc strict s ts) : s ≠ .grpchoice → s ≠ .group → ∃ l, ts.getLast? = some l ∧ l.tok ∈ rfcEnders := by
  have tail : ∀ {us : List Token} (ts : List Token) (op : Token), (∃ l, us.getLast? = some l ∧ l.tok ∈ rfcEnders) →
      ∃ l, (ts ++ op :: us).getLast? = some l ∧ l.tok ∈ rfcEnders := by
    rintro us ts op ⟨l, h1, h2⟩
    exact ⟨l, last_tail h1, h2⟩
  have bracket : ∀ (ts : List Token) (c : Token), c.tok ∈ rfcEnders → ∃ l, (ts ++ [c]).getLast? = some l ∧ l.tok ∈ rfcEnders :=
    fun ts c h => ⟨c, List.getLast?_concat, h⟩
  induction h with
  | value h =>
    refine fun _ _ => bracket [] _ ?_
    rcases h with h | h | h
    · rw [h.1]; decide
    · rw [h.1]; decide
    · rw [h]; decide
  | name h => exact fun _ _ => ⟨_, rfl, id_ends h⟩
  | unwrap _ h | enumName _ h => exact fun _ _ => ⟨_, rfl, id_ends h⟩
  | paren _ h | map _ h | array _ h | inline _ h => exact fun _ _ => bracket _ _ (by rw [h]; decide)
  | enumGroup _ _ h => exact fun _ _ => bracket _ _ (by rw [h]; decide)
  | tagged _ _ _ _ h => exact fun _ _ => bracket _ _ (by rw [h]; decide)
  | generic _ _ h => exact fun _ _ => bracket _ _ (by rw [h]; decide)
  | @tag t _ _ h =>
    refine fun _ _ => bracket [t] _ ?_
    rcases h.1 with h | h <;> rw [h] <;> decide
  | hash h => exact fun _ _ => bracket [] _ (by rw [h]; decide)
  | lastArg _ ih | plain _ ih | last _ ih | keyless _ ih | once _ ih => exact fun _ _ => ih (by simp) (by simp)
  | moreArgs _ _ _ _ ih | operator _ _ _ _ _ ih | choice _ _ _ _ ih | arrow _ _ _ _ _ ih => exact fun _ _ => tail _ _ (ih (by simp) (by simp))
  | @colon k _ _ _ _ _ _ ih => exact fun _ _ => tail [k] _ (ih (by simp) (by simp))
  | optional _ _ ih => exact fun _ _ => tail [] _ (ih (by simp) (by simp))
  | oneOrMore _ _ _ ih => exact fun _ _ => tail [] _ (ih (by simp) (by simp))
  | @between lo hi m ts _ _ _ _ _ _ ih =>
    intro _ _
    obtain ⟨l, h1, h2⟩ := ih (by simp) (by simp)
    refine ⟨l, last_tail ?_, h2⟩
    rw [List.getLast?_append, h1]
    rfl
  | noMore | more => exact fun h => absurd rfl h
  | lastGroup | groupChoice => exact fun _ h => absurd rfl h

/-- A file that is not empty ends with the end of a type. -/
theorem rfcFile_last {strict ts rs} (h : RfcFile strict ts rs) : ts ≠ [] → ∃ l, ts.getLast? = some l ∧ l.tok ∈ rfcEnders := by
  induction h with
  | nil => exact fun h => absurd rfl h
  | @rule n params a ts us rs s _ _ ha ht _ _ ih =>
    intro _
    obtain ⟨l, h1, h2⟩ := rfc_last ht (by rcases ha with ⟨-, rfl | rfl⟩ | ⟨-, rfl⟩ | ⟨-, rfl⟩ <;> simp)
      (by rcases ha with ⟨-, rfl | rfl⟩ | ⟨-, rfl⟩ | ⟨-, rfl⟩ <;> simp)
    by_cases hu : us = []
    · subst hu
      rw [List.append_nil]
      exact ⟨l, last_tail h1, h2⟩
    · obtain ⟨l, h1, h2⟩ := ih hu
      refine ⟨l, ?_, h2⟩
      rw [List.getLast?_append, h1]
      rfl

end Cddlc
