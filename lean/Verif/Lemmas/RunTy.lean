import Verif.Lemmas.Run
import Verif.Lemmas.Numeral

/-! Running the parser on the tokens of a type. -/

namespace Cddlc
variable [Unicode] [Marks]
open Spec

/-! ### Token texts -/

/-- Kind, literal, and whether it is a comment behind another token. -/
def Token.key (t : Token) : Tok × Bytes × Bool := (t.tok, t.lit, Marks.same t)
def Spec.Piece.key (p : Piece) : Tok × Bytes × Bool := (p.tok, enc p.lit, p.same)

/-- The tokens `ts` are those of the texts `ps`. -/
def Texts (ts : List Token) (ps : List Piece) : Prop := ts.map Token.key = ps.map Piece.key

omit [Unicode]

theorem texts_nil {ts : List Token} (h : Texts ts []) : ts = [] := List.map_eq_nil_iff.mp h

theorem texts_marked {ts : List Token} {p : Piece} {ps : List Piece} (h : Texts ts (p :: ps)) :
    ∃ t ts', ts = t :: ts' ∧ t.tok = p.tok ∧ t.lit = enc p.lit ∧ Marks.same t = p.same ∧ Texts ts' ps := by
  cases ts with
  | nil => cases h
  | cons t ts =>
    have h' := List.cons.inj h
    have h1 : (t.tok, t.lit, Marks.same t) = (p.tok, enc p.lit, p.same) := h'.1
    simp only [Prod.mk.injEq] at h1
    exact ⟨t, ts, rfl, h1.1, h1.2.1, h1.2.2, h'.2⟩

theorem texts_cons {ts : List Token} {p : Piece} {ps : List Piece} (h : Texts ts (p :: ps)) :
    ∃ t ts', ts = t :: ts' ∧ t.tok = p.tok ∧ t.lit = enc p.lit ∧ Texts ts' ps := by
  obtain ⟨t, ts', h1, h2, h3, _, h4⟩ := texts_marked h
  exact ⟨t, ts', h1, h2, h3, h4⟩

theorem texts_append {ts : List Token} {ps qs : List Piece} (h : Texts ts (ps ++ qs)) :
    ∃ ts1 ts2, ts = ts1 ++ ts2 ∧ Texts ts1 ps ∧ Texts ts2 qs := by
  have h' : ts.map Token.key = ps.map Piece.key ++ qs.map Piece.key := by
    rw [← List.map_append]; exact h
  obtain ⟨a, b, h1, h2, h3⟩ := List.map_eq_append_iff.mp h'
  exact ⟨a, b, h1, h2, h3⟩

theorem texts_length {ts : List Token} {ps : List Piece} (h : Texts ts ps) : ts.length = ps.length := by
  have := congrArg List.length h
  simpa using this

theorem texts_notes {ts : List Token} {same : Bool} {cs : List (List Char)} (h : Texts ts (notes same cs)) :
    (∀ c ∈ ts, c.tok = .COMMENT) ∧ ts.length = cs.length := by
  have : ts.map (fun t => t.tok) = (notes same cs).map (·.tok) := by
    have := congrArg (List.map Prod.fst) h
    simpa [List.map_map, Function.comp_def, Token.key, Piece.key] using this
  cases cs with
  | nil => simp [notes] at this; simp [this]
  | cons c cs =>
    refine ⟨fun t ht => ?_, ?_⟩
    · have hm : t.tok ∈ ts.map (fun t => t.tok) := List.mem_map.mpr ⟨t, ht, rfl⟩
      rw [this] at hm
      simp only [notes, List.map_cons, List.map_map, List.mem_cons, List.mem_map] at hm
      rcases hm with h | ⟨_, _, h⟩
      · exact h
      · exact h.symm
    · have := congrArg List.length this
      simpa [notes] using this

theorem texts_comments {ts : List Token} {cs : List (List Char)} (h : Texts ts (cs.map (.comment · false))) :
    (∀ c ∈ ts, c.tok = .COMMENT) ∧ ts.map (·.lit) = cs.map enc ∧ ts.length = cs.length := by
  induction cs generalizing ts with
  | nil => rw [texts_nil h]; simp
  | cons c cs ih =>
    obtain ⟨t, ts', rfl, h1, h2, h3⟩ := texts_cons h
    obtain ⟨g1, g2, g3⟩ := ih h3
    refine ⟨?_, ?_, by simp [g3]⟩
    · intro x hx
      rcases List.mem_cons.mp hx with rfl | hx
      · exact h1
      · exact g1 x hx
    · simp only [List.map_cons, g2, h2]; rfl

/-! ### Trees without positions -/

omit [Marks]

theorem noPos_kind (x : Node) : (noPos x).kind = x.kind := by cases x <;> rfl

theorem noPos_isNil (x : Node) : (noPos x).isNil = x.isNil := by cases x <;> rfl

theorem noPosL_map (xs : List Node) : noPosL xs = xs.map noPos := by
  induction xs with
  | nil => rfl
  | cons x xs ih => rw [noPosL, ih]; rfl

theorem noPosL_filter (f : NodeKind → Bool) (xs : List Node) :
    noPosL (xs.filter (fun x => f x.kind)) = (noPosL xs).filter (fun x => f x.kind) := by
  rw [noPosL_map, noPosL_map, List.filter_map]
  congr 1
  refine List.filter_congr ?_
  intro x _
  simp [noPos_kind]

theorem noPos_ident {x : Node} {k : Bytes} (h : noPos x = .ident ⟨{}, k⟩) : ∃ pos, x = .ident ⟨pos, k⟩ := by
  cases x <;> simp only [noPos] at h <;> cases h
  exact ⟨_, rfl⟩

theorem noPos_intLit {x : Node} {t v} (h : noPos x = .intLit {} t v) : ∃ pos, x = .intLit pos t v := by
  cases x <;> simp only [noPos] at h <;> cases h
  exact ⟨_, rfl⟩

theorem noPos_floatLit {x : Node} {t v} (h : noPos x = .floatLit ⟨{}, {}⟩ t v) : ∃ r, x = .floatLit r t v := by
  cases x <;> simp only [noPos] at h <;> cases h
  exact ⟨_, rfl⟩

theorem noPos_tstr {x : Node} {t} (h : noPos x = .tstr ⟨{}, t⟩) : ∃ pos, x = .tstr ⟨pos, t⟩ := by
  cases x <;> simp only [noPos] at h <;> cases h
  exact ⟨_, rfl⟩

theorem builtins_mem {k : Tok} (h : k ∈ builtins.map (·.1)) :
    k = .BOOL ∨ k = .TRUE ∨ k = .FALSE ∨ k = .TSTR ∨ k = .TEXT ∨ k = .FLOAT ∨ k = .FLOAT16 ∨
    k = .FLOAT32 ∨ k = .FLOAT64 ∨ k = .UINT ∨ k = .INT ∨ k = .NINT ∨ k = .BSTR ∨ k = .BYTES ∨
    k = .NULL ∨ k = .NIL := by
  simpa [builtins] using h

/-- The tree of a type is never nil, nor a nil pointer. -/
theorem node_real (b : Bool) : (t : Ty) → t.WF → (t.node b).isNil = false ∧ ∀ k, t.node b ≠ .typedNil k
  | .name w, _ => ⟨rfl, nofun⟩
  | .kw k, h => by
    rcases builtins_mem h with rfl | rfl | rfl | rfl | rfl | rfl | rfl | rfl | rfl | rfl | rfl | rfl |
      rfl | rfl | rfl | rfl <;> exact ⟨rfl, nofun⟩
  | .int s, _ => ⟨rfl, nofun⟩
  | .float a c, _ => ⟨rfl, nofun⟩
  | .text s, _ => ⟨rfl, nofun⟩
  | .list br es, _ => by cases br <;> exact ⟨rfl, nofun⟩
  | .tag h, _ => ⟨rfl, nofun⟩
  | .tagged h t, _ => ⟨rfl, nofun⟩
  | .pre o t, _ => by cases o <;> exact ⟨rfl, nofun⟩
  | .occ p t, _ => ⟨rfl, nofun⟩
  | .field k t, _ => ⟨rfl, nofun⟩
  | .bin o l r, _ => by cases o <;> exact ⟨rfl, nofun⟩
  | .noted _ cs t, h => node_real b t h.2.2
  | .remark t _ c, h => by
    obtain ⟨h1, h2⟩ := node_real b t h.2
    refine ⟨?_, ?_⟩
    · rw [Ty.node]
      revert h1; cases t.node b <;> simp [withNote, Node.isNil]
    · intro k
      have := h2 k
      rw [Ty.node]
      revert this; cases t.node b <;> simp [withNote]

/-- The first text of a type. -/
theorem pieces_head : (t : Ty) → t.WF → (∀ p ∈ t.pieces, p.WF) →
    ∃ p ps, t.pieces = p :: ps ∧ p.tok = t.first
  | .name w, h, _ => ⟨_, _, rfl, h⟩
  | .kw k, h, _ => by
    rcases builtins_mem h with rfl | rfl | rfl | rfl | rfl | rfl | rfl | rfl | rfl | rfl | rfl | rfl |
      rfl | rfl | rfl | rfl <;> exact ⟨_, _, rfl, by decide⟩
  | .int s, h, hp => ⟨_, _, rfl, by
      obtain ⟨v, hv, _⟩ := h
      exact (numeral_head (hp s (by simp [Ty.pieces])) hv).1⟩
  | .float a c, _, _ => ⟨_, _, rfl, rfl⟩
  | .text s, _, _ => ⟨_, _, rfl, rfl⟩
  | .list br es, _, _ => ⟨_, _, rfl, rfl⟩
  | .tag h, _, _ => ⟨_, _, rfl, rfl⟩
  | .tagged h t, _, _ => ⟨_, _, rfl, rfl⟩
  | .pre o t, _, _ => ⟨_, _, rfl, rfl⟩
  | .occ p t, _, _ => ⟨_, _, rfl, rfl⟩
  | .field k t, h, _ => ⟨_, _, rfl, h.1⟩
  | .bin o l r, h, hp => by
    obtain ⟨p, ps, h1, h2⟩ := pieces_head l h.2.1 (fun p hp' => hp p (by simp [Ty.pieces, hp']))
    exact ⟨p, ps ++ o.op :: r.pieces, by simp [Ty.pieces, h1], h2⟩
  | .noted _ cs t, h, _ => by
    cases cs with
    | nil => exact absurd rfl h.1
    | cons c cs => exact ⟨_, _, rfl, rfl⟩
  | .remark t comma c, h, hp => by
    obtain ⟨p, ps, h1, h2⟩ := pieces_head t h.2 (fun p hp' => hp p (by simp [Ty.pieces, hp']))
    exact ⟨p, _, by rw [Ty.pieces, h1]; rfl, h2⟩

/-- What the first text of a type is marked. -/
theorem head_same : (t : Ty) → t.WF → (∀ p ∈ t.pieces, p.WF) → ∀ p ps, t.pieces = p :: ps → p.same = true →
    t.startsSame = true
  | .name w, _, _, _, _, he, hs => by cases he; cases hs
  | .kw k, _, _, _, _, he, hs => by cases he; cases hs
  | .int s, h, _, _, _, he, hs => by
    cases he
    obtain ⟨v, hv, _⟩ := h
    cases s <;> first | (cases hs; done) | (cases hv; done)
  | .float a c, _, _, _, _, he, hs => by cases he; cases hs
  | .text s, _, _, _, _, he, hs => by cases he; cases hs
  | .list br es, _, _, _, _, he, hs => by cases he; cases br <;> cases hs
  | .tag h, _, _, _, _, he, hs => by cases he; cases hs
  | .tagged h t, _, _, _, _, he, hs => by cases he; cases hs
  | .pre o t, _, _, _, _, he, hs => by cases he; cases o <;> cases hs
  | .occ p t, _, _, _, _, he, hs => by cases he; cases p <;> cases hs
  | .field k t, _, _, _, _, he, hs => by cases he; cases hs
  | .bin o l r, h, hp, p, ps, he, hs => by
    have hpl : ∀ p ∈ l.pieces, p.WF := fun p hp' => hp p (by simp [Ty.pieces, hp'])
    obtain ⟨p', ps', h1, _⟩ := pieces_head l h.2.1 hpl
    have : p = p' := by
      rw [Ty.pieces, h1] at he
      exact (List.cons.inj he).1.symm
    subst this
    have h2 := head_same l h.2.1 hpl p ps' h1 hs
    have ha := h.1
    cases l <;> first | (cases h2; done) | (cases ha; done)
  | .noted same cs t, h, _, _, _, he, hs => by
    cases cs with
    | nil => exact absurd rfl h.1
    | cons c cs => cases he; exact hs
  | .remark t _ _, h, hp, p, ps, he, hs => by
    have hpt : ∀ p ∈ t.pieces, p.WF := fun p hp' => hp p (by simp [Ty.pieces, hp'])
    obtain ⟨p', ps', h1, _⟩ := pieces_head t h.2 hpt
    have : p = p' := by
      rw [Ty.pieces, h1] at he
      exact (List.cons.inj he).1.symm
    subst this
    have h2 := head_same t h.2 hpt p ps' h1 hs
    have ha := h.1
    cases t <;> first | (cases h2; done) | (cases ha; done)

/-- The tokens a type can start with. -/
theorem first_start (t : Ty) (h : t.WF) : t.first ≠ .RPAREN ∧ t.first ≠ .RBRACK ∧ t.first ≠ .RBRACE ∧
    t.first ≠ .COMMA ∧ t.first ≠ .EOF ∧ (t.isNoted = false → t.first ≠ .COMMENT) := by
  cases t with
  | kw k =>
    rcases builtins_mem h with rfl | rfl | rfl | rfl | rfl | rfl | rfl | rfl | rfl | rfl | rfl | rfl |
      rfl | rfl | rfl | rfl <;> decide
  | list br es => cases br <;> simp [Ty.first, Br.opens, Piece.tok]
  | pre o t => cases o <;> simp [Ty.first, Pre.op, Piece.tok]
  | occ p t => cases p <;> simp [Ty.first, occOp, Piece.tok]
  | noted _ cs t => simp [Ty.first, Ty.isNoted]
  | remark t comma c =>
    have hs := h.1
    cases t with
    | field k v => simp [Ty.first]
    | bin o l r =>
      obtain ⟨ha, hl, _⟩ := h.2
      cases l with
      | kw k =>
        rcases builtins_mem hl with rfl | rfl | rfl | rfl | rfl | rfl | rfl | rfl | rfl | rfl | rfl | rfl |
          rfl | rfl | rfl | rfl <;> simp [Ty.first]
      | list br es => cases br <;> simp [Ty.first, Br.opens, Piece.tok]
      | _ => first | (simp [Ty.atom] at ha; done) | simp [Ty.first]
    | _ => simp [Ty.single] at hs
  | bin o l r =>
    have ha := h.1
    cases l with
    | kw k =>
      rcases builtins_mem h.2.1 with rfl | rfl | rfl | rfl | rfl | rfl | rfl | rfl | rfl | rfl | rfl | rfl |
        rfl | rfl | rfl | rfl <;> simp [Ty.first]
    | list br es => cases br <;> simp [Ty.first, Br.opens, Piece.tok]
    | _ => first | (simp [Ty.atom] at ha; done) | simp [Ty.first]
  | _ => simp [Ty.first]

/-- When a type starts with a number, and its value. -/
theorem first_int : (t : Ty) → t.WF → (∀ p ∈ t.pieces, p.WF) → ∀ p ps, t.pieces = p :: ps →
    match t.firstInt with
    | some v => p.tok = .INT ∧ Tok.INT.isLiteral (enc p.lit) = true ∧ parseUint (enc p.lit) = .ok v
    | none => ¬ (p.tok = .INT ∧ Tok.INT.isLiteral (enc p.lit) = true)
  | .name w, h, _, _, _, he => by
    cases he
    have hw : word w = .IDENT := h
    simp [Ty.firstInt, Piece.tok, hw]
  | .kw k, h, _, _, _, he => by
    cases he
    rcases builtins_mem h with rfl | rfl | rfl | rfl | rfl | rfl | rfl | rfl | rfl | rfl | rfl | rfl |
      rfl | rfl | rfl | rfl <;> (simp only [Ty.firstInt]; decide)
  | .int s, h, hp, _, _, he => by
    cases he
    obtain ⟨v, hv, hlt⟩ := h
    have hw := hp s (by simp [Ty.pieces])
    simp only [Ty.firstInt, hv]
    refine ⟨(numeral_head hw hv).1, numeral_isLiteral hw hv, ?_⟩
    rw [parseUint_numeral hw hv, if_neg (by omega)]
  | .float a c, _, _, _, _, he => by cases he; simp [Ty.firstInt, Piece.tok]
  | .text s, _, _, _, _, he => by cases he; simp [Ty.firstInt, Piece.tok]
  | .list br es, _, _, _, _, he => by cases he; cases br <;> simp [Ty.firstInt, Piece.tok, Br.opens]
  | .tag h, _, _, _, _, he => by cases he; simp [Ty.firstInt, Piece.tok]
  | .tagged h t, _, _, _, _, he => by cases he; simp [Ty.firstInt, Piece.tok]
  | .pre o t, _, _, _, _, he => by cases he; cases o <;> simp [Ty.firstInt, Piece.tok, Pre.op]
  | .occ p t, _, _, _, _, he => by cases he; cases p <;> simp [Ty.firstInt, Piece.tok, occOp]
  | .field k t, h, _, _, _, he => by
    cases he
    have hw : word k = .IDENT := h.1
    simp [Ty.firstInt, Piece.tok, hw]
  | .bin o l r, h, hp, p, ps, he => by
    have hpl : ∀ p ∈ l.pieces, p.WF := fun p hp' => hp p (by simp [Ty.pieces, hp'])
    obtain ⟨p', ps', h1, _⟩ := pieces_head l h.2.1 hpl
    have : p = p' := by
      rw [Ty.pieces, h1] at he
      exact (List.cons.inj he).1.symm
    subst this
    exact first_int l h.2.1 hpl p ps' h1
  | .noted _ cs t, h, _, _, _, he => by
    cases cs with
    | nil => exact absurd rfl h.1
    | cons c cs => cases he; simp [Ty.firstInt, Piece.tok]
  | .remark t _ _, h, hp, p, ps, he => by
    have hpt : ∀ p ∈ t.pieces, p.WF := fun p hp' => hp p (by simp [Ty.pieces, hp'])
    obtain ⟨p', ps', h1, _⟩ := pieces_head t h.2 hpt
    have : p = p' := by
      rw [Ty.pieces, h1] at he
      exact (List.cons.inj he).1.symm
    subst this
    exact first_int t h.2 hpt p ps' h1

/-- What may follow a type is not an infix operator. -/
theorem mayPrecede_infix {nx : Tok} : (t : Ty) → t.mayPrecede nx = true → nx ∉ infixes
  | .pre _ t, h => mayPrecede_infix t h
  | .occ _ t, h => mayPrecede_infix t h
  | .field _ t, h => mayPrecede_infix t h
  | .bin _ _ t, h => mayPrecede_infix t h
  | .noted _ _ t, h => mayPrecede_infix t h
  | .remark _ _ _, h => by simpa [Ty.mayPrecede] using h
  | .tag h, h' => by
    cases h <;> simp only [Ty.mayPrecede, decide_eq_true_eq] at h' <;> exact h'.1
  | .name _, h => by simpa [Ty.mayPrecede] using h
  | .kw _, h => by simpa [Ty.mayPrecede] using h
  | .int _, h => by simpa [Ty.mayPrecede] using h
  | .float _ _, h => by simpa [Ty.mayPrecede] using h
  | .text _, h => by simpa [Ty.mayPrecede] using h
  | .list _ _, h => by simpa [Ty.mayPrecede] using h
  | .tagged _ _, h => by simpa [Ty.mayPrecede] using h

/-- Tokens that may follow any type. -/
theorem mayPrecede_any {nx : Tok} (h : nx ∉ infixes) (h1 : nx ≠ .INT) (h2 : nx ≠ .FLOAT)
    (h3 : nx ≠ .LPAREN) : (t : Ty) → t.mayPrecede nx = true
  | .pre _ t => mayPrecede_any h h1 h2 h3 t
  | .occ _ t => mayPrecede_any h h1 h2 h3 t
  | .field _ t => mayPrecede_any h h1 h2 h3 t
  | .bin _ _ t => mayPrecede_any h h1 h2 h3 t
  | .noted _ _ t => mayPrecede_any h h1 h2 h3 t
  | .remark _ _ _ => by simp [Ty.mayPrecede, h]
  | .tag x => by cases x <;> simp [Ty.mayPrecede, h, h1, h2, h3]
  | .name _ => by simp [Ty.mayPrecede, h]
  | .kw _ => by simp [Ty.mayPrecede, h]
  | .int _ => by simp [Ty.mayPrecede, h]
  | .float _ _ => by simp [Ty.mayPrecede, h]
  | .text _ => by simp [Ty.mayPrecede, h]
  | .list _ _ => by simp [Ty.mayPrecede, h]
  | .tagged _ _ => by simp [Ty.mayPrecede, h]

end Cddlc
