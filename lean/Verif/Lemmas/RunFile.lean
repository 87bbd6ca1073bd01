import Verif.Lemmas.RunOps
import Verif.Lemmas.FileFacts
import Verif.Lemmas.Pieces

/-! The parser returns the rules of a schema when it is fed the tokens of the schema. -/

namespace Cddlc
variable [Unicode]
open Spec PState Lexer

/-! ### The tokens of the source -/

theorem scans_errors {cs done r : List Char} {l l' : Lexer} {ts} (h : Lexer.Clean cs l done r)
    (hs : Scans l ts l') : l.errors <+: l'.errors ∧ ∃ done' r', Lexer.Clean cs l' done' r' := by
  induction hs generalizing done r with
  | nil => exact ⟨List.prefix_refl _, _, _, h⟩
  | cons h0 _ ih =>
    obtain ⟨x, _, _, _, _, h1, h2⟩ := Lexer.clean_scan_ok h h0
    obtain ⟨h3, h4⟩ := ih h1
    exact ⟨List.IsPrefix.trans ⟨_, h2.symm⟩ h3, h4⟩

/-- The tokens `ts` have kinds and literals as the texts `ps`, and comments are on the line of the token
before them where they are to. -/
def Lines : List Token → List Piece → Prop
  | [], [] => True
  | [a], [p] => a.tok = p.tok ∧ a.lit = enc p.lit
  | a :: b :: ts, p :: q :: ps => a.tok = p.tok ∧ a.lit = enc p.lit ∧
      (q.tok = .COMMENT → (a.pos.line = b.pos.line ↔ q.same = true)) ∧ Lines (b :: ts) (q :: ps)
  | _, _ => False

/-- Scanning token texts, with lines, and the end twice. -/
theorem scans_lines {cs done g : List Char} {l : Lexer} (hg : ∀ c ∈ g, ws c = true)
    (ps : List (Piece × List Char)) (hp : PiecesWF ps) (ho : ownLines ps)
    (h : Lexer.Clean cs l done (g ++ renderAll ps)) :
    ∃ ts l' e1 e2, Scans l (ts ++ [⟨.EOF, e1, []⟩, ⟨.EOF, e2, []⟩]) l' ∧
      l'.errors = l.errors ∧ Lines ts (ps.map (·.1)) ∧
      ∀ t : Token, (ts ++ [(⟨.EOF, e1, []⟩ : Token), ⟨.EOF, e2, []⟩]).head? = some t → t.pos = posAfter (done ++ g) := by
  induction ps generalizing l done g with
  | nil =>
    have h1 := Lexer.clean_scan h
    obtain ⟨e1, e2⟩ := dropWhile_gap hg hp
    rw [e1, e2] at h1
    obtain ⟨l1, h2, h3, h4⟩ := h1
    obtain ⟨l2, k2, k3, k4⟩ := Lexer.clean_scan h3
    refine ⟨[], l2, _, _, .cons h2 (.cons k2 (.nil _)), ?_, trivial, ?_⟩
    · rw [k4, h4]; simp
    · intro t ht
      cases ht
      rfl
  | cons e ps ih =>
    obtain ⟨p, g'⟩ := e
    have h1 := Lexer.clean_scan h
    obtain ⟨e1, e2⟩ := dropWhile_gap hg hp
    rw [e1, e2] at h1
    obtain ⟨hp1, hp2, hp3⟩ := hp
    have hrest : ∀ c ∈ (g' ++ renderAll ps).head?, ws c = true := by
      intro c hc
      cases g' with
      | nil =>
        cases ps with
        | nil => simp [renderAll] at hc
        | cons _ _ => exact absurd rfl (hp2.2.1 rfl)
      | cons x g' => simp at hc; exact hp2.1 c (by simp [hc])
    have hcom : (∃ body same, p = .comment body same) → ∀ c ∈ (g' ++ renderAll ps).head?, c = '\n' := by
      rintro ⟨body, same, rfl⟩ c hc
      cases g' with
      | nil =>
        cases ps with
        | nil => simp [renderAll] at hc
        | cons _ _ => exact absurd rfl (hp2.2.1 rfl)
      | cons x g' => simp at hc; exact hp2.2.2 c (by simp [hc])
    have hl := lexeme_piece hp1 hrest hcom
    have hR : renderAll ((p, g') :: ps) = p.render ++ (g' ++ renderAll ps) := by
      simp [renderAll]
    rw [hR, hl] at h1
    obtain ⟨l1, h2, h3, h4⟩ := h1
    rw [List.drop_left] at h3
    have ho' : ownLines ps := by
      cases ps with
      | nil => trivial
      | cons b ps => exact ho.2
    obtain ⟨ts, l', a1, a2, h5, h7, h8, h9⟩ := ih hp2.1 hp3 ho' h3
    refine ⟨_ :: ts, l', a1, a2, .cons h2 h5, by simpa [h4] using h7, ?_, fun t ht => by cases ht; rfl⟩
    cases ps with
    | nil =>
      cases ts with
      | nil => exact ⟨rfl, rfl⟩
      | cons t ts => simp [Lines] at h8
    | cons b ps =>
      cases ts with
      | nil => cases h8
      | cons t ts =>
        refine ⟨rfl, rfl, ?_, h8⟩
        intro hc
        have hnl := ho.1 hc
        have hpos := h9 t (by simp)
        show (Lexer.posAfter (done ++ g)).line = t.pos.line ↔ _
        rw [hpos]
        simp only [posAfter, List.take_left, List.count_append]
        have hrn : '\n' ∉ p.render := piece_line hp1
        have h0 : List.count '\n' p.render = 0 := List.count_eq_zero.mpr hrn
        rw [h0]
        by_cases hin : '\n' ∈ g'
        · have : 0 < List.count '\n' g' := List.count_pos_iff.mpr hin
          rw [hnl.mp hin]
          constructor
          · intro h; omega
          · intro h; cases h
        · have : List.count '\n' g' = 0 := List.count_eq_zero.mpr hin
          have hs : b.1.same = true := by
            cases hb : b.1.same with
            | true => rfl
            | false => exact absurd (hnl.mpr hb) hin
          rw [this, hs]
          simp

omit [Unicode] in
theorem lines_length {ts : List Token} {ps : List Piece} (h : Lines ts ps) : ts.length = ps.length := by
  induction ts generalizing ps with
  | nil => cases ps with
    | nil => rfl
    | cons p ps => cases h
  | cons a ts ih =>
    match ts, ps, h with
    | [], [p], _ => rfl
    | b :: ts, p :: q :: ps, h => simp [ih h.2.2.2]

omit [Unicode] in
/-- With marks as the texts have them. -/
theorem lines_texts [Marks] {ts : List Token} {ps : List Piece} (h : Lines ts ps)
    (hm : ∀ x ∈ ts.zip ps, Marks.same x.1 = x.2.same) : Texts ts ps := by
  induction ts generalizing ps with
  | nil => cases ps with
    | nil => rfl
    | cons p ps => cases h
  | cons a ts ih =>
    match ts, ps, h, hm with
    | [], [p], h, hm =>
      have := hm (a, p) (by simp)
      show [_] = [_]
      simp only [Token.key, Piece.key, h.1, h.2]
      rw [show Marks.same a = p.same from this]
    | b :: ts, p :: q :: ps, h, hm =>
      have h1 := hm (a, p) (by simp)
      have h2 := ih h.2.2.2 (fun x hx => hm x (by simp only [List.zip_cons_cons] at hx ⊢; exact List.mem_cons_of_mem _ hx))
      show _ :: _ = _ :: _
      simp only [Token.key, Piece.key, h.1, h.2.1]
      rw [show Marks.same a = p.same from h1]
      exact congrArg _ h2

omit [Unicode] in
theorem lines_own [Marks] {ts : List Token} {ps : List Piece} {e1 e2 : Token} (h : Lines ts ps)
    (hm : ∀ x ∈ ts.zip ps, Marks.same x.1 = x.2.same) (h1 : e1.tok = .EOF) (h2 : e2.tok = .EOF) :
    OwnLine (ts ++ [e1, e2]) := by
  induction ts generalizing ps with
  | nil => simp [OwnLine, h2]
  | cons a ts ih =>
    match ts, ps, h, hm with
    | [], [p], h, hm => simp [OwnLine, h1, h2]
    | b :: ts, p :: q :: ps, h, hm =>
      have h2 := ih h.2.2.2 (fun x hx => hm x (by simp only [List.zip_cons_cons] at hx ⊢; exact List.mem_cons_of_mem _ hx))
      refine ⟨?_, h2⟩
      intro hc
      have h3 := hm (b, q) (by simp)
      rw [show Marks.same b = q.same from h3]
      have hq : b.tok = q.tok := by
        match ts, ps, h.2.2.2 with
        | [], [], h => exact h.1
        | _ :: _, _ :: _, h => exact h.1
      exact h.2.2.1 (hq ▸ hc)

omit [Unicode] in
theorem lines_get {ts : List Token} {ps : List Piece} (h : Lines ts ps) {i : Nat} {t : Token} {p : Piece}
    (ht : ts[i]? = some t) (hp : ps[i]? = some p) : t.tok = p.tok := by
  induction ts generalizing ps i with
  | nil => cases ht
  | cons a ts ih =>
    match ts, ps, h, i with
    | [], [q], h, 0 => cases ht; cases hp; exact h.1
    | [], [q], h, i + 1 => simp at ht
    | b :: ts, q :: q' :: ps, h, 0 => cases ht; cases hp; exact h.1
    | b :: ts, q :: q' :: ps, h, i + 1 => exact ih h.2.2.2 (by simpa using ht) (by simpa using hp)

open Classical in
/-- There are marks as the texts have them. -/
theorem marks_exist {src : Bytes} (hc : Cddlc.Clean src) {ts : List Token} {us l} {ps : List Piece}
    (hs : Scans (Lexer.new src) (ts ++ us) l) (h : Lines ts ps) :
    ∃ inst : Marks, ∀ x ∈ ts.zip ps, inst.same x.1 = x.2.same := by
  refine ⟨⟨fun t => decide (∃ (i : Nat) (p : Piece), ts[i]? = some t ∧ ps[i]? = some p ∧ p.same = true)⟩, ?_⟩
  rintro ⟨t, p⟩ hx
  obtain ⟨j, hj⟩ := List.getElem?_of_mem hx
  rw [List.getElem?_zip_eq_some] at hj
  obtain ⟨hj1, hj2⟩ := hj
  dsimp only at hj1 hj2 ⊢
  have comment : ∀ {i : Nat} {t : Token} {p : Piece}, ts[i]? = some t → ps[i]? = some p → p.same = true →
      t.tok ≠ .EOF := by
    intro i t p h1 h2 h3
    rw [lines_get h h1 h2]
    cases p <;> first | cases h3; done | (simp [Piece.tok])
  have pre : ∀ {i : Nat} {t : Token}, ts[i]? = some t → ∃ m, Scans (Lexer.new src) (ts.take i ++ [t]) m := by
    intro i t hi
    have : ts ++ us = (ts.take i ++ [t]) ++ (ts.drop (i + 1) ++ us) := by
      have := List.take_append_drop i ts
      have hd : ts.drop i = t :: ts.drop (i + 1) := List.drop_eq_getElem?_toList_append ▸ by simp [hi]
      conv => lhs; rw [← this, hd]
      simp
    rw [this] at hs
    obtain ⟨m, hm, _⟩ := scans_split hs
    exact ⟨m, hm⟩
  have len : ∀ {i : Nat} {t : Token}, ts[i]? = some t → (ts.take i).length = i := by
    intro i t hi
    have := (List.getElem?_eq_some_iff.mp hi).1
    simp; omega
  cases hp : p.same with
  | true => exact decide_eq_true ⟨j, p, hj1, hj2, hp⟩
  | false =>
    refine decide_eq_false ?_
    rintro ⟨i, q, h1, h2, h3⟩
    have hE := comment h1 h2 h3
    obtain ⟨m1, g1⟩ := pre h1
    obtain ⟨m2, g2⟩ := pre hj1
    rcases Nat.lt_trichotomy i j with hlt | rfl | hlt
    · exact Int.lt_irrefl _ (offset_lt hc g1 g2 (by rw [len h1, len hj1]; exact hlt) hE hE)
    · rw [hj2] at h2; cases h2; rw [hp] at h3; cases h3
    · exact Int.lt_irrefl _ (offset_lt hc g2 g1 (by rw [len h1, len hj1]; exact hlt) hE hE)

/-- The parser at the start of the source. -/
theorem new_feeds {g : List Char} (hg : ∀ c ∈ g, ws c = true) (ps : List (Piece × List Char))
    (hp : PiecesWF ps) (ho : ownLines ps) (env : Env) :
    ∃ (_ : Marks) (p : PState) (ts : List Token) (e1 e2 : Token),
      PState.new (Lexer.new (enc (g ++ renderAll ps))) env = .ok p ∧ p.env = env ∧
      p.errors = [] ∧ p.tasks = [] ∧ p.lx.errors = [] ∧
      e1.tok = .EOF ∧ e2.tok = .EOF ∧ Texts ts (ps.map (·.1)) ∧ Feeds p (ts ++ [e1, e2]) := by
  have hbad : '�' ∉ g ++ renderAll ps := by
    rw [List.mem_append, not_or]
    exact ⟨fun hm => absurd (hg _ hm) (by decide), renderAll_no_bad hp⟩
  have hcl := Lexer.clean_new hbad
  obtain ⟨ts, l', e1, e2, h1, h3, h2', _⟩ := scans_lines hg ps hp ho hcl
  obtain ⟨inst, hmk⟩ := marks_exist ⟨_, hbad, rfl⟩ h1 h2'
  have h2 := lines_texts h2' hmk
  have h4 := lines_own (e1 := ⟨.EOF, e1, []⟩) (e2 := ⟨.EOF, e2, []⟩) h2' hmk rfl rfl
  have h0 : (Lexer.new (enc (g ++ renderAll ps))).errors = [] := by
    unfold Lexer.new Lexer.next
    simp only []
    split
    · rfl
    · split <;> rfl
  obtain ⟨t, u, vs, hts⟩ : ∃ t u vs, ts ++ [⟨.EOF, e1, []⟩, ⟨.EOF, e2, []⟩] = t :: u :: vs := by
    match ts with
    | [] => exact ⟨_, _, _, rfl⟩
    | [a] => exact ⟨_, _, _, rfl⟩
    | a :: b :: ts => exact ⟨_, _, _, rfl⟩
  rw [hts] at h1 h4
  obtain ⟨p, hpn⟩ : ∃ p, PState.new (Lexer.new (enc (g ++ renderAll ps))) env = .ok p := by
    cases h1 with
    | cons hs1 hr1 =>
      cases hr1 with
      | cons hs2 hr2 =>
        unfold PState.new
        simp only [PState.next, Out.bind_def, hs1, Out.bind, hs2]
        exact ⟨_, rfl⟩
  obtain ⟨k1, k2, k3, k4⟩ := PState.new_synced p hpn
  have hd := scans_det k1 h1 (by simp)
  obtain ⟨rest, hrest⟩ := hd
  simp only [List.nil_append, List.cons_append, List.cons.injEq] at hrest
  obtain ⟨hc, hk, rfl⟩ := hrest
  obtain ⟨m, m1, m2⟩ := scans_split (ts := [t, u]) (us := rest) h1
  have hm : m = p.lx := by
    cases m1 with
    | cons a1 b1 => cases b1 with
      | cons a2 b2 =>
        cases b2
        have k1' : Scans _ [p.curTok, p.peekTok] p.lx := k1
        cases k1' with
        | cons c1 d1 => cases d1 with
          | cons c2 d2 =>
            cases d2
            rw [a1] at c1
            cases c1
            rw [a2] at c2
            cases c2
            rfl
  subst hm
  obtain ⟨g1, d', r', g2⟩ := scans_errors hcl m1
  obtain ⟨g3, _⟩ := scans_errors g2 m2
  refine ⟨inst, p, ts, ⟨.EOF, e1, []⟩, ⟨.EOF, e2, []⟩, hpn, k2, k3, k4, ?_, rfl, rfl, h2, ?_⟩
  · rw [h3, h0] at g3
    exact List.prefix_nil.mp g3
  · rw [hts]
    refine ⟨hc, hk, ⟨_, m2⟩, ?_⟩
    rw [hc]
    exact h4

/-! ### Where trees start -/

omit [Unicode] in
theorem start_noPos : (x : Node) → ∀ s, (noPos x).start = .ok s → ∃ s', x.start = .ok s'
  | .nil, _, h => by cases h
  | .typedNil _, _, h => by cases h
  | .array _ _, _, _ => ⟨_, rfl⟩
  | .badNode _ _ b _, s, h => start_noPos b s h
  | .boolType _ _, _, _ => ⟨_, rfl⟩
  | .boolLit _ _, _, _ => ⟨_, rfl⟩
  | .bstr _ _, _, _ => ⟨_, rfl⟩
  | .bytes _ _, _, _ => ⟨_, rfl⟩
  | .cddl _ _, _, _ => ⟨_, rfl⟩
  | .comment _, _, _ => ⟨_, rfl⟩
  | .commentGroup [], _, _ => ⟨_, rfl⟩
  | .commentGroup (_ :: _), _, _ => ⟨_, rfl⟩
  | .bits _ _ a _, s, h => start_noPos a s h
  | .comparator _ _ _ a _, s, h => start_noPos a s h
  | .regexp _ _ _ _, _, _ => ⟨_, rfl⟩
  | .size _ _ _ a, s, h => start_noPos a s h
  | .entry _ _ _ _, _, _ => ⟨_, rfl⟩
  | .enumeration _ _ _, _, _ => ⟨_, rfl⟩
  | .floatType _ _, _, _ => ⟨_, rfl⟩
  | .floatLit _ _ _, _, _ => ⟨_, rfl⟩
  | .group _ _, _, _ => ⟨_, rfl⟩
  | .groupChoice _ _ a _, s, h => start_noPos a s h
  | .ident _, _, _ => ⟨_, rfl⟩
  | .intType _ _, _, _ => ⟨_, rfl⟩
  | .nintType _ _, _, _ => ⟨_, rfl⟩
  | .intLit _ _ _, _, _ => ⟨_, rfl⟩
  | .map _ _, _, _ => ⟨_, rfl⟩
  | .null _ _, _, _ => ⟨_, rfl⟩
  | .optional _ _ _, _, _ => ⟨_, rfl⟩
  | .nm _ _ (some _) _ _, _, _ => ⟨_, rfl⟩
  | .nm _ _ none _ _, _, h => by cases h
  | .range _ _ a _, s, h => start_noPos a s h
  | .rule _ _ _ _, _, _ => ⟨_, rfl⟩
  | .tag _ _ _ _ _, _, _ => ⟨_, rfl⟩
  | .textLit _ _ _, _, _ => ⟨_, rfl⟩
  | .tstr _, _, _ => ⟨_, rfl⟩
  | .typeChoice _ _ a _, s, h => start_noPos a s h
  | .uintType _ _, _, _ => ⟨_, rfl⟩
  | .uintLit _, _, _ => ⟨_, rfl⟩
  | .unwrap _ _ _, _, _ => ⟨_, rfl⟩

omit [Unicode] in
theorem atom_start {t : Ty} (ha : t.atom = true) (hw : t.WF) : ∃ s, (t.node true).start = .ok s := by
  cases t with
  | kw k =>
    rcases builtins_mem hw with rfl | rfl | rfl | rfl | rfl | rfl | rfl | rfl | rfl | rfl | rfl | rfl |
      rfl | rfl | rfl | rfl <;> exact ⟨_, rfl⟩
  | list br es => cases br <;> exact ⟨_, rfl⟩
  | name _ => exact ⟨_, rfl⟩
  | int _ => exact ⟨_, rfl⟩
  | float _ _ => exact ⟨_, rfl⟩
  | text _ => exact ⟨_, rfl⟩
  | tag _ => exact ⟨_, rfl⟩
  | tagged _ _ => exact ⟨_, rfl⟩
  | _ => simp [Ty.atom] at ha

omit [Unicode] in
/-- Only comparisons have no start. -/
theorem node_start {t : Ty} (hw : t.WF)
    (hc : ¬ (t.isCmp = true ∨ ∃ same cs u, t = .noted same cs u ∧ u.isCmp = true)) : ∃ s, (t.node true).start = .ok s := by
  have plain : ∀ t : Ty, t.WF → t.isCmp = false → t.isNoted = false → ∃ s, (t.node true).start = .ok s := by
    intro t hw hc hn
    cases t with
    | pre o t => cases o <;> exact ⟨_, rfl⟩
    | occ p t => exact ⟨_, rfl⟩
    | field k t => exact ⟨_, rfl⟩
    | bin o l r =>
      have := atom_start hw.1 hw.2.1
      cases o with
      | choice => exact this
      | gchoice => exact this
      | size => exact this
      | bits => exact this
      | incl => exact this
      | excl => exact this
      | regexp => exact ⟨_, rfl⟩
      | arrow => exact ⟨_, rfl⟩
      | colon => exact ⟨_, rfl⟩
      | star => exact ⟨_, rfl⟩
      | plus => exact ⟨_, rfl⟩
      | _ => cases hc
    | noted _ cs t => cases hn
    | remark t comma c =>
      have hs := hw.1
      cases t with
      | field k v => exact ⟨_, rfl⟩
      | bin o l v =>
        cases o with
        | arrow => exact ⟨_, rfl⟩
        | colon => exact ⟨_, rfl⟩
        | _ => simp [Ty.single] at hs
      | _ => simp [Ty.single] at hs
    | _ => exact atom_start rfl hw
  cases hn : t.isNoted with
  | false => exact plain t hw (by simpa using fun h => hc (.inl h)) hn
  | true =>
    cases t with
    | noted same cs t =>
      exact plain t hw.2.2 (by
        cases h : t.isCmp with
        | false => rfl
        | true => exact absurd (.inr ⟨same, cs, t, rfl, h⟩) hc) hw.2.1
    | _ => cases hn

/-! ### The environment -/

/-- The environment holds the first `=` rule for each name. -/
def EnvOf (e : Env) (rs : List SRule) : Prop := ∀ k, (assocFind k e.symbols).map noPos =
  (rs.find? (fun r => r.assign = .eq ∧ enc r.name = k)).map fun r => r.body.node true

omit [Unicode] in
theorem envOf_exists {e : Env} {rs} (h : EnvOf e rs) (k : Bytes) :
    e.exists? k = (rs.find? (fun r => r.assign = .eq ∧ enc r.name = k)).isSome := by
  have := congrArg Option.isSome (h k)
  simpa [Env.exists?] using this

omit [Unicode] in
theorem envOf_kind {e : Env} {rs} (h : EnvOf e rs) (k : Bytes) :
    kindOf rs k = if e.exists? k then some (e.get k).kind else none := by
  have h1 := h k
  unfold kindOf Env.exists? Env.get
  cases hf : assocFind k e.symbols with
  | none =>
    rw [hf] at h1
    cases hg : rs.find? (fun r => r.assign = .eq ∧ enc r.name = k) with
    | none => rfl
    | some r => rw [hg] at h1; cases h1
  | some x =>
    rw [hf] at h1
    cases hg : rs.find? (fun r => r.assign = .eq ∧ enc r.name = k) with
    | none => rw [hg] at h1; cases h1
    | some r =>
      rw [hg] at h1
      have h2 : noPos x = r.body.node true := Option.some.inj h1
      simp [← h2, noPos_kind]

omit [Unicode] in
theorem envOf_skip {e : Env} {rs} (h : EnvOf e rs) {r : SRule}
    (hr : r.assign = .eq → e.exists? (enc r.name) = true) : EnvOf e (rs ++ [r]) := by
  intro k
  rw [h k, List.find?_append]
  cases hf : rs.find? (fun r => r.assign = .eq ∧ enc r.name = k) with
  | some r' => rfl
  | none =>
    by_cases hk : r.assign = .eq ∧ enc r.name = k
    · have := hr hk.1
      rw [hk.2, envOf_exists h, hf] at this
      cases this
    · simp [hk]

omit [Unicode] in
theorem envOf_add {e : Env} {rs} (h : EnvOf e rs) {r : SRule} {x : Node} (hr : r.assign = .eq)
    (hx : noPos x = r.body.node true) (he : e.exists? (enc r.name) = false) :
    EnvOf ⟨(enc r.name, x) :: e.symbols⟩ (rs ++ [r]) := by
  intro k
  rw [List.find?_append]
  by_cases hk : enc r.name = k
  · subst hk
    rw [envOf_exists h] at he
    have hnone : rs.find? (fun r' => r'.assign = .eq ∧ enc r'.name = enc r.name) = none := by
      cases hf : rs.find? (fun r' => r'.assign = .eq ∧ enc r'.name = enc r.name) with
      | none => rfl
      | some _ => rw [hf] at he; cases he
    rw [hnone]
    simp [assocFind, hr, hx]
  · rw [show assocFind k ((enc r.name, x) :: e.symbols) = assocFind k e.symbols by simp [assocFind, hk]]
    rw [h k]
    cases hf : rs.find? (fun r => r.assign = .eq ∧ enc r.name = k) with
    | some r' => rfl
    | none => simp [hk]

/-! ### Rules -/

section
variable [Marks]

/-- Comments between rules. -/
theorem comments_step {n : Nat} {p : PState} {acc : List Node} {cs : List Token} {u v rest}
    (hcs : ∀ c ∈ cs, c.tok = .COMMENT) (hne : cs ≠ []) (h : Feeds p (cs ++ u :: v :: rest))
    (hu : u.tok ≠ .COMMENT) (hn : cs.length + 1 ≤ n) :
    ∃ q, fileStep n (acc, p) = .ok (.inl (acc ++ [commentNode (cs.map fun c => ⟨c.pos, c.lit⟩)], q)) ∧
      Feeds q (u :: v :: rest) ∧ Same p q := by
  cases cs with
  | nil => exact absurd rfl hne
  | cons c cs =>
    obtain ⟨h1, h2⟩ := h
    obtain ⟨q1, g1, g2, g3, g4, g5⟩ := comments_loop (n := n) (acc := [p.parseInnerComment]) cs
      (fun c hc => hcs c (by simp [hc])) h2 hu (by simp at hn ⊢; omega)
    obtain ⟨q, k1, k2, k3, k4⟩ := next_sees g4
    have hcur : p.cur = .COMMENT := (cur_of h1).1.trans (hcs c (by simp))
    refine ⟨q, ?_, ⟨k2, k3⟩, g5.trans k4⟩
    have hi : p.parseInnerComment = ⟨c.pos, c.lit⟩ := by
      unfold parseInnerComment; rw [(cur_of h1).2.1, (cur_of h1).2.2]
    have hpc : parseRule n p = .ok (commentNode ((c :: cs).map fun c => ⟨c.pos, c.lit⟩), none, q1) := by
      unfold parseRule
      rw [hcur]
      show parseComment n p = _
      unfold parseComment
      rw [g1]
      have := comment_node ([p.parseInnerComment] ++ cs.map (fun c => ⟨c.pos, c.lit⟩)) q1
      rw [hi] at this ⊢
      exact this
    unfold fileStep
    dsimp only
    rw [if_neg (by rw [hcur]; decide)]
    show Out.bind (parseRule n p) _ = _
    rw [hpc]
    show Out.bind q1.next _ = _
    rw [k1]
    have hnil : (commentNode ((c :: cs).map fun c => ⟨c.pos, c.lit⟩)).isNil = false := by
      cases cs <;> rfl
    show Out.ok (Sum.inl (if (commentNode ((c :: cs).map fun c => ⟨c.pos, c.lit⟩)).isNil = true then acc else _, q)) = _
    rw [hnil]
    rfl

omit [Unicode] [Marks] in
theorem commentNodes_of {cs : List Token} {texts : List (List Char)} (hne : cs ≠ [])
    (h : cs.map (·.lit) = texts.map enc) :
    noPosL [commentNode (cs.map fun c => ⟨c.pos, c.lit⟩)] = commentNodes texts := by
  match cs, texts, h with
  | [], _, _ => exact absurd rfl hne
  | [c], t :: u :: ts, h => simp at h
  | c :: d :: cs, [t], h => simp at h
  | [c], [t], h =>
    have h1 : c.lit = enc t := by simpa using h
    simp [commentNode, noPosL, noPos, commentNodes, h1]
  | c :: d :: cs, t :: u :: ts, h =>
    simp only [List.map_cons, List.cons.injEq] at h
    obtain ⟨h1, h2, h3⟩ := h
    simp only [commentNode, noPosL, noPos, commentNodes, List.map_cons, List.map_map, h1, h2]
    have : (cs.map fun c => (⟨{}, c.lit⟩ : Comment)) = ts.map fun t => ⟨{}, enc t⟩ := by
      have := congrArg (List.map fun b => (⟨{}, b⟩ : Comment)) h3
      simpa [List.map_map, Function.comp_def] using this
    simpa [Function.comp_def] using this

/-- One rule: `hstart` says where an earlier value of the name starts. -/
theorem rule_step {r : SRule} (hname : word r.name = .IDENT) (hw : r.body.WF)
    (hp : ∀ pc ∈ r.body.pieces, pc.WF) {n : Nat} {p : PState} {acc : List Node} {t0 t1 : Token} {ts}
    {v w : Token} {vs} (h0 : t0.key = (Piece.word r.name).key) (h1 : t1.key = r.assign.op.key)
    (hx : Texts ts r.body.pieces) (hf : Feeds p (t0 :: t1 :: (ts ++ v :: w :: vs)))
    (hv : v.tok = .IDENT ∨ v.tok = .COMMENT ∨ v.tok = .EOF) (hvc : Calm v) (hn : r.body.pieces.length + 3 ≤ n)
    {rs : List SRule} (henv : EnvOf p.env rs)
    (hstart : r.assign = .eq → p.env.exists? (enc r.name) = true →
      ∃ s, (p.env.get (enc r.name)).start = .ok s) :
    ∃ x q ds new, fileStep n (acc, p) = .ok (.inl (acc ++ [x], q)) ∧ noPos x = r.node true ∧
      Feeds q (v :: w :: vs) ∧ EnvOf q.env (rs ++ [r]) ∧ q.errors = p.errors ++ ds ∧
      ds.map (fun d => noPosMsg d.msg) =
        (if r.assign = .eq ∧ p.env.exists? (enc r.name) = true then [.existing (enc r.name) 0 0] else []) ∧
      q.tasks = p.tasks ++ new ∧ new.filterMap Task.check = r.body.checks := by
  have hcur : p.cur = .IDENT := by
    rw [(cur_of hf.1).1]; exact (congrArg Prod.fst h0).trans hname
  have hlit : p.lit = enc r.name := by
    rw [(cur_of hf.1).2.2]; exact congrArg (fun k => k.2.1) h0
  obtain ⟨p1, a1, a2, a3⟩ := feeds_into (ts := t1 :: ts) hf
  have ht1 : t1.tok = r.assign.op.tok := congrArg Prod.fst h1
  have hp1 : p1.cur = r.assign.op.tok := (cur_of a2.1).1.trans ht1
  obtain ⟨p2, b1, b2, b3⟩ := feeds_into a2
  have hvt : v.tok ≠ .COMMA ∧ v.tok ∉ infixes ∧ v.tok ≠ .INT ∧ v.tok ≠ .FLOAT ∧ v.tok ≠ .LPAREN := by
    rcases hv with h | h | h <;> rw [h] <;> decide
  have hm : Near r.body v w := ⟨mayPrecede_any hvt.2.1 hvt.2.2.1 hvt.2.2.2.1 hvt.2.2.2.2 _,
    fun _ => ⟨hvc, fun h => absurd h hvt.1⟩⟩
  have entry : ∀ prec, (p2.cur.precedence = 0 → prec = 0) → ∃ x q, parseEntry n prec p2 = .ok (x, none, q) ∧
      noPos x = r.body.node true ∧ Sees q (v :: w :: vs) ∧ Eff p2 q r.body.checks := by
    intro prec hz
    obtain ⟨x, q, k1, k2, k3, k4⟩ := entry_ok hw hp n prec p2 ts v w vs hn hx b2 hm hz
    exact ⟨x, q, k1, k2, (end_sees k3 hvt.1).2, k4⟩
  have hnt : ∀ q : PState, Sees q (v :: w :: vs) → q.ruleTrailing = .ok (none, q) := by
    intro q hq
    unfold ruleTrailing
    rw [if_neg (no_trail hq hvc)]
  -- from the parsed rule to the end of the round
  have fin : ∀ x p4, parseRule n p = .ok (.rule {} ⟨p.pos, p.lit⟩ x none, none, p4) → Sees p4 (v :: w :: vs) →
      ∃ q, fileStep n (acc, p) = .ok (.inl (acc ++ [.rule {} ⟨p.pos, p.lit⟩ x none], q)) ∧
        Feeds q (v :: w :: vs) ∧ Same p4 q := by
    intro x p4 h hs
    obtain ⟨q, c1, c2, c3, c4⟩ := next_sees hs
    refine ⟨q, ?_, ⟨c2, c3⟩, c4⟩
    unfold fileStep
    dsimp only
    rw [if_neg (by rw [hcur]; decide)]
    show Out.bind (parseRule n p) _ = _
    rw [h]
    show Out.bind p4.next _ = _
    rw [c1]
    rfl
  have frame : Same p p2 := a3.trans b3
  by_cases hass : r.assign = .eq
  · have hp1' : p1.cur = .ASSIGN := by rw [hp1, hass]; rfl
    obtain ⟨x, p3, k1, k2, k3, k4⟩ := entry p2.cur.precedence id
    obtain ⟨e1, e2, new, e3, e4⟩ := frame.then k4
    have hrule : parseRule n p = Out.bind (p3.declare ⟨p.pos, p.lit⟩ x)
        (fun p5 => .ok (.rule {} ⟨p.pos, p.lit⟩ x none, none, p5)) := by
      unfold parseRule
      rw [hcur]
      show Out.bind p.next _ = _
      rw [a1]
      show (match p1.cur with | .ASSIGN => _ | .TYPE_CHOICE_ASSIGN | .GROUP_CHOICE_ASSIGN => _ | _ => _) = _
      rw [hp1']
      show Out.bind (nextEntry (parseEntry n) p1) _ = _
      rw [nextEntry_of b1 k1]
      show Out.bind p3.ruleTrailing _ = _
      rw [hnt p3 k3]
      rfl
    have hnode : noPos (.rule {} ⟨p.pos, p.lit⟩ x none) = r.node true := by
      simp [noPos, SRule.node, k2, hlit]
    cases hex : p.env.exists? (enc r.name) with
    | true =>
      obtain ⟨s, hs⟩ := hstart hass hex
      have hdecl : p3.declare ⟨p.pos, p.lit⟩ x =
          .ok (p3.addError ⟨.existing p.lit s.line s.column, p.pos, p.pos⟩) := by
        have hadd : p3.env.add p.lit x = (p3.env, true) := by
          unfold Env.add
          rw [e1, hlit, if_pos hex]
        unfold declare
        dsimp only
        rw [hadd]
        have hs' : (p3.env.get p.lit).start = .ok s := by rw [e1, hlit]; exact hs
        show Out.bind (p3.env.get p.lit).start _ = _
        rw [hs']
        rfl
      rw [hdecl] at hrule
      obtain ⟨q, f1, f2, f3⟩ := fin _ _ hrule k3
      refine ⟨_, q, [⟨.existing p.lit s.line s.column, p.pos, p.pos⟩], new, f1, hnode, f2, ?_, ?_, ?_, ?_, e4⟩
      · rw [f3.1]
        show EnvOf p3.env _
        rw [e1]
        exact envOf_skip henv (fun _ => hex)
      · rw [f3.2.1]
        show p3.errors ++ _ = _
        rw [e2]
      · simp [hass, noPosMsg, hlit]
      · rw [f3.2.2]; exact e3
    | false =>
      have hdecl : p3.declare ⟨p.pos, p.lit⟩ x = .ok { p3 with env := ⟨(p.lit, x) :: p3.env.symbols⟩ } := by
        have hadd : p3.env.add p.lit x = (⟨(p.lit, x) :: p3.env.symbols⟩, false) := by
          unfold Env.add
          rw [if_neg (by rw [e1, hlit, hex]; decide)]
        unfold declare
        dsimp only
        rw [hadd]
      rw [hdecl] at hrule
      obtain ⟨q, f1, f2, f3⟩ := fin _ _ hrule k3
      refine ⟨_, q, [], new, f1, hnode, f2, ?_, ?_, by simp, ?_, e4⟩
      · rw [f3.1]
        show EnvOf ⟨(p.lit, x) :: p3.env.symbols⟩ _
        rw [e1, hlit]
        exact envOf_add henv hass k2 hex
      · rw [f3.2.1]
        show p3.errors = _
        rw [e2]; simp
      · rw [f3.2.2]; exact e3
  · obtain ⟨x, p3, k1, k2, k3, k4⟩ := entry 0 (fun _ => rfl)
    obtain ⟨e1, e2, new, e3, e4⟩ := frame.then k4
    have hrule : parseRule n p = .ok (.rule {} ⟨p.pos, p.lit⟩ x none, none, p3) := by
      unfold parseRule
      rw [hcur]
      show Out.bind p.next _ = _
      rw [a1]
      show (match p1.cur with | .ASSIGN => _ | .TYPE_CHOICE_ASSIGN | .GROUP_CHOICE_ASSIGN => _ | _ => _) = _
      cases ha : r.assign with
      | eq => exact absurd ha hass
      | choice =>
        rw [hp1, ha]
        show Out.bind p1.next _ = _
        rw [b1]
        show Out.bind (parseEntry n 0 p2) _ = _
        rw [k1]
        show Out.bind p3.ruleTrailing _ = _
        rw [hnt p3 k3]
        rfl
      | gchoice =>
        rw [hp1, ha]
        show Out.bind p1.next _ = _
        rw [b1]
        show Out.bind (parseEntry n 0 p2) _ = _
        rw [k1]
        show Out.bind p3.ruleTrailing _ = _
        rw [hnt p3 k3]
        rfl
    obtain ⟨q, f1, f2, f3⟩ := fin _ _ hrule k3
    refine ⟨_, q, [], new, f1, ?_, f2, ?_, ?_, by simp [hass], ?_, e4⟩
    · simp [noPos, SRule.node, k2, hlit]
    · rw [f3.1, e1]
      exact envOf_skip henv (fun h => absurd h hass)
    · rw [f3.2.1, e2]; simp
    · rw [f3.2.2]; exact e3

omit [Unicode] [Marks] in
theorem duplicates_mono {seen : List Bytes} {r : SRule} {rs : List SRule} {k : Bytes} {seen' : List Bytes}
    (hs : seen' = if r.assign = .eq ∧ enc r.name ∉ seen then enc r.name :: seen else seen)
    (h : k ∈ duplicates seen' rs) : k ∈ duplicates seen (r :: rs) := by
  subst hs
  unfold duplicates
  by_cases h1 : r.assign = .eq
  · by_cases h2 : enc r.name ∈ seen
    · simp [h1, h2] at h ⊢; exact .inr h
    · simp [h1, h2] at h ⊢; exact h
  · simp [h1] at h ⊢; exact h

/-- Is it a comparison, perhaps behind comment lines? -/
def cmpBody (t : Ty) : Prop := t.isCmp = true ∨ ∃ same cs u, t = .noted same cs u ∧ u.isCmp = true

/-- The loop over some rules, when a name, a comment or the end follows. -/
theorem rules_pass {e1 e2 : Token} {es : List Token}
    (he1 : e1.tok = .IDENT ∨ e1.tok = .COMMENT ∨ e1.tok = .EOF) (hec : Calm e1) {n : Nat} :
    (rs : List SRule) → ∀ {done : List SRule} {seen : List Bytes} {acc : List Node} {m : Nat} {p : PState} {ts},
    (∀ r ∈ rs, word r.name = .IDENT ∧ r.body.WF) →
    (∀ r ∈ done, r.body.WF) →
    (∀ r ∈ rs, ∀ pc ∈ r.body.pieces, pc.WF) →
    (∀ r ∈ done ++ rs, cmpBody r.body → enc r.name ∉ duplicates seen rs) →
    (∀ k, k ∈ seen ↔ (done.find? (fun r => r.assign = .eq ∧ enc r.name = k)).isSome = true) →
    EnvOf p.env done →
    Texts ts (rs.flatMap SRule.pieces) →
    Feeds p (ts ++ e1 :: e2 :: es) →
    (rs.flatMap SRule.pieces).length + 3 ≤ n →
    (rs.flatMap SRule.pieces).length + 1 ≤ m →
    ∃ xs q ds new m', loopOut (fileStep n) m (acc, p) = loopOut (fileStep n) m' (acc ++ xs, q) ∧
      m ≤ m' + (rs.flatMap SRule.pieces).length ∧ Feeds q (e1 :: e2 :: es) ∧
      noPosL xs = rs.flatMap (fun r => commentNodes r.lead ++ [r.node true]) ∧
      EnvOf q.env (done ++ rs) ∧ q.errors = p.errors ++ ds ∧
      ds.map (fun d => noPosMsg d.msg) = (duplicates seen rs).map (.existing · 0 0) ∧
      q.tasks = p.tasks ++ new ∧ new.filterMap Task.check = rs.flatMap (fun r : SRule => r.body.checks)
  | [], done, seen, acc, m, p, ts, _, _, _, _, _, henv, hx, hf, hn, hm => by
    have : ts = [] := texts_nil hx
    subst this
    exact ⟨[], p, [], [], m, by simp, by simp, hf, rfl, by simpa using henv, by simp, rfl, by simp, rfl⟩
  | r :: rs, done, seen, acc, m, p, ts, hrs, hdone, hpc, hcmp, hseen, henv, hx, hf, hn, hm => by
    obtain ⟨hname, hw⟩ := hrs r (by simp)
    have hpb := hpc r (by simp)
    have hx' : Texts ts (r.lead.map (.comment · false) ++ (.word r.name :: r.assign.op :: (r.body.pieces ++
        (rs.flatMap SRule.pieces)))) := by
      simpa [SRule.pieces] using hx
    have hlen : (((r :: rs).flatMap SRule.pieces).length) = r.lead.length + (r.body.pieces.length + 2) +
        (rs.flatMap SRule.pieces).length := by
      simp [SRule.pieces]; omega
    obtain ⟨ts1, ts2, rfl, hx1, hx2⟩ := texts_append hx'
    have hx2' := hx2
    obtain ⟨t0, ts3, rfl, i1, i2, i5, hx3⟩ := texts_marked hx2
    obtain ⟨t1, ts4, rfl, i3, i4, i6, hx4⟩ := texts_marked hx3
    obtain ⟨ts5, ts6, rfl, hx5, hx6⟩ := texts_append hx4
    obtain ⟨g1, g2, g3⟩ := texts_comments hx1
    have hf0 : Feeds p (ts1 ++ t0 :: t1 :: (ts5 ++ (ts6 ++ e1 :: e2 :: es))) := by simpa using hf
    have ht0 : t0.tok = .IDENT := i1.trans hname
    -- the comments before the rule
    have lead : ∃ p1 xs1 m1, loopOut (fileStep n) m (acc, p) = loopOut (fileStep n) m1 (acc ++ xs1, p1) ∧
        noPosL xs1 = commentNodes r.lead ∧ Feeds p1 (t0 :: t1 :: (ts5 ++ (ts6 ++ e1 :: e2 :: es))) ∧ Same p p1 ∧
        (r.body.pieces.length + 2) + (rs.flatMap SRule.pieces).length + 1 ≤ m1 ∧
        m ≤ m1 + r.lead.length := by
      by_cases hne : ts1 = []
      · subst hne
        have : r.lead = [] := List.length_eq_zero_iff.mp g3.symm
        exact ⟨p, [], m, by simp, by rw [this]; rfl, hf0, .refl p, by omega, by omega⟩
      · have hpos : 0 < ts1.length := List.length_pos_iff.mpr hne
        obtain ⟨q, k1, k2, k3⟩ := comments_step (n := n) (acc := acc) g1 hne hf0 (by rw [ht0]; decide) (by omega)
        obtain ⟨m, rfl⟩ : ∃ k, m = k + 1 := ⟨m - 1, by omega⟩
        refine ⟨q, [commentNode (ts1.map fun c => ⟨c.pos, c.lit⟩)], m, ?_, commentNodes_of hne g2, k2, k3, by omega, by omega⟩
        rw [loopOut, k1]
    obtain ⟨p1, xs1, m1, l1, l2, l3, l4, l5, l6⟩ := lead
    obtain ⟨m1, rfl⟩ : ∃ k, m1 = k + 1 := ⟨m1 - 1, by omega⟩
    -- the token behind the rule
    have hv : ∃ v w vs, ts6 ++ e1 :: e2 :: es = v :: w :: vs ∧
        (v.tok = .IDENT ∨ v.tok = .COMMENT ∨ v.tok = .EOF) ∧ Calm v := by
      match ts6, hx6 with
      | [], _ => exact ⟨e1, e2, es, rfl, he1, hec⟩
      | v :: vs, hx6 =>
        have hvt : (v.tok = .IDENT ∨ v.tok = .COMMENT ∨ v.tok = .EOF) ∧ Calm v := by
          cases rs with
          | nil => cases hx6
          | cons r2 rs =>
            have hn2 := (hrs r2 (by simp)).1
            cases hl2 : r2.lead with
            | nil =>
              simp only [List.flatMap_cons, SRule.pieces, hl2, List.map_nil, List.nil_append, List.cons_append] at hx6
              obtain ⟨_, _, j, j1, _, j2, _⟩ := texts_marked hx6
              cases j
              exact ⟨.inl (j1.trans hn2), fun _ => j2⟩
            | cons c cs =>
              simp only [List.flatMap_cons, SRule.pieces, hl2, List.map_cons, List.cons_append] at hx6
              obtain ⟨_, _, j, j1, _, j2, _⟩ := texts_marked hx6
              cases j
              exact ⟨.inr (.inl j1), fun _ => j2⟩
        cases vs with
        | nil => exact ⟨v, e1, e2 :: es, rfl, hvt⟩
        | cons w vs => exact ⟨v, w, _, rfl, hvt⟩
    obtain ⟨v, w, vs, hv1, hv2⟩ := hv
    rw [hv1] at l3
    have henv1 : EnvOf p1.env done := by rw [l4.1]; exact henv
    have hstart : r.assign = .eq → p1.env.exists? (enc r.name) = true →
        ∃ s, (p1.env.get (enc r.name)).start = .ok s := by
      intro ha hex
      have hk := henv1 (enc r.name)
      have hin : enc r.name ∈ seen := (hseen _).mpr (by rw [← envOf_exists henv1]; exact hex)
      unfold Env.get
      unfold Env.exists? at hex
      cases hfi : assocFind (enc r.name) p1.env.symbols with
      | none => rw [hfi] at hex; cases hex
      | some x =>
        rw [hfi] at hk
        cases hg : done.find? (fun r' => r'.assign = .eq ∧ enc r'.name = enc r.name) with
        | none => rw [hg] at hk; cases hk
        | some r0 =>
          rw [hg] at hk
          have hk' : noPos x = r0.body.node true := Option.some.inj hk
          have hmem := List.mem_of_find?_eq_some hg
          have hnm : enc r0.name = enc r.name := by
            have := List.find?_some hg
            simp at this
            exact this.2
          obtain ⟨s, hs⟩ := node_start (hdone r0 hmem) (fun hc => hcmp r0 (by simp [hmem]) hc (by
            rw [hnm]; unfold duplicates; simp [ha, hin]))
          rw [← hk'] at hs
          exact start_noPos x s hs
    obtain ⟨x, q, ds1, new1, a1, a2, a3, a4, a5, a6, a7, a8⟩ := rule_step (r := r) hname hw hpb (n := n) (p := p1)
      (acc := acc ++ xs1) (Prod.ext i1 (Prod.ext i2 i5)) (Prod.ext i3 (Prod.ext i4 i6)) hx5 l3 hv2.1 hv2.2 (by omega) henv1 hstart
    rw [← hv1] at a3
    have hex1 : p1.env.exists? (enc r.name) = decide (enc r.name ∈ seen) := by
      rw [envOf_exists henv1]
      by_cases h : enc r.name ∈ seen
      · rw [(hseen _).mp h]; simp [h]
      · have := mt (hseen _).mpr h
        simp [h]
        simpa using this
    obtain ⟨xs2, q2, ds2, new2, m2, b1, b9, b8, b2, b3, b4, b5, b6, b7⟩ := rules_pass he1 hec (n := n) rs (done := done ++ [r])
      (seen := if r.assign = .eq ∧ enc r.name ∉ seen then enc r.name :: seen else seen)
      (acc := acc ++ xs1 ++ [x]) (m := m1) (fun r' h => hrs r' (by simp [h]))
      (fun r' h => by
        rcases List.mem_append.mp h with h | h
        · exact hdone r' h
        · rw [List.mem_singleton.mp h]; exact hw)
      (fun r' h => hpc r' (by simp [h]))
      (fun r' h hc => fun hd => hcmp r' (by simpa [or_assoc] using h) hc (duplicates_mono rfl hd))
      (by
        intro k
        rw [List.find?_append]
        by_cases hk : r.assign = .eq ∧ enc r.name ∉ seen
        · rw [if_pos hk]
          by_cases hk' : k = enc r.name
          · subst hk'
            simp [hk.1]
          · have hk'' : ¬ (r.assign = .eq ∧ enc r.name = k) := fun h => hk' h.2.symm
            rw [List.mem_cons, hseen k]
            simp [hk', hk'']
        · rw [if_neg hk, hseen k]
          by_cases hk' : r.assign = .eq ∧ enc r.name = k
          · have hin : enc r.name ∈ seen := by
              by_cases h : enc r.name ∈ seen
              · exact h
              · exact absurd ⟨hk'.1, h⟩ hk
            have := (hseen _).mp hin
            rw [hk'.2] at this
            cases hfd : done.find? (fun r => r.assign = .eq ∧ enc r.name = k) with
            | none => rw [hfd] at this; cases this
            | some _ => simp
          · simp [hk'])
      a4 hx6 a3 (by omega) (by omega)
    refine ⟨xs1 ++ x :: xs2, q2, ds1 ++ ds2, new1 ++ new2, m2, ?_, ?_, b8, ?_, by simpa using b3, ?_, ?_, ?_, ?_⟩
    · rw [l1, loopOut, a1]
      dsimp only
      rw [b1]
      simp
    · omega
    · rw [noPosL_map, List.map_append, List.map_cons, ← noPosL_map, ← noPosL_map, l2, a2, b2]
      simp
    · rw [b4, a5, l4.2.1, List.append_assoc]
    · rw [List.map_append, a6, b5, hex1]
      conv => rhs; unfold duplicates
      by_cases h1 : r.assign = .eq
      · by_cases h2 : enc r.name ∈ seen
        · simp [h1, h2]
        · simp [h1, h2]
      · simp [h1]
    · rw [b6, a7, l4.2.2, List.append_assoc]
    · rw [List.filterMap_append, a8, b7]; simp

/-- The loop over the rules and the comments at the end. -/
theorem rules_loop {tail : List (List Char)} {e1 e2 : Token} (he1 : e1.tok = .EOF) {n : Nat}
    {rs : List SRule} {done : List SRule} {seen : List Bytes} {acc : List Node} {m : Nat} {p : PState} {ts}
    (hrs : ∀ r ∈ rs, word r.name = .IDENT ∧ r.body.WF)
    (hdone : ∀ r ∈ done, r.body.WF)
    (hpc : ∀ r ∈ rs, ∀ pc ∈ r.body.pieces, pc.WF)
    (hcmp : ∀ r ∈ done ++ rs, cmpBody r.body → enc r.name ∉ duplicates seen rs)
    (hseen : ∀ k, k ∈ seen ↔ (done.find? (fun r => r.assign = .eq ∧ enc r.name = k)).isSome = true)
    (henv : EnvOf p.env done)
    (hx : Texts ts (rs.flatMap SRule.pieces ++ tail.map (Piece.comment · false)))
    (hf : Feeds p (ts ++ [e1, e2]))
    (hn : (rs.flatMap SRule.pieces ++ tail.map (Piece.comment · false)).length + 3 ≤ n)
    (hm : (rs.flatMap SRule.pieces ++ tail.map (Piece.comment · false)).length + 1 ≤ m) :
    ∃ xs q ds new, loopOut (fileStep n) m (acc, p) = .ok (acc ++ xs, q) ∧
      noPosL xs = rs.flatMap (fun r => commentNodes r.lead ++ [r.node true]) ++ commentNodes tail ∧
      EnvOf q.env (done ++ rs) ∧ q.errors = p.errors ++ ds ∧
      ds.map (fun d => noPosMsg d.msg) = (duplicates seen rs).map (.existing · 0 0) ∧
      q.tasks = p.tasks ++ new ∧ new.filterMap Task.check = rs.flatMap (fun r : SRule => r.body.checks) := by
  obtain ⟨ts1, ts2, rfl, hx1, hx2⟩ := texts_append hx
  obtain ⟨g1, g2, g3⟩ := texts_comments hx2
  simp only [List.length_append, List.length_map] at hn hm
  have hv : ∃ v w vs, ts2 ++ [e1, e2] = v :: w :: vs ∧
      (v.tok = .IDENT ∨ v.tok = .COMMENT ∨ v.tok = .EOF) ∧ Calm v := by
    have hcalm : ∀ v vs, ts2 = v :: vs → Calm v := by
      rintro v vs rfl
      cases tail with
      | nil => cases hx2
      | cons c cs =>
        obtain ⟨_, _, j, _, _, j2, _⟩ := texts_marked (show Texts (v :: vs) (Piece.comment c false :: _) from hx2)
        cases j
        exact fun _ => j2
    match ts2, g1, hcalm with
    | [], _, _ => exact ⟨e1, e2, [], rfl, .inr (.inr he1), fun h => by rw [he1] at h; cases h⟩
    | [v], g1, h => exact ⟨v, e1, [e2], rfl, .inr (.inl (g1 v (by simp))), h _ _ rfl⟩
    | v :: w :: vs, g1, h => exact ⟨v, w, vs ++ [e1, e2], rfl, .inr (.inl (g1 v (by simp))), h _ _ rfl⟩
  obtain ⟨v, w, vs, hv1, hv2⟩ := hv
  rw [List.append_assoc, hv1] at hf
  obtain ⟨xs, q, ds, new, m', b1, b2, b3, b4, b5, b6, b7, b8, b9⟩ := rules_pass hv2.1 hv2.2 (n := n) rs (acc := acc) (m := m)
    hrs hdone hpc hcmp hseen henv hx1 hf (by omega) (by omega)
  rw [← hv1] at b3
  obtain ⟨m', rfl⟩ : ∃ k, m' = k + 1 := ⟨m' - 1, by omega⟩
  have stop : ∀ (acc : List Node) (q : PState) (k : Nat), Feeds q [e1, e2] →
      loopOut (fileStep n) (k + 1) (acc, q) = .ok (acc, q) := by
    intro acc q k hq
    rw [loopOut]
    unfold fileStep
    dsimp only
    rw [if_pos ((cur_of hq.1).1.trans he1)]
  by_cases hne : ts2 = []
  · subst hne
    have : tail = [] := List.length_eq_zero_iff.mp g3.symm
    subst this
    exact ⟨xs, q, ds, new, by rw [b1, stop _ q m' b3], by rw [b4]; simp [commentNodes], b5, b6, b7, b8, b9⟩
  · have hpos : 0 < ts2.length := List.length_pos_iff.mpr hne
    obtain ⟨q2, k1, k2, k3⟩ := comments_step (n := n) (acc := acc ++ xs) g1 hne b3 (by rw [he1]; decide) (by omega)
    obtain ⟨m', rfl⟩ : ∃ k, m' = k + 1 := ⟨m' - 1, by omega⟩
    refine ⟨xs ++ [commentNode (ts2.map fun c => ⟨c.pos, c.lit⟩)], q2, ds, new, ?_, ?_, ?_, ?_, b7, ?_, b9⟩
    · rw [b1, loopOut, k1, ← List.append_assoc]
      exact stop _ q2 m' k2
    · rw [noPosL_map, List.map_append, ← noPosL_map, ← noPosL_map, b4, commentNodes_of hne g2]
    · rw [k3.1]; exact b5
    · rw [k3.2.1]; exact b6
    · rw [k3.2.2]; exact b8

end

/-! ### Checks -/

omit [Unicode] in
theorem task_check {e : Env} {rs} (h : EnvOf e rs) (t : Task) :
    (runTask e t).map (fun d => noPosMsg d.msg) = t.check.bind (Check.failure (kindOf rs)) := by
  have hk := envOf_kind h
  have hget : ∀ k, e.exists? k = false → (e.get k).kind = .none := by
    intro k hk
    unfold Env.exists? at hk
    unfold Env.get
    cases hf : assocFind k e.symbols with
    | none => rfl
    | some x => rw [hf] at hk; cases hk
  have hgetD : ∀ k, (kindOf rs k).getD .none = (e.get k).kind := by
    intro k
    rw [hk k]
    cases he : e.exists? k with
    | true => rfl
    | false => simp [hget k he]
  cases t with
  | «exists» k pos =>
    simp only [runTask, Task.check, Option.bind_some, Check.failure, hk k]
    cases e.exists? k <;> simp [noPosMsg]
  | identBound tok l to =>
    cases to <;> simp only [runTask, Task.check, Option.bind_some, Option.bind_none, Check.failure, hgetD, Option.map_none]
    split <;> simp [noPosMsg]
  | intBound k s s' =>
    simp only [runTask, Task.check, Option.bind_some, Check.failure, hk k]
    cases e.exists? k with
    | false => simp [noPosMsg]
    | true => cases (e.get k).kind <;> simp [noPosMsg]
  | floatBound k s s' =>
    simp only [runTask, Task.check, Option.bind_some, Check.failure, hk k]
    cases e.exists? k with
    | false => simp [noPosMsg]
    | true => cases (e.get k).kind <;> simp [noPosMsg]

omit [Unicode] in
theorem tasks_checks {e : Env} {rs} (h : EnvOf e rs) (ts : List Task) :
    (ts.filterMap (runTask e)).map (fun d => noPosMsg d.msg) =
      (ts.filterMap Task.check).filterMap (Check.failure (kindOf rs)) := by
  rw [List.filterMap_filterMap, List.map_filterMap]
  congr 1
  funext t
  exact task_check h t

omit [Unicode] in
theorem pieces_wf : {ps : List (Piece × List Char)} → PiecesWF ps → ∀ pc ∈ ps.map (·.1), pc.WF
  | [], _ => by simp
  | e :: ps, ⟨w1, _, w3⟩ => by
    intro pc h
    rcases List.mem_cons.mp h with rfl | h
    · exact w1
    · exact pieces_wf w3 pc h

/-- `ParseFile` on a written schema. -/
theorem schema_parse {s : Schema} (hs : s.WF) {g : List Char} (hg : ∀ c ∈ g, ws c = true)
    {ps : List (Piece × List Char)} (hp : PiecesWF ps) (ho : ownLines ps) (he : ps.map (·.1) = s.pieces)
    {n : Nat} (hn : ps.length + 3 ≤ n) :
    ∃ rules res, parseSource n (enc (g ++ renderAll ps)) = .ok res ∧ res.cddl = some rules ∧
      noPosL rules = s.nodes true ∧ res.errs.map (fun d => noPosMsg d.msg) = s.errors := by
  obtain ⟨inst, p, ts, e1, e2, h1, h2, h3, h4, h5, h6, h7, h8, h9⟩ := new_feeds hg ps hp ho Env.new
  have hwf : ∀ pc ∈ s.pieces, pc.WF := by rw [← he]; exact pieces_wf hp
  have hlen : s.pieces.length = ps.length := by rw [← he]; simp
  rw [he] at h8
  obtain ⟨xs, q, ds, new, k1, k2, k3, k4, k5, k6, k7⟩ := rules_loop (tail := s.tail) h6 (n := n) (rs := s.rules) (done := [])
    (seen := []) (acc := []) (m := n) (p := p) (ts := ts) (fun r h => ⟨(hs r h).1, (hs r h).2.1⟩) (by simp)
    (fun r h pc hpc => hwf pc (by
      simp only [Schema.pieces, List.mem_append, List.mem_flatMap]
      exact .inl ⟨r, h, by simp [SRule.pieces, hpc]⟩))
    (fun r h hc => (hs r (by simpa using h)).2.2 hc) (by simp)
    (by intro k; rw [h2]; rfl) h8 h9 (by
      change (s.rules.flatMap SRule.pieces ++ s.tail.map (Piece.comment · false)).length = _ at hlen; omega) (by
      change (s.rules.flatMap SRule.pieces ++ s.tail.map (Piece.comment · false)).length = _ at hlen; omega)
  refine ⟨xs, ⟨some xs, q.runTasks.errors, q.runTasks⟩, ?_, rfl, k2, ?_⟩
  · unfold parseSource
    rw [h1]
    show p.parseFile n = _
    unfold parseFile
    rw [if_neg (by rw [h5]; simp)]
    show Out.bind (loopOut (fileStep n) n ([], p)) _ = _
    rw [k1]
    rfl
  · unfold runTasks Schema.errors
    dsimp only
    rw [List.map_append, k4, k6, h3, h4]
    simp only [List.nil_append]
    rw [k5, tasks_checks k3, k7]
    rfl

end Cddlc
