import Verif.Lemmas.CommentLines
import Verif.Props.Rfc
import Verif.Props.Uncomment

/-! C26 and C115: where comments can be put into a source. -/

namespace Cddlc
open Spec PState
variable [Unicode]

/-- Derivations of the tokens without comments, with the comments put in. -/
theorem rules_added {src : Bytes} {ts eof L rules ds cs} (hs : Scans (Lexer.new src) (ts ++ [eof]) L) (he : eof.tok = .EOF)
    (hw : WellPlaced (ts ++ [eof])) (hp : Separated ts) (h : Rules eof (code ts) rules ds cs) :
    ∃ rules' ds', Rules eof ts rules' ds' cs ∧ uncommented rules' = rules ∧ ds'.map (fun d => (d.1, noNotes d.2)) = ds := by
  have hec : eof.tok ≠ .COMMENT := by rw [he]; decide
  obtain ⟨rules', ds', h1, h2, h3⟩ := insert_rules hec h [] (deco ts).1 (deco ts).2 (deco_bare ts) (fit_deco hs he hw) (sep_deco hec hw hp)
  rw [deco_flat] at h1
  exact ⟨rules', ds', h1, h2, h3⟩

/-- **C26**, the other direction: if a source is accepted that has the tokens of another one but its comments, and the
comments of the other one stand where `Spec.Placed` allows them - in front of rules, entries, operands, and behind entries
and rules -, then the other one is accepted too, with the same rules up to positions and comments. -/
theorem C26_added_partial {src src' : Bytes} {ts ts' eof eof' L L'} {env : Env} {n' res' rules'}
    (hs : Scans (Lexer.new src) (ts ++ [eof]) L) (he : eof.tok = .EOF) (hc : ∀ t ∈ ts, t.tok ≠ .EOF)
    (hs' : Scans (Lexer.new src') (ts' ++ [eof']) L') (he' : eof'.tok = .EOF)
    (heq : ts'.map (fun t => (t.tok, t.lit)) = (code ts).map fun t => (t.tok, t.lit))
    (hw : WellPlaced (ts ++ [eof])) (hp : Separated ts)
    (hr : parseSource n' src' env = .ok res') (ht : res'.cddl = some rules') (hn : res'.errs = []) :
    ∃ n res rules, parseSource n src env = .ok res ∧ res.cddl = some rules ∧ res.errs = [] ∧
      noPosL (uncommented rules) = noPosL rules' := by
  have hcode : ∀ t ∈ code ts, t.tok ≠ .COMMENT := fun t ht => by simpa using (List.mem_filter.mp ht).2
  have hmem : ∀ t ∈ ts', t.tok ≠ .EOF ∧ t.tok ≠ .COMMENT := by
    intro t ht
    have : (t.tok, t.lit) ∈ (code ts).map fun t => (t.tok, t.lit) := heq ▸ List.mem_map_of_mem ht
    obtain ⟨u, hu, h⟩ := List.mem_map.mp this
    simp only [Prod.mk.injEq] at h
    exact ⟨fun hte => hc u (List.mem_filter.mp hu).1 (h.1.trans hte), fun hte => hcode u hu (h.1.trans hte)⟩
  obtain ⟨ds', cs, h1, h2, h3, h4⟩ := (C112_language hs' he' fun t ht => (hmem t ht).1).mp ⟨n', res', hr, ht, hn⟩
  have hec : eof'.tok ≠ .COMMENT := by rw [he']; decide
  have hle : spelling eof = spelling eof' := by
    rw [spelling_iff]
    exact ⟨he.trans he'.symm, (C03_eof_absorbing hs he).1.trans (C03_eof_absorbing hs' he').1.symm⟩
  obtain ⟨rules0, ds0, k1, k2, k3⟩ := respell_rules hec hle h1 (fun t ht => (hmem t ht).2) (code ts) heq.symm
  obtain ⟨rules, ds, i1, i2, i3⟩ := rules_added hs he hw hp k1
  have hd : ds.map (fun d => (d.1, d.2.kind)) = ds'.map (fun d => (d.1, d.2.kind)) := by
    have h5 := congrArg (List.map fun d => (d.1, d.2.kind)) k3
    have h6 := congrArg (List.map fun d => (d.1, d.2.kind)) i3
    simp only [noPosD, List.map_map, Function.comp_def, noPos_kind, noNotes_kind] at h5 h6
    exact h6.trans h5
  have hm : ds.map (·.1) = ds'.map (·.1) := by
    have := congrArg (List.map (·.1)) hd
    simpa [Function.comp_def] using this
  obtain ⟨n, res, j1, j2, j3⟩ := (C112_language (env := env) hs he hc).mpr
    ⟨ds, cs, i1, by rw [hm]; exact h2, fun d hd' => by
      have : d.1 ∈ ds'.map (·.1) := hm ▸ List.mem_map_of_mem hd'
      obtain ⟨e, he, h⟩ := List.mem_map.mp this
      rw [← h]
      exact h3 e he, by rw [declaredKind_same hd]; exact h4⟩
  exact ⟨n, res, rules, j1, j2, j3, by rw [i2]; exact k2⟩

/-- **C115** with comments: a file that without its comments follows the grammar of RFC 8610 and the conditions of
Spec/Rfc.lean, and whose comments stand where `Spec.Placed` allows them, is read like the file without comments is. -/
theorem C115_commented_partial {src : Bytes} {ts eof L rs} (hs : Scans (Lexer.new src) (ts ++ [eof]) L) (he : eof.tok = .EOF)
    (hw : WellPlaced (ts ++ [eof])) (hp : Separated ts) (hf : RfcFile true (code ts) rs) (hd : (assigned rs).Nodup) :
    ∃ N, ∀ n, N ≤ n → ∃ res rules, parseSource n src = .ok res ∧ res.cddl = some rules ∧
      (uncommented rules).map ruleName = rs.map (some ·.2) ∧ (∀ d ∈ res.errs, aboutNames d.msg = true) ∧
      ((∀ k, Uses (code ts ++ [eof]) k → k ∈ assigned rs) →
        (∀ t ∈ ts, t.tok ≠ .INCLUSIVE_BOUND ∧ t.tok ≠ .EXCLUSIVE_BOUND) → res.errs = []) := by
  obtain ⟨rules0, ds0, cs, h0, h2, h3'⟩ := rfc_rules he hf
  obtain ⟨rules, ds, h1, i2, i3⟩ := rules_added hs he hw hp h0
  have h3 : ds.map (·.1) = assigned rs := by
    have := congrArg (List.map (·.1)) i3
    simp only [List.map_map, Function.comp_def] at this
    exact this.trans h3'
  obtain ⟨N, h⟩ := C112_checks (env := .new) hs he h1 (h3 ▸ hd) (by simp [Env.new])
  refine ⟨N, fun n hn => ?_⟩
  obtain ⟨res, k1, k2, k3, -⟩ := h n hn
  refine ⟨res, rules, k1, k2, by rw [i2]; exact h2, ?_, fun hu hr => ?_⟩
  · intro d hm
    have hm : noPosMsg d.msg ∈ res.errs.map (noPosMsg ·.msg) := List.mem_map_of_mem hm
    rw [k3] at hm
    obtain ⟨c, -, hc⟩ := List.mem_filterMap.mp hm
    have : aboutNames (noPosMsg d.msg) = true := by
      revert hc
      generalize noPosMsg d.msg = m
      intro hc
      cases c <;> simp only [Check.failure] at hc <;> repeat (first | (split at hc) | (cases hc; rfl) | cases hc)
    revert this
    cases d.msg <;> exact id
  · rw [← List.map_eq_nil_iff, k3, List.filterMap_eq_nil_iff]
    intro c hc
    rcases rules_checked h0 c hc with ⟨k, rfl, hk⟩ | ⟨t, ht, h⟩
    · have := hu k hk
      rw [← h3, List.mem_map] at this
      obtain ⟨d, hd, rfl⟩ := this
      have : declaredKind (ds ++ Env.new.symbols) d.1 ≠ none := by
        unfold declaredKind
        simp only [ne_eq, Option.map_eq_none_iff, List.find?_eq_none, List.mem_append, decide_eq_true_eq]
        exact fun h => h d (.inl hd) rfl
      simp [Check.failure, this]
    · exact absurd h (by simp [hr t (List.mem_filter.mp ht).1])

/-! ### Examples -/

/-- `WellNested`, to compute it. -/
def wellNested (ts : List Token) : Bool := rise ts = 0 && (List.range (ts.length + 1)).all fun i => 0 ≤ rise (ts.take i)

omit [Unicode] in
theorem wellNested_sound {ts : List Token} (h : wellNested ts = true) : WellNested ts := by
  simp only [wellNested, Bool.and_eq_true, decide_eq_true_eq, List.all_eq_true, List.mem_range] at h
  refine ⟨h.1, fun V W e => ?_⟩
  have := h.2 V.length (by rw [e]; simp only [List.length_append]; omega)
  rwa [e, List.take_left] at this

/-- `FieldValue`, to compute it. -/
def fieldValue : Nat → List Token → Bool
  | 0, _ => false
  | n + 1, ts =>
    (match ts with
      | [] => false
      | [t] => t.tok ∉ .COMMA :: .HASH :: infixes ++ leftBrackets ++ rightBrackets
      | o :: us => o.tok ∈ leftBrackets && us.getLast?.any (·.tok ∈ rightBrackets) && wellNested us.dropLast &&
          us.dropLast.all (·.tok ≠ .HASH)) ||
    ((List.range ts.length).any fun i => match ts.drop i with
      | [] => false
      | op :: us => if op.tok ∈ separators then fieldValue n (ts.take i) && fieldValue n us else false) ||
    (match ts with
      | t :: op :: us => if (t.tok = .IDENT ∨ t.tok = .INT ∧ t.lit ≠ b!"int" ∨ t.tok = .FLOAT ∧ t.lit ≠ b!"float") ∧
          (op.tok = .INCLUSIVE_BOUND ∨ op.tok = .EXCLUSIVE_BOUND) then fieldValue n us else false
      | _ => false)

omit [Unicode] in
theorem fieldValue_sound {n : Nat} {ts : List Token} (h : fieldValue n ts = true) : FieldValue ts := by
  induction n generalizing ts with
  | zero => cases h
  | succ n ih =>
    simp only [fieldValue, Bool.or_eq_true] at h
    rcases h with (h | h) | h
    · match ts, h with
      | [t], h => exact .one (by simpa using h)
      | o :: u :: us, h =>
        simp only [Bool.and_eq_true, decide_eq_true_eq] at h
        obtain ⟨⟨⟨h1, h2⟩, h3⟩, h4⟩ := h
        generalize hv : u :: us = vs at *
        rcases List.eq_nil_or_concat vs with rfl | ⟨ws, c, rfl⟩
        · cases hv
        · rw [List.concat_eq_append] at *
          simp only [List.getLast?_append, List.getLast?_singleton, Option.some_or, Option.any_some, decide_eq_true_eq, List.dropLast_concat] at h2 h3 h4
          exact .list h1 h2 (wellNested_sound h3) (by simpa using h4)
    · obtain ⟨i, -, h⟩ := List.any_eq_true.mp h
      split at h
      · cases h
      · rename_i op us he
        split at h
        · rename_i ho
          rw [Bool.and_eq_true] at h
          have := FieldValue.more (ih h.1) ho (ih h.2)
          rwa [← he, List.take_append_drop] at this
        · cases h
    · split at h
      · split at h
        · rename_i h1
          exact .range h1.1 h1.2 (ih h)
        · cases h
      · cases h

/-- `EndsField`, to compute it. -/
def endsField (pre : List Token) : Bool :=
  (List.range pre.length).any fun i => match pre.drop i with
    | [] => false
    | op :: us => if op.tok = .COLON ∨ op.tok = .ARROW_MAP then
        fieldValue 3 us || us.getLast?.any (·.tok = .COMMA) && fieldValue 3 us.dropLast else false

omit [Unicode] in
theorem endsField_sound {pre : List Token} (h : endsField pre = true) : EndsField pre := by
  obtain ⟨i, -, h⟩ := List.any_eq_true.mp h
  split at h
  · cases h
  · rename_i op us he
    split at h
    case isFalse => cases h
    rename_i ho
    simp only [Bool.and_eq_true, Bool.or_eq_true] at h
    have e : pre = pre.take i ++ op :: us := by rw [← he, List.take_append_drop]
    rcases h with h2 | ⟨h2, h3⟩
    · exact ⟨pre.take i, op, us, [], by simpa using e, ho, fieldValue_sound h2, .inl rfl⟩
    · rcases List.eq_nil_or_concat us with rfl | ⟨ws, c, rfl⟩
      · cases h2
      · rw [List.concat_eq_append] at *
        simp only [List.getLast?_append, List.getLast?_singleton, Option.some_or, Option.any_some, decide_eq_true_eq, List.dropLast_concat] at h2 h3
        exact ⟨pre.take i, op, ws, [c], by simpa using e, ho, fieldValue_sound h3, .inr ⟨c, rfl, h2⟩⟩

/-- `Placed`, to compute it. -/
def placedHere (pre : List Token) (l : Token) (gs : List Token) (r : Token) : Bool :=
  decide (r.tok ∈ infixes → (r.tok = .ZERO_OR_MORE ∨ r.tok = .ONE_OR_MORE) ∧ l.tok ∈ breaks ∧
      (l.tok = .COMMA → ∀ g ∈ gs.take 1, g.pos.line ≠ l.pos.line)) &&
  decide (r.tok ≠ .COMMA) && decide (r.tok ∉ ruleSigns) &&
  decide (r.tok ∈ rightBrackets → gs.length = 1 ∧ (∀ g ∈ gs, l.pos.line = g.pos.line) ∧ endsField (pre ++ [l]) = true) &&
  decide (l.tok = .ZERO_OR_MORE ∨ l.tok = .ONE_OR_MORE → ¬ (r.tok = .INT ∧ r.lit ≠ b!"int")) &&
  decide (l.tok = .HASH → r.tok ≠ .INT ∧ r.tok ≠ .FLOAT) &&
  decide (r.tok = .LPAREN → l.tok ≠ .HASH ∧ ¬ (l.tok = .INT ∧ l.lit ≠ b!"int" ∨ l.tok = .FLOAT ∧ l.lit ≠ b!"float")) &&
  decide (l.tok ≠ .REGEXP)

omit [Unicode] in
theorem placedHere_sound {pre : List Token} {l gs r} (h : placedHere pre l gs r = true) : Placed pre l gs r := by
  simp only [placedHere, Bool.and_eq_true, decide_eq_true_eq] at h
  obtain ⟨⟨⟨⟨⟨⟨⟨h1, h2⟩, h3⟩, h4⟩, h5⟩, h6⟩, h7⟩, h8⟩ := h
  refine ⟨fun h => ?_, h2, h3, fun h => ?_, h5, h6, h7, h8⟩
  · refine ⟨(h1 h).1, (h1 h).2.1, fun hl g hg => (h1 h).2.2 hl g ?_⟩
    cases gs with
    | nil => cases hg
    | cons a gs => cases hg; simp
  · obtain ⟨k1, k2, k3⟩ := h4 h
    obtain ⟨g, rfl⟩ := List.length_eq_one_iff.mp k1
    exact ⟨g, rfl, k2 g (by simp), endsField_sound k3⟩

/-- `WellPlaced`, to compute it: `A` are the tokens before, `l` the one in front of the comments `gs`. -/
def wellPlaced (A : List Token) (l : Option Token) (gs : List Token) : List Token → Bool
  | [] => true
  | t :: ts =>
    if t.tok = .COMMENT then wellPlaced A l (gs ++ [t]) ts
    else if gs.isEmpty || l.all fun l => placedHere A l gs t then wellPlaced (A ++ l.toList) (some t) [] ts else false

omit [Unicode] in
theorem ite_both {b c : Bool} (h : (if b = true then c else false) = true) : b = true ∧ c = true := by
  cases b
  · cases h
  · exact ⟨rfl, h⟩

omit [Unicode] in
theorem wellPlaced_sound {ts : List Token} (h : wellPlaced [] none [] ts = true) : WellPlaced ts := by
  intro A l gs r B e hg hc hl hr
  have key : ∀ (A ts A0 : List Token) (l0 : Option Token) (gs0 : List Token), wellPlaced A0 l0 gs0 ts = true → ts = A ++ l :: gs ++ r :: B →
      Placed (A0 ++ l0.toList ++ code A) l gs r := by
    intro A
    induction A with
    | nil =>
      rintro ts A0 l0 gs0 h rfl
      simp only [List.nil_append, List.cons_append, wellPlaced, hl, if_false] at h
      have h := (ite_both h).2
      have k : ∀ gs gs1 : List Token, (∀ g ∈ gs, g.tok = .COMMENT) → gs1 ++ gs ≠ [] →
          wellPlaced (A0 ++ l0.toList) (some l) gs1 (gs ++ r :: B) = true → Placed (A0 ++ l0.toList) l (gs1 ++ gs) r := by
        intro gs
        induction gs with
        | nil =>
          intro gs1 _ hg h
          simp only [List.nil_append, wellPlaced, hr, if_false, Option.all_some] at h
          have h := ite_both h
          simp only [Bool.or_eq_true, List.isEmpty_iff] at h
          rw [List.append_nil] at *
          exact placedHere_sound (h.1.resolve_left hg)
        | cons g gs ih =>
          intro gs1 hc hg h
          simp only [List.cons_append, wellPlaced, hc g (by simp), if_true] at h
          have := ih (gs1 ++ [g]) (fun g hg => hc g (by simp [hg])) (by simp) h
          simpa using this
      have := k gs [] hc (by simpa using hg) h
      simpa [code] using this
    | cons a A ih =>
      rintro ts A0 l0 gs0 h rfl
      simp only [List.cons_append, wellPlaced] at h
      split at h
      · rename_i ha
        have := ih _ _ _ _ h (by simp)
        rwa [code_comment ha]
      · rename_i ha
        have := ih _ _ _ _ (ite_both h).2 (by simp)
        rw [code_cons ha]
        simpa using this
  simpa using key A ts [] none [] h e

/-- `Separated`, to compute it. -/
def separated : List Token → Bool
  | [] => true
  | l :: ts => (match ts with
      | g :: n :: a :: _ => l.tok = .COMMENT || g.tok ≠ .COMMENT || n.tok ≠ .IDENT || a.tok ∉ ruleSigns || l.pos.line ≠ g.pos.line
      | _ => true) && separated ts

omit [Unicode] in
theorem separated_sound {ts : List Token} (h : separated ts = true) : Separated ts := by
  intro A l g n a B e hl hg hn ha
  induction A generalizing ts with
  | nil =>
    subst e
    simp only [List.nil_append, separated, Bool.and_eq_true, Bool.or_eq_true, decide_eq_true_eq] at h
    simpa [hl, hg, hn, ha] using h.1
  | cons b A ih =>
    subst e
    simp only [List.cons_append, separated, Bool.and_eq_true] at h
    exact ih h.2 rfl

omit [Unicode] in
theorem wellPlaced_end {ts : List Token} {eof : Token} (he : eof.tok = .EOF) {A : List Token} {l : Option Token} {gs : List Token}
    (h : wellPlaced A l gs (ts ++ [⟨.EOF, {}, []⟩]) = true) : wellPlaced A l gs (ts ++ [eof]) = true := by
  induction ts generalizing A l gs with
  | nil =>
    simp only [List.nil_append, wellPlaced, he, reduceCtorEq, if_false] at h ⊢
    have : ∀ l, placedHere A l gs eof = placedHere A l gs ⟨.EOF, {}, []⟩ := by
      intro l
      simp [placedHere, he]
    simpa only [this] using h
  | cons t ts ih =>
    simp only [List.cons_append, wellPlaced] at h ⊢
    split
    · rename_i ht
      rw [if_pos ht] at h
      exact ih h
    · rename_i ht
      rw [if_neg ht] at h
      rw [if_pos (ite_both h).1]
      exact ih (ite_both h).2

set_option maxRecDepth 100000 in
set_option cbv.maxSteps 2000000 in
omit [Unicode] in
/-- `C26_added_partial` gives the tree of `commentedSource` from that of `bareSource`. -/
example : letI := asciiOnly; ∃ n res rules n' res' rules', parseSource n' bareSource = .ok res' ∧
    res'.cddl = some rules' ∧ rules'.length = 3 ∧ parseSource n commentedSource = .ok res ∧ res.cddl = some rules ∧ res.errs = [] ∧
    noPosL (uncommented rules) = noPosL rules' := by
  let := asciiOnly
  obtain ⟨res', rules', h1, h2, h3⟩ := of_parses (n := 60) (src := bareSource)
    (f := fun rules es => es.isEmpty && decide (rules.length = 3)) (by decide_cbv)
  have ht : ((tokensOf 39 commentedSource).any fun ts => wellPlaced [] none [] (ts ++ [⟨.EOF, {}, []⟩]) && separated ts &&
      (tokensOf 32 bareSource).any fun ts' => ts'.map (fun t => (t.tok, t.lit)) = (code ts).map fun t => (t.tok, t.lit)) = true := by
    decide_cbv
  have any : ∀ {α : Type} {o : Option α} {p : α → Bool}, o.any p = true → ∃ x, o = some x ∧ p x = true := by
    intro α o p h
    cases o with
    | none => cases h
    | some x => exact ⟨x, rfl, h⟩
  obtain ⟨ts, k1, k2⟩ := any ht
  simp only [Bool.and_eq_true] at k2
  obtain ⟨⟨k2, k3⟩, k4⟩ := k2
  obtain ⟨ts', k4, k5⟩ := any k4
  simp only [decide_eq_true_eq] at k5
  simp only [Bool.and_eq_true, List.isEmpty_iff, decide_eq_true_eq] at h3
  obtain ⟨eof, L, i1, i2, i3⟩ := tokensOf_scans k1
  obtain ⟨eof', L', j1, j2, -⟩ := tokensOf_scans k4
  obtain ⟨n, res, rules, l⟩ := C26_added_partial i1 i2 i3 j1 j2 k5 (wellPlaced_sound (wellPlaced_end i2 k2)) (separated_sound k3) h1 h2 h3.1
  exact ⟨n, res, rules, 60, res', rules', h1, h2, h3.2, l⟩

set_option maxRecDepth 100000 in
set_option cbv.maxSteps 2000000 in
omit [Unicode] in
/-- The same for a comment behind a field with a range, before a closing bracket. -/
example : letI := asciiOnly; ∃ n res rules n' res' rules', parseSource n' b!"a = [x: 1..5 / b]\nb = 2" = .ok res' ∧
    res'.cddl = some rules' ∧ rules'.length = 2 ∧ parseSource n b!"a = [x: 1..5 / b ; c\n]\nb = 2" = .ok res ∧
    res.cddl = some rules ∧ res.errs = [] ∧ noPosL (uncommented rules) = noPosL rules' := by
  let := asciiOnly
  obtain ⟨res', rules', h1, h2, h3⟩ := of_parses (n := 60) (src := b!"a = [x: 1..5 / b]\nb = 2")
    (f := fun rules es => es.isEmpty && decide (rules.length = 2)) (by decide_cbv)
  have ht : ((tokensOf 15 b!"a = [x: 1..5 / b ; c\n]\nb = 2").any fun ts => wellPlaced [] none [] (ts ++ [⟨.EOF, {}, []⟩]) && separated ts &&
      (tokensOf 14 b!"a = [x: 1..5 / b]\nb = 2").any fun ts' => ts'.map (fun t => (t.tok, t.lit)) = (code ts).map fun t => (t.tok, t.lit)) = true := by
    decide_cbv
  have any : ∀ {α : Type} {o : Option α} {p : α → Bool}, o.any p = true → ∃ x, o = some x ∧ p x = true := by
    intro α o p h
    cases o with
    | none => cases h
    | some x => exact ⟨x, rfl, h⟩
  obtain ⟨ts, k1, k2⟩ := any ht
  simp only [Bool.and_eq_true] at k2
  obtain ⟨⟨k2, k3⟩, k4⟩ := k2
  obtain ⟨ts', k4, k5⟩ := any k4
  simp only [decide_eq_true_eq] at k5
  simp only [Bool.and_eq_true, List.isEmpty_iff, decide_eq_true_eq] at h3
  obtain ⟨eof, L, i1, i2, i3⟩ := tokensOf_scans k1
  obtain ⟨eof', L', j1, j2, -⟩ := tokensOf_scans k4
  obtain ⟨n, res, rules, l⟩ := C26_added_partial i1 i2 i3 j1 j2 k5 (wellPlaced_sound (wellPlaced_end i2 k2)) (separated_sound k3) h1 h2 h3.1
  exact ⟨n, res, rules, 60, res', rules', h1, h2, h3.2, l⟩

set_option maxRecDepth 100000 in
set_option cbv.maxSteps 2000000 in
omit [Unicode] in
/-- A file with comments at its beginning, behind a bracket, behind an entry and between rules is read. -/
example : letI := asciiOnly; ∃ N, ∀ n, N ≤ n → ∃ res rules,
    parseSource n b!"; doc\na = [ ; first\n b, c: tstr ; last\n] ; one\n; two\nb = int" = .ok res ∧
    res.cddl = some rules ∧ (uncommented rules).map ruleName = [some b!"a", some b!"b"] ∧ res.errs = [] := by
  let := asciiOnly
  have h1 := Rfc.array (strict := true) (o := ⟨.LBRACK, ⟨10, 2, 5, []⟩, b!"["⟩) (c := ⟨.RBRACK, ⟨39, 4, 1, []⟩, b!"]"⟩) rfl rfl (.lastGroup
    (.more (sep := [⟨.COMMA, ⟨22, 3, 3, []⟩, b!","⟩]) (.once (.keyless (.last (.plain (.name (t := ⟨.IDENT, ⟨21, 3, 2, []⟩, b!"b"⟩) (.inl (by decide)) fun _ => .inl rfl)))))
      (.inr ⟨_, rfl, rfl⟩)
      (.more (sep := []) (us := []) (.once (.colon (k := ⟨.IDENT, ⟨24, 3, 5, []⟩, b!"c"⟩) (c := ⟨.COLON, ⟨25, 3, 6, []⟩, b!":"⟩) (.inl (.inl (by decide))) rfl
        (.last (.plain (.name (t := ⟨.TSTR, ⟨27, 3, 8, []⟩, b!"tstr"⟩) (.inl (by decide)) fun _ => .inr ⟨_, .text (.inl rfl)⟩))) fun _ => ⟨.inl rfl, .inl rfl⟩))
        (.inl rfl) .noMore (fun _ _ _ _ _ h => nomatch h)) fun _ h => nomatch h))
  have hr := RfcFile.rule (n := ⟨.IDENT, ⟨6, 2, 1, []⟩, b!"a"⟩) (params := []) (a := ⟨.ASSIGN, ⟨8, 2, 3, []⟩, b!"="⟩) (.inl (by decide)) (.inl rfl)
    (.inl ⟨rfl, .inl rfl⟩) (.last (.plain h1)) (fun _ => rfl)
    (RfcFile.rule (n := ⟨.IDENT, ⟨53, 6, 1, []⟩, b!"b"⟩) (params := []) (us := []) (a := ⟨.ASSIGN, ⟨55, 6, 3, []⟩, b!"="⟩) (.inl (by decide)) (.inl rfl)
      (.inl ⟨rfl, .inl rfl⟩) (.last (.plain (.name (t := ⟨.INT, ⟨57, 6, 5, []⟩, b!"int"⟩) (.inr (.inl (by decide))) fun _ => .inr ⟨_, .int rfl rfl⟩))) (fun _ => rfl) .nil)
  obtain ⟨eof, L, hs, he, -⟩ := tokensOf_scans (n := 17) (src := b!"; doc\na = [ ; first\n b, c: tstr ; last\n] ; one\n; two\nb = int") (ts := _) (by
    refine Eq.trans (b := some [⟨.COMMENT, ⟨0, 1, 1, []⟩, b!" doc"⟩, ⟨.IDENT, ⟨6, 2, 1, []⟩, b!"a"⟩, ⟨.ASSIGN, ⟨8, 2, 3, []⟩, b!"="⟩,
      ⟨.LBRACK, ⟨10, 2, 5, []⟩, b!"["⟩, ⟨.COMMENT, ⟨12, 2, 7, []⟩, b!" first"⟩, ⟨.IDENT, ⟨21, 3, 2, []⟩, b!"b"⟩, ⟨.COMMA, ⟨22, 3, 3, []⟩, b!","⟩,
      ⟨.IDENT, ⟨24, 3, 5, []⟩, b!"c"⟩, ⟨.COLON, ⟨25, 3, 6, []⟩, b!":"⟩, ⟨.TSTR, ⟨27, 3, 8, []⟩, b!"tstr"⟩, ⟨.COMMENT, ⟨32, 3, 13, []⟩, b!" last"⟩,
      ⟨.RBRACK, ⟨39, 4, 1, []⟩, b!"]"⟩, ⟨.COMMENT, ⟨41, 4, 3, []⟩, b!" one"⟩, ⟨.COMMENT, ⟨47, 5, 1, []⟩, b!" two"⟩,
      ⟨.IDENT, ⟨53, 6, 1, []⟩, b!"b"⟩, ⟨.ASSIGN, ⟨55, 6, 3, []⟩, b!"="⟩, ⟨.INT, ⟨57, 6, 5, []⟩, b!"int"⟩]) (by decide_cbv) rfl)
  obtain ⟨N, h⟩ := C115_commented_partial hs he (wellPlaced_sound (wellPlaced_end he (by decide_cbv))) (separated_sound (by decide_cbv)) hr (by decide)
  refine ⟨N, fun n hn => ?_⟩
  obtain ⟨res, rules, k1, k2, k3, -, k4⟩ := h n hn
  refine ⟨res, rules, k1, k2, k3, k4 (fun k h => ?_) (by decide)⟩
  have := uses_computed h
  simp [usedNames, code] at this
  rcases this with rfl | rfl | rfl <;> decide

end Cddlc
