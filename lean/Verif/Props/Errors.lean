import Verif.Lemmas.ErrFile
import Verif.Props.Total

/-! Properties of the diagnostics: C20, C21, C22, C33, C56. -/

namespace Cddlc
open Spec

variable [Unicode]

/-! ### C20 -/

/-- **C20** (what is returned): the errors returned are those of `Errors()`, so `ParseFile` returns
nil errors exactly when none is recorded. -/
theorem C20_returned {n : Nat} {src : Bytes} {env : Env} {res : PState.FileResult}
    (h : parseSource n src env = .ok res) : res.errs = res.final.errors := by
  obtain ⟨p, _, _, _, h3, _, _, hc⟩ := parseSource_run res h
  rcases hc with ⟨_, rfl⟩ | ⟨_, rules', q, hr, rfl⟩
  · exact h3.symm
  · rfl

/-- The two parts of the diagnostics. -/
theorem diag_parts {n : Nat} {src : Bytes} {env : Env} {res : PState.FileResult}
    (h : parseSource n src env = .ok res) : ∃ a b, res.errs = a ++ b ∧
      (∀ d ∈ a, DiagOK (Lexer.new src) d ∨ Redeclared (Lexer.new src) res.final.env d) ∧
      (∀ d ∈ b, CheckDiag (Lexer.new src) res.final.env d) := by
  obtain ⟨p, h0, _, _, h3, h4, _, hc⟩ := parseSource_run res h
  rcases hc with ⟨_, rfl⟩ | ⟨_, rules', q, hr, rfl⟩
  · exact ⟨[], [], rfl, fun d hd => (List.not_mem_nil hd).elim, fun d hd => (List.not_mem_nil hd).elim⟩
  · have hs : Sound (Lexer.new src) q := run_sound hr
      ⟨⟨h0, by rw [h4]; exact fun d hd => (List.not_mem_nil hd).elim, new_spells src⟩,
        by rw [h3]; exact fun d hd => (List.not_mem_nil hd).elim⟩
    refine ⟨q.errors, q.tasks.filterMap (PState.runTask q.env), rfl, hs.2, ?_⟩
    intro d hd
    obtain ⟨t, ht, hd⟩ := List.mem_filterMap.mp hd
    exact runTask_diag (hs.1.2.1 t ht) hd

/-- **C20** (order): the diagnostics fall into two parts. Those found while reading rules come
first; each is at a token, and none is about an undeclared name or the kinds of named bounds. Those
of the deferred checks follow; each is at an identifier, and what it says is true of the final
environment. -/
theorem C20_order {n : Nat} {src : Bytes} {env : Env} {res : PState.FileResult}
    (h : parseSource n src env = .ok res) : ∃ a b, res.errs = a ++ b ∧
      (∀ d ∈ a, onlyDeferred d.msg = false ∧ ∃ t, Tk (Lexer.new src) t ∧ t.pos = d.start) ∧
      (∀ d ∈ b, CheckDiag (Lexer.new src) res.final.env d) := by
  obtain ⟨a, b, he, ha, hb⟩ := diag_parts h
  refine ⟨a, b, he, fun d hd => ?_, hb⟩
  rcases ha d hd with hd | ⟨k, s, h1, _, ⟨ts, t, l', h2, _⟩, _⟩
  · exact ⟨hd.2.1, hd.1⟩
  · rw [h1]
    obtain ⟨l1, h2, _⟩ := scans_split (ts := ts ++ [⟨.IDENT, d.start, k⟩]) (us := [t]) (by simpa using h2)
    exact ⟨rfl, _, ⟨ts, l1, h2⟩, rfl⟩

/-- Every diagnostic starts at a token. -/
theorem diag_tk {n : Nat} {src : Bytes} {env : Env} {res : PState.FileResult}
    (h : parseSource n src env = .ok res) {d} (hd : d ∈ res.errs) :
    ∃ t, Tk (Lexer.new src) t ∧ t.pos = d.start := by
  obtain ⟨a, b, he, ha, hb⟩ := C20_order h
  rw [he] at hd
  rcases List.mem_append.mp hd with hd | hd
  · exact (ha d hd).2
  · obtain ⟨name, hk, _⟩ := hb d hd
    exact ⟨_, hk, rfl⟩

/-! ### C33 -/

omit [Unicode] in
/-- The line of an offset is among the lines of the source. -/
theorem splitLines_get (src : Bytes) (o : Nat) :
    (splitLines src)[(src.take o).count 10]? = some (before src o ++ behind src o) := by
  unfold before behind
  induction src generalizing o with
  | nil => simp [splitLines]
  | cons c s ih =>
    cases o with
    | zero =>
      have h0 := ih 0
      simp only [List.take_zero, List.count_nil, List.reverse_nil, List.takeWhile_nil, List.nil_append,
        List.drop_zero] at h0 ⊢
      unfold splitLines
      by_cases hc : c = 10
      · simp [hc]
      · rw [if_neg hc]
        split
        · rename_i hs; rw [hs] at h0; cases h0
        · rename_i line rest hs
          rw [hs] at h0
          simp only [List.length_cons, Nat.zero_lt_succ, getElem?_pos, List.getElem_cons_zero, Option.some.injEq] at h0 ⊢
          rw [List.takeWhile_cons_of_pos (by simpa using hc), h0]
    | succ o =>
      have h0 := ih o
      simp only [List.take_succ_cons, List.reverse_cons, List.drop_succ_cons] at h0 ⊢
      generalize ht : s.take o = t at h0 ⊢
      have hz : ∀ {t : Bytes}, t.count 10 = 0 → ∀ x ∈ t.reverse, decide (x ≠ (10 : UInt8)) = true := by
        intro t h x hx
        have := List.count_eq_zero.mp h
        simp only [decide_eq_true_eq]
        intro hx'; subst hx'; exact this (List.mem_reverse.mp hx)
      have self : ∀ {u : Bytes}, (∀ x ∈ u, decide (x ≠ (10 : UInt8)) = true) →
          u.takeWhile (fun x => decide (x ≠ (10 : UInt8))) = u := by
        intro u hu
        have := List.takeWhile_append_of_pos (l₂ := []) hu
        simpa using this
      have hnz : ∀ {t : Bytes} (u : Bytes), t.count 10 ≠ 0 →
          (t.reverse ++ u).takeWhile (fun x => decide (x ≠ (10 : UInt8))) =
            t.reverse.takeWhile (fun x => decide (x ≠ (10 : UInt8))) := by
        intro t u h
        rw [List.takeWhile_append, if_neg]
        intro hl
        refine h (List.count_eq_zero.mpr fun hm => ?_)
        have : ∀ x ∈ t.reverse, decide (x ≠ (10 : UInt8)) = true := by
          have he : t.reverse.takeWhile (fun x => decide (x ≠ (10 : UInt8))) = t.reverse :=
            (List.takeWhile_prefix _).eq_of_length hl
          intro x hx
          rw [← he] at hx
          exact List.all_eq_true.mp List.all_takeWhile x hx
        have := this 10 (List.mem_reverse.mpr hm)
        simp at this
      unfold splitLines
      by_cases hc : c = 10
      · subst hc
        rw [if_pos rfl, List.count_cons_self, List.getElem?_cons_succ, h0]
        congr 3
        by_cases h : t.count 10 = 0
        · rw [List.takeWhile_append_of_pos (hz h), List.takeWhile_cons_of_neg (by simp), List.append_nil,
            self (hz h)]
        · rw [hnz _ h]
      · rw [if_neg hc, List.count_cons_of_ne hc]
        split
        · rename_i hs; rw [hs] at h0; simp at h0
        · rename_i line rest hs
          rw [hs] at h0
          by_cases h : t.count 10 = 0
          · rw [h] at h0 ⊢
            rw [List.takeWhile_append_of_pos (hz h), List.takeWhile_cons_of_pos (by simpa using hc),
              List.takeWhile_nil]
            rw [self (hz h)] at h0
            simp at h0 ⊢
            exact h0
          · rw [hnz _ h]
            cases hk : t.count 10 with
            | zero => exact absurd hk h
            | succ k => rw [hk] at h0; exact h0

omit [Unicode] in
theorem splitLines_length (src : Bytes) : (splitLines src).length = 1 + src.count 10 := by
  induction src with
  | nil => rfl
  | cons c s ih =>
    unfold splitLines
    by_cases hc : c = 10
    · subst hc; rw [if_pos rfl, List.length_cons, ih, List.count_cons_self]; omega
    · rw [if_neg hc, List.count_cons_of_ne hc]
      split
      · rename_i h; rw [h] at ih; simp at ih; omega
      · rename_i h; rw [h] at ih; exact ih

/-- **C33** (positions): every diagnostic starts at a byte offset of the source (or its end), with
the line and column of that offset; so the line is between 1 and the number of lines. -/
theorem C33_positions {n : Nat} {src : Bytes} {env : Env} {res : PState.FileResult}
    (h : parseSource n src env = .ok res) : ∀ d ∈ res.errs, ∃ o : Nat, o ≤ src.length ∧
      d.start = { offset := o, line := lineAt src o, column := colAt src o } ∧
      1 ≤ d.start.line ∧ d.start.line ≤ 1 + src.count 10 := by
  intro d hd
  obtain ⟨t, ⟨ts, l', hs⟩, hp⟩ := diag_tk h hd
  obtain ⟨o, ho, hpos⟩ := C04_positions hs t (by simp)
  rw [hp] at hpos
  have : (src.take o).count 10 ≤ src.count 10 := (List.take_sublist o src).count_le _
  refine ⟨o, ho, hpos, ?_⟩
  rw [hpos]
  simp only [lineAt]
  omega

/-- **C33** (rendering): for every text of the messages the command-line renderer returns, with one
block for each diagnostic in order: the message, the line of the source with its number, and a
tilde under the byte the diagnostic points at. -/
theorem C33_rendered {n : Nat} {src : Bytes} {env : Env} {res : PState.FileResult} (text : Msg → Bytes)
    (h : parseSource n src env = .ok res) :
    errorStringer text src res.errs =
      .ok (res.errs.map fun d => shown text src d.msg d.start.offset.toNat) := by
  have hb : ∀ d ∈ res.errs, errorBlock text (splitLines src) d =
      .ok [shown text src d.msg d.start.offset.toNat] := by
    intro d hd
    obtain ⟨o, ho, hpos, h1, h2⟩ := C33_positions h d hd
    have hl : d.start.line = lineAt src o := by rw [hpos]
    have hcol : d.start.column = colAt src o := by rw [hpos]
    have hoff : d.start.offset.toNat = o := by rw [hpos]; rfl
    unfold errorBlock
    rw [if_pos (by rw [splitLines_length]; omega), if_neg (by omega)]
    have hi : (d.start.line - 1).toNat = (src.take o).count 10 := by rw [hl]; unfold lineAt; omega
    rw [hi, splitLines_get, hoff]
    have hw : (d.start.column + (linePrefix d.start.line).length - 1).toNat =
        (b!"    " ++ decNat (lineAt src o) ++ b!" | ").length + (before src o).length := by
      rw [hcol, hl]
      unfold colAt before linePrefix
      rw [show decInt ((lineAt src o : Nat) : Int) = decNat (lineAt src o) from rfl]
      generalize (b!"    " ++ decNat (lineAt src o) ++ b!" | ").length = m
      rw [List.length_reverse]
      omega
    show Out.ok [_] = Out.ok [_]
    unfold caret
    rw [hw, hl]
    unfold linePrefix shown Diag.string
    rw [show decInt ((lineAt src o : Nat) : Int) = decNat (lineAt src o) from rfl]
    simp only [List.append_assoc]
  have key : ∀ (ds : List Diag) outs, (∀ d ∈ ds, errorBlock text (splitLines src) d =
      .ok [shown text src d.msg d.start.offset.toNat]) →
      errorBlocks text (splitLines src) ds outs =
        .ok (outs ++ ds.map fun d => shown text src d.msg d.start.offset.toNat) := by
    intro ds
    induction ds with
    | nil => intro outs _; simp [errorBlocks]
    | cons d ds ih =>
      intro outs hd
      unfold errorBlocks
      rw [hd d (by simp)]
      show errorBlocks text (splitLines src) ds _ = _
      rw [ih _ (fun e he => hd e (by simp [he]))]
      simp
  have := key res.errs [] hb
  simpa [errorStringer] using this

/-! ### C21, C22 -/

omit [Unicode] in
theorem new_errors (src : Bytes) : (Lexer.new src).errors = [] := by
  unfold Lexer.new Lexer.next
  split
  · rfl
  · dsimp only
    split <;> rfl

/-- **C21**: `ParseFile` returns no tree exactly if one of the first two tokens is a string cut off
by a newline or the end of the source; it then returns no error either, and leaves the environment
as it was. -/
theorem C21_no_tree {n : Nat} {src : Bytes} {env : Env} {res : PState.FileResult} (hc : Clean src)
    (h : parseSource n src env = .ok res) :
    (res.cddl = none → res.errs = [] ∧ res.final.env = env) ∧
    ∃ t rest, Tiles 0 [t] src rest ∧
      (res.cddl = none ↔ stringError src.length src ≠ [] ∨ stringError src.length rest ≠ []) := by
  obtain ⟨p, _, hs, h2, _, _, _, hcase⟩ := parseSource_run res h
  constructor
  · intro ht
    rcases hcase with ⟨_, rfl⟩ | ⟨_, rules', q, hr, rfl⟩
    · exact ⟨rfl, h2⟩
    · cases ht
  · unfold Synced at hs
    obtain ⟨l1, hs1, hs2⟩ := scans_split (ts := [p.curTok]) (us := [p.peekTok]) hs
    obtain ⟨rest0, ht0, he0⟩ := C10_errors hc (Scans.nil _)
    cases ht0
    obtain ⟨rest, ht, he1⟩ := C10_errors hc hs1
    refine ⟨_, rest, ht, ?_⟩
    have e1 : l1.errors = stringError src.length src := by
      cases hs1 with
      | cons h1 h2 => cases h2; rw [he0 _ _ _ _ h1, new_errors]; rfl
    have e2 : p.lx.errors = l1.errors ++ stringError src.length rest := by
      cases hs2 with
      | cons h1 h2 => cases h2; exact he1 _ _ _ _ h1
    have e3 : p.lx.errors ≠ [] ↔ stringError src.length src ≠ [] ∨ stringError src.length rest ≠ [] := by
      rw [e2, e1, Ne, List.append_eq_nil_iff]
      exact Classical.not_and_iff_not_or_not
    rw [← e3]
    rcases hcase with ⟨hne, rfl⟩ | ⟨hnil, rules', q, hr, rfl⟩
    · exact ⟨fun _ => hne, fun _ => rfl⟩
    · exact ⟨nofun, fun h => absurd hnil h⟩

/-- **C21** (at once): whatever follows these two tokens, `ParseFile` returns. -/
theorem C21_immediate {n : Nat} {src : Bytes} {env : Env} {a b : Token} {l : Lexer}
    (hs : Scans (Lexer.new src) [a, b] l) (he : l.errors ≠ []) :
    ∃ res, parseSource n src env = .ok res ∧ res.cddl = none ∧ res.errs = [] ∧ res.final.env = env := by
  cases hs with
  | cons h1 hs =>
  cases hs with
  | cons h2 hs =>
  cases hs
  obtain ⟨p, hp, henv, hlx⟩ : ∃ p, PState.new (Lexer.new src) env = .ok p ∧ p.env = env ∧ p.lx = l := by
    unfold PState.new PState.next
    simp only [h1, h2, Out.bind_def, Out.bind]
    exact ⟨_, rfl, rfl, rfl⟩
  refine ⟨⟨none, [], p⟩, ?_, rfl, rfl, henv⟩
  unfold parseSource PState.parseFile
  rw [hp]
  show (if p.lx.errors ≠ [] then _ else _) = _
  rw [if_pos (by rw [hlx]; exact he)]

omit [Unicode] in
/-- **C22** is false: scanning records an error, and `ParseFile` reports none. -/
theorem C22_refuted : letI := asciiOnly; Clean b!"a = \"x" ∧ ∃ ts l,
    Scans (Lexer.new b!"a = \"x") ts l ∧ l.errors.length = 1 ∧
    ∃ res rules, parseSource 30 b!"a = \"x" = .ok res ∧ res.cddl = some rules ∧ res.errs = [] := by
  letI := asciiOnly
  refine ⟨clean_enc (cs := "a = \"x".toList) (by decide), ?_⟩
  obtain ⟨res, rules, h1, h2, h3⟩ := of_parses (n := 30) (src := b!"a = \"x")
    (f := fun rules errs => decide (errs = [])) (by decide_cbv)
  exact ⟨_, _, scanList_scans (n := 3) rfl, rfl, res, rules, h1, h2, of_decide_eq_true h3⟩

/-- **C22**, what holds: an error of the lexer within the first two tokens keeps `ParseFile` from
returning a tree. -/
theorem C22_first_two_partial {n : Nat} {src : Bytes} {env : Env} {a b : Token} {l : Lexer}
    (hs : Scans (Lexer.new src) [a, b] l) (he : l.errors ≠ []) {res : PState.FileResult}
    (h : parseSource n src env = .ok res) : res.cddl = none := by
  obtain ⟨res', h', h2, _⟩ := C21_immediate (n := n) (env := env) hs he
  rw [h] at h'; cases h'; exact h2

/-! ### C56 -/

/-- **C56**: calling `ParseFile` again on the same parser. If the lexer recorded no error, it
returns an empty tree and all diagnostics again, followed by those of the deferred checks once more;
if it did, it returns nothing at all. -/
theorem C56_again {n m : Nat} {src : Bytes} {env : Env} {res : PState.FileResult} {rules}
    (h : parseSource n src env = .ok res) (ht : res.cddl = some rules) (hm : 1 ≤ m) :
    ∃ a b res', PState.parseFile m res.final = .ok res' ∧ res.errs = a ++ b ∧
      (∀ d ∈ a, onlyDeferred d.msg = false) ∧
      (∀ d ∈ b, CheckDiag (Lexer.new src) res.final.env d) ∧
      res'.final.env = res.final.env ∧
      (res.final.lx.errors = [] → res'.cddl = some [] ∧ res'.errs = a ++ b ++ b) ∧
      (res.final.lx.errors ≠ [] → res'.cddl = none ∧ res'.errs = []) := by
  obtain ⟨p, h0, _, _, h3, h4, _, hc⟩ := parseSource_run res h
  rcases hc with ⟨_, rfl⟩ | ⟨_, rules', q, hr, rfl⟩
  · cases ht
  · have hs : Sound (Lexer.new src) q := run_sound hr
      ⟨⟨h0, by rw [h4]; exact fun d hd => (List.not_mem_nil hd).elim, new_spells src⟩, by rw [h3]; exact fun d hd => (List.not_mem_nil hd).elim⟩
    have hcur : q.runTasks.cur = .EOF := (run_end hr h0).2
    have hb : ∀ d ∈ q.tasks.filterMap (PState.runTask q.env), CheckDiag (Lexer.new src) q.env d := by
      intro d hd
      obtain ⟨t, ht, hd⟩ := List.mem_filterMap.mp hd
      exact runTask_diag (hs.1.2.1 t ht) hd
    obtain ⟨m, rfl⟩ : ∃ k, m = k + 1 := ⟨m - 1, by omega⟩
    by_cases he : q.runTasks.lx.errors = []
    · refine ⟨q.errors, q.tasks.filterMap (PState.runTask q.env), ⟨some [], q.runTasks.runTasks.errors, q.runTasks.runTasks⟩,
        ?_, rfl, hs.immediate, hb, rfl, fun _ => ⟨rfl, rfl⟩, fun h => absurd he h⟩
      unfold PState.parseFile
      rw [if_neg (fun h => h he)]
      have : loopOut (PState.fileStep (m + 1)) (m + 1) ([], q.runTasks) = .ok ([], q.runTasks) := by
        unfold loopOut PState.fileStep
        rw [if_pos hcur]
      rw [this]
      rfl
    · refine ⟨q.errors, q.tasks.filterMap (PState.runTask q.env), ⟨none, [], q.runTasks⟩,
        ?_, rfl, hs.immediate, hb, rfl, fun h => absurd h he, fun _ => ⟨rfl, rfl⟩⟩
      unfold PState.parseFile
      rw [if_pos he]

/-! ### C60, C61: the commands `lex` and `parse` -/

/-- The line `cddlc lex` prints for a token. -/
def Spec.tokenLine (t : Token) : Bytes := t.pos.string ++ b!": " ++ t.tok.string ++ b!" -> " ++ t.lit ++ b!"\n"

/-- The loop of `LexerCmd`. -/
theorem lexLoop (n : Nat) (l : Lexer) (k : Nat) (out : List Bytes) (k' : Nat) (out' : List Bytes) :
    loopOut lexStep n (l, k, out) = .ok (k', out') ↔ ∃ ts t l', Scans l (ts ++ [t]) l' ∧
      (∀ u ∈ ts, u.tok ≠ .EOF) ∧ t.tok = .EOF ∧ ts.length < n ∧
      out' = out ++ (ts ++ [t]).map tokenLine ∧ k' = k + (ts.filter (·.tok = .ILLEGAL)).length := by
  induction n generalizing l k out with
  | zero => simp [loopOut]
  | succ n ih =>
    unfold loopOut lexStep
    cases hs : l.scan with
    | panic w =>
      simp only [Out.bind_def, Out.bind, reduceCtorEq, false_iff]
      rintro ⟨ts, t, l', h, _⟩
      cases ts <;> (cases h; simp_all)
    | hang =>
      simp only [Out.bind_def, Out.bind, reduceCtorEq, false_iff]
      rintro ⟨ts, t, l', h, _⟩
      cases ts <;> (cases h; simp_all)
    | ok r =>
      obtain ⟨tok, pos, lit, l1⟩ := r
      simp only [Out.bind_def, Out.bind]
      by_cases he : tok = .EOF
      · rw [if_pos he]
        constructor
        · intro h
          cases h
          exact ⟨[], ⟨tok, pos, lit⟩, l1, .cons hs (.nil _), nofun, he, by simp, rfl, rfl⟩
        · rintro ⟨ts, t, l', h, hne, _, _, h1, h2⟩
          cases ts with
          | nil =>
            cases h with
            | cons h _ => rw [hs] at h; cases h; rw [h1, h2]; rfl
          | cons u ts =>
            cases h with
            | cons h _ => rw [hs] at h; cases h; exact absurd he (hne ⟨tok, pos, lit⟩ (List.mem_cons_self ..))
      · rw [if_neg he]
        show loopOut lexStep n _ = _ ↔ _
        rw [ih]
        constructor
        · rintro ⟨ts, t, l', h, hne, ht, hn, h1, h2⟩
          refine ⟨⟨tok, pos, lit⟩ :: ts, t, l', .cons hs h, ?_, ht, by simp; omega, ?_, ?_⟩
          · intro u hu
            rcases List.mem_cons.mp hu with rfl | hu
            · exact he
            · exact hne u hu
          · rw [h1]; simp [tokenLine]
          · rw [h2, List.filter_cons]
            by_cases hi : tok = .ILLEGAL
            · simp [hi]; omega
            · simp [hi]
        · rintro ⟨ts, t, l', h, hne, ht, hn, h1, h2⟩
          cases ts with
          | nil =>
            cases h with
            | cons h _ => rw [hs] at h; cases h; exact absurd ht he
          | cons u ts =>
            cases h with
            | cons h hrest =>
              rw [hs] at h; cases h
              refine ⟨ts, t, l', hrest, fun u hu => hne u (by simp [hu]), ht, by simp at hn; omega, ?_, ?_⟩
              · rw [h1]; simp [tokenLine]
              · rw [h2, List.filter_cons]
                by_cases hi : tok = .ILLEGAL
                · simp [hi]; omega
                · simp [hi]

/-- **C60**: `cddlc lex` prints one line for each token of the source up to and including the first
EOF, and fails exactly if an illegal token is among them, giving their number. -/
theorem C60_lex {n : Nat} {src : Bytes} {r : CmdResult} (h : lexCmd n src = .ok r) :
    ∃ ts t l, Scans (Lexer.new src) (ts ++ [t]) l ∧ (∀ u ∈ ts, u.tok ≠ .EOF) ∧ t.tok = .EOF ∧
      r.stdout = (ts ++ [t]).map tokenLine ∧
      (r.err = none ↔ ∀ u ∈ ts, u.tok ≠ .ILLEGAL) ∧
      (∀ e, r.err = some e → e = b!"found " ++ decNat (ts.filter (·.tok = .ILLEGAL)).length ++
        b!" illegal characters") := by
  unfold lexCmd at h
  cases hl : loopOut lexStep n (Lexer.new src, 0, []) with
  | panic w => rw [hl] at h; cases h
  | hang => rw [hl] at h; cases h
  | ok v =>
    obtain ⟨k, out⟩ := v
    rw [hl] at h
    obtain ⟨ts, t, l, h1, h2, h3, _, h4, h5⟩ := (lexLoop ..).mp hl
    rw [Nat.zero_add] at h5
    refine ⟨ts, t, l, h1, h2, h3, ?_, ?_, ?_⟩
    · cases h; exact h4
    · cases h
      subst h5
      show (if _ then _ else _) = none ↔ _
      by_cases hk : (ts.filter (·.tok = .ILLEGAL)).length > 0
      · rw [if_pos hk]
        refine ⟨nofun, fun h => ?_⟩
        rw [List.filter_eq_nil_iff.mpr (fun u hu => by simpa using h u hu)] at hk
        cases hk
      · rw [if_neg hk]
        refine ⟨fun _ u hu hi => hk (List.length_pos_of_mem (List.mem_filter.mpr ⟨hu, by simpa using hi⟩)), fun _ => rfl⟩
    · cases h
      subst h5
      intro e he
      dsimp only at he
      split at he
      · cases he; rfl
      · cases he

/-- **C60** (returns): on a clean source on which `Scan` never panics, `cddlc lex` returns. -/
theorem C60_returns {src : Bytes} (hc : Clean src)
    (hp : ∀ ts l, Scans (Lexer.new src) ts l → ∀ w, l.scan ≠ .panic w) :
    ∃ r, lexCmd (src.length + 1) src = .ok r := by
  obtain ⟨ts, l, pos, h1, h2, h3⟩ := C01_reaches_eof hc hp
  have := (lexLoop (src.length + 1) (Lexer.new src) 0 [] _ _).mpr
    ⟨ts, _, l, h3, h2, rfl, by omega, rfl, rfl⟩
  unfold lexCmd
  rw [this]
  exact ⟨_, rfl⟩

/-- **C61** (partial): whenever the parser returns, `cddlc parse` prints one block for each diagnostic, and
the tree; it succeeds, even if the source has errors, if and only if the values it has to print are nested at
most 10000 deep, and otherwise prints the tree the way `%+v` does. What is missing: without that
condition (`C61_refuted`). -/
theorem C61_parse_partial {n : Nat} {src : Bytes} {res : PState.FileResult} (text : Msg → Bytes)
    (lib : JsonLib) (h : parseSource n src = .ok res) :
    ∃ r, parseCmd text lib n src = .ok r ∧
      (r.err = none ↔ (cddlJson lib.float res.cddl).depth ≤ 10000) ∧
      r.stdout = [if r.err = none then (cddlJson lib.float res.cddl).print lib.short 0 ++ b!"\n"
        else lib.plusV res.cddl] ∧
      r.stderr = if res.errs = [] then [] else
        b!"\n" :: res.errs.map fun d => shown text src d.msg d.start.offset.toNat ++ b!"\n" := by
  unfold parseCmd
  rw [h]
  simp only [Out.bind_def, Out.bind]
  have key : ∀ errOut, ∃ r, (match marshalIndent lib.short (cddlJson lib.float res.cddl) with
      | none => .ok ⟨[lib.plusV res.cddl], errOut, some b!"exceeded max depth"⟩
      | some b => .ok ⟨[b ++ b!"\n"], errOut, none⟩ : Out CmdResult) = .ok r ∧
      (r.err = none ↔ (cddlJson lib.float res.cddl).depth ≤ 10000) ∧
      r.stdout = [if r.err = none then (cddlJson lib.float res.cddl).print lib.short 0 ++ b!"\n"
        else lib.plusV res.cddl] ∧ r.stderr = errOut := by
    intro errOut
    unfold marshalIndent maxNesting
    by_cases hd : (cddlJson lib.float res.cddl).depth ≤ 10000
    · rw [if_pos hd]
      exact ⟨_, rfl, by simp [hd], by simp, rfl⟩
    · rw [if_neg hd]
      exact ⟨_, rfl, by simp [hd], by simp, rfl⟩
  by_cases he : res.errs = []
  · rw [he]
    exact key []
  · have hpos : res.errs.length > 0 := List.length_pos_iff.mpr he
    rw [if_pos hpos, C33_rendered text h, if_neg he]
    obtain ⟨r, h1, h2, h3, h4⟩ := key ([b!"\n"] ++ (res.errs.map fun d => shown text src d.msg d.start.offset.toNat).map (· ++ b!"\n"))
    refine ⟨r, h1, h2, h3, ?_⟩
    rw [h4]
    simp

/-! ### Examples -/

/-- A source with a duplicate name, a bound of the wrong kind, and an undeclared name. -/
def demoE : Bytes := b!"a = 1..d\nb = {}\n\nc = 3..f c = e d = int"

set_option maxRecDepth 10000 in
omit [Unicode] in
/-- Its diagnostics: one of the rules, then four of the deferred checks. -/
theorem demoE_parse : letI := asciiOnly; ∃ res rules, parseSource 30 demoE = .ok res ∧
    res.cddl = some rules ∧ res.errs.map (fun d => (d.msg, d.start.line, d.start.column)) =
      [(.existing b!"c" 4 5, 4, 10), (.expectedIntUpper, 1, 8), (.noSuchIdent b!"f", 4, 8),
       (.noSuchIdent b!"f", 4, 8), (.noSuchIdent b!"e", 4, 14)] :=
  letI := asciiOnly
  have ⟨res, rules, h1, h2, h3⟩ := of_parses (n := 30) (src := demoE) (f := fun _ errs =>
    decide (errs.map (fun d => (d.msg, d.start.line, d.start.column)) =
      [(.existing b!"c" 4 5, 4, 10), (.expectedIntUpper, 1, 8), (.noSuchIdent b!"f", 4, 8),
       (.noSuchIdent b!"f", 4, 8), (.noSuchIdent b!"e", 4, 14)])) (by decide_cbv)
  ⟨res, rules, h1, h2, of_decide_eq_true h3⟩

omit [Unicode] in
/-- The last of them as shown. -/
example : shown (fun _ => b!"oops") demoE (.noSuchIdent b!"e") 30 =
    b!"parser error: oops\n    4 | c = 3..f c = e d = int\n                     ˜" := by decide_cbv

omit [Unicode] in
/-- C21: the second token is a string that is cut off, and what follows cannot be scanned. -/
example : letI := asciiOnly; ∃ a b l, Scans (Lexer.new (b!"a \"x\n" ++ [255])) [a, b] l ∧ l.errors ≠ [] :=
  letI := asciiOnly; ⟨_, _, _, scanList_scans (n := 2) rfl, nofun⟩

omit [Unicode] in
/-- C60: a source with an illegal token. -/
example : letI := asciiOnly; ∃ r, lexCmd 10 b!"a %" = .ok r ∧
    r.stdout = [b!"1:1: IDENT -> a\n", b!"1:3: ILLEGAL -> %\n", b!"1:4: EOF -> \n"] ∧
    r.err = some b!"found 1 illegal characters" :=
  letI := asciiOnly
  have ⟨r, h1, h2⟩ := Out.of_check (o := lexCmd 10 b!"a %") (f := fun r =>
    decide (r.stdout = [b!"1:1: IDENT -> a\n", b!"1:3: ILLEGAL -> %\n", b!"1:4: EOF -> \n"] ∧
      r.err = some b!"found 1 illegal characters")) (by decide_cbv)
  ⟨r, h1, of_decide_eq_true h2⟩

end Cddlc
