import Verif.Props.Errors
import Verif.Props.Parser

/-! C84: what diagnostics say is true. -/

namespace Cddlc
open Spec
variable [Unicode]

/-- **C84**: every diagnostic tells the truth. One found while reading rules quotes the kind, the text
and the position of a token that is there, and the token that it misses is not there; one about a
second declaration gives the place of the value that is bound to the name; one of the deferred
checks is true of the environment in the end. (`Tells`, `Redeclared`, `CheckDiag`) -/
theorem C84_truth {n : Nat} {src : Bytes} {env : Env} {res : PState.FileResult}
    (h : parseSource n src env = .ok res) : ∀ d ∈ res.errs,
      Tells (Lexer.new src) d ∨ Redeclared (Lexer.new src) res.final.env d ∨
      CheckDiag (Lexer.new src) res.final.env d := by
  obtain ⟨a, b, he, ha, hb⟩ := diag_parts h
  intro d hd
  rw [he] at hd
  rcases List.mem_append.mp hd with hd | hd
  · rcases ha d hd with hd | hd
    · exact Or.inl hd.2.2
    · exact Or.inr (Or.inl hd)
  · exact Or.inr (Or.inr (hb d hd))

/-- **C84** (where it was declared): in a file read on its own, the place given for the first
declaration is where the value of the first rule declaring the name begins. -/
theorem C84_first {n : Nat} {src : Bytes} {res : PState.FileResult} {rules : List Node}
    (h : parseSource n src = .ok res) (ht : res.cddl = some rules) {d} (hd : d ∈ res.errs)
    {k line col} (hm : d.msg = .existing k line col) :
    ∃ v s, FirstDecl (Lexer.new src) rules k v ∧ v.start = .ok s ∧ s.line = line ∧ s.column = col := by
  have hex : Redeclared (Lexer.new src) res.final.env d := by
    rcases C84_truth h d hd with h | h | ⟨_, _, h⟩
    · unfold Tells at h; rw [hm] at h; exact h.elim
    · exact h
    · rw [hm] at h; exact h.elim
  obtain ⟨k', s, h1, _, _, h4, h5⟩ := hex
  rw [hm] at h1
  cases h1
  rcases (C19_environment h k).2.2 rules ht rfl with ⟨v, h6, _, h7⟩ | ⟨_, h6⟩
  · rw [h7] at h5
    exact ⟨v, s, h6, h5, rfl, rfl⟩
  · rw [h6] at h4; cases h4

/-- **C84** (as read): a message that quotes a place quotes the line and the column at which the
diagnostic starts, and these are the line and column of a byte of the source. -/
theorem C84_place {n : Nat} {src : Bytes} {env : Env} {res : PState.FileResult}
    (h : parseSource n src env = .ok res) {d} (hd : d ∈ res.errs) {tok pos}
    (hm : d.msg = .tokenExpected tok pos ∨ d.msg = .unexpectedPrefix tok pos) :
    pos = d.start ∧ ∃ o : Nat, o ≤ src.length ∧ pos.line = lineAt src o ∧ pos.column = colAt src o := by
  have hp : pos = d.start := by
    rcases C84_truth h d hd with h | ⟨_, _, h, _⟩ | ⟨_, _, h⟩
    · unfold Tells at h
      rcases hm with hm | hm <;> (rw [hm] at h; exact h.1)
    · rcases hm with hm | hm <;> (rw [hm] at h; cases h)
    · rcases hm with hm | hm <;> (rw [hm] at h; exact h.elim)
  obtain ⟨o, h1, h2, _⟩ := C33_positions h d hd
  exact ⟨hp, o, h1, by rw [hp, h2], by rw [hp, h2]⟩

/-- **C84** (never said): four messages of the parser are never given, on any source. -/
theorem C84_never {n : Nat} {src : Bytes} {env : Env} {res : PState.FileResult}
    (h : parseSource n src env = .ok res) : ∀ d ∈ res.errs,
      (∀ lit, d.msg ≠ .unexpectedLiteral lit) ∧ d.msg ≠ .expectedUintLit ∧ d.msg ≠ .expectedIntLit ∧
      ∀ v tok, d.msg ≠ .negativeLower v tok := by
  intro d hd
  have key : ∀ m, d.msg = m → (match m with
      | .unexpectedLiteral _ | .expectedUintLit | .expectedIntLit | .negativeLower _ _ => False
      | _ => True) := by
    intro m hm
    rcases C84_truth h d hd with h | ⟨_, _, h, _⟩ | ⟨_, _, h⟩
    · unfold Tells at h
      rw [hm] at h
      cases m <;> first | trivial | exact h.elim
    · rw [hm] at h; subst h; trivial
    · rw [hm] at h
      cases m <;> first | trivial | exact h.elim
  exact ⟨fun _ h => key _ h, fun h => key _ h, fun h => key _ h, fun _ _ h => key _ h⟩

/-- **C84** (as printed): `cddlc parse` prints for a token that is missing or misplaced the name of
that token, the line and the column at which the source has something else, and below it that line
of the source with a mark under that column. -/
theorem C84_shown {n : Nat} {src : Bytes} {res : PState.FileResult} (quote value : Bytes → Bytes)
    (lib : JsonLib) (h : parseSource n src = .ok res) {d} (hd : d ∈ res.errs) {tok pos}
    (hm : d.msg = .tokenExpected tok pos ∨ d.msg = .unexpectedPrefix tok pos) :
    ∃ r o, parseCmd (Msg.text quote value) lib n src = .ok r ∧ o ≤ src.length ∧
      (∃ t, Tk (Lexer.new src) t ∧ t.pos.offset = o) ∧
      (b!"parser error: " ++
        (if d.msg = .tokenExpected tok pos then b!"expected " else b!"unexpected token ") ++ tok.string ++
        b!" at line " ++ decNat (lineAt src o) ++ b!", column " ++ decNat (colAt src o) ++ b!"\n" ++
        b!"    " ++ decNat (lineAt src o) ++ b!" | " ++ before src o ++ behind src o ++ b!"\n" ++
        List.replicate ((b!"    " ++ decNat (lineAt src o) ++ b!" | ").length + (before src o).length) 32 ++ b!"˜\n")
        ∈ r.stderr := by
  obtain ⟨r, h1, _, _, h4⟩ := C61_parse_partial (Msg.text quote value) lib h
  obtain ⟨hp, -⟩ := C84_place h hd hm
  obtain ⟨o, ho, hst, _⟩ := C33_positions h d hd
  obtain ⟨t, ht, htp⟩ := diag_tk h hd
  have hne : res.errs ≠ [] := List.ne_nil_of_mem hd
  refine ⟨r, o, h1, ho, ⟨t, ht, by rw [htp, hst]⟩, ?_⟩
  rw [h4, if_neg hne]
  refine List.mem_cons_of_mem _ (List.mem_map.mpr ⟨d, hd, ?_⟩)
  have e1 : pos.line = (lineAt src o : Nat) := by rw [hp, hst]
  have e2 : pos.column = (colAt src o : Nat) := by rw [hp, hst]
  have hoff : d.start.offset.toNat = o := by rw [hst]; rfl
  have e3 : Msg.text quote value (.tokenExpected tok pos) = b!"expected " ++ tok.string ++ b!" at line " ++
      decNat (lineAt src o) ++ b!", column " ++ decNat (colAt src o) := by
    show _ ++ _ ++ _ ++ decInt pos.line ++ _ ++ decInt pos.column = _
    rw [e1, e2]; rfl
  have e4 : Msg.text quote value (.unexpectedPrefix tok pos) = b!"unexpected token " ++ tok.string ++ b!" at line " ++
      decNat (lineAt src o) ++ b!", column " ++ decNat (colAt src o) := by
    show _ ++ _ ++ _ ++ decInt pos.line ++ _ ++ decInt pos.column = _
    rw [e1, e2]; rfl
  have e5 : (b!"˜\n" : Bytes) = b!"˜" ++ b!"\n" := rfl
  unfold shown
  rw [hoff, e5]
  rcases hm with hm | hm
  · rw [hm, if_pos rfl, e3]
    simp only [List.append_assoc]
  · rw [hm, if_neg (by simp), e4]
    simp only [List.append_assoc]

/-- **C84** (operators): the message about an operator names it as written, and all the operands it takes: names and integers in front of
`:` and `=>`, `tstr`, `bstr` and `uint` for `.size`, numbers for comparisons. -/
theorem C84_operator {n : Nat} {src : Bytes} {env : Env} {res : PState.FileResult} (quote value : Bytes → Bytes)
    (h : parseSource n src env = .ok res) {d} (hd : d ∈ res.errs) {op toks} (hm : d.msg = .unsupported op toks) :
    ∃ t, Tk (Lexer.new src) ⟨t, d.start, op⟩ ∧ t ∈ [Tok.COLON, .ARROW_MAP, .SIZE, .LT, .LE, .GT, .GE, .EQ, .NE] ∧
      Diag.string (Msg.text quote value) d = b!"parser error: operator " ++ op ++ b!" only supports tokens " ++
        (if t = .COLON ∨ t = .ARROW_MAP then b!"IDENT, int" else if t = .SIZE then b!"tstr, bstr, uint" else b!"int, float, uint") := by
  have e : ∀ s, b!"parser error: " ++ (b!"operator " ++ op ++ b!" only supports tokens " ++ s) =
      b!"parser error: operator " ++ op ++ b!" only supports tokens " ++ s := fun s => by simp
  have ht : Tells (Lexer.new src) d := by
    rcases C84_truth h d hd with h | ⟨_, _, h, _⟩ | ⟨_, _, h⟩
    · exact h
    · rw [hm] at h; cases h
    · rw [hm] at h; exact h.elim
  unfold Tells at ht
  rw [hm] at ht
  obtain ⟨-, t, h1, h2⟩ := ht
  unfold Diag.string
  rw [hm]
  rcases h2 with ⟨rfl | rfl, rfl⟩ | ⟨rfl, rfl⟩ | ⟨h2, rfl⟩
  · exact ⟨_, h1, by decide, e _⟩
  · exact ⟨_, h1, by decide, e _⟩
  · exact ⟨_, h1, by decide, e _⟩
  · refine ⟨_, h1, List.mem_cons_of_mem _ (List.mem_cons_of_mem _ (List.mem_cons_of_mem _ h2)), ?_⟩
    rw [if_neg (by rintro (rfl | rfl) <;> simp at h2), if_neg (by rintro rfl; simp at h2)]
    exact e _

/-! ### Examples -/

/-- A source with wrong things of many kinds. -/
def demoT : Bytes :=
  b!"a = 99999999999999999999\nb c\nd = )\ne = tstr .regexp 1\n= f = \"x\" : int\ng = bool .size 3\nb = #09\nh = tstr * 3\nd = 1 d = 2"

/-- Its diagnostics. -/
def demoTErrs : List (Msg × Int × Int) :=
  [(.tokenExpected .INT ⟨4, 1, 5, []⟩, 1, 5), (.expectedAssign b!"b", 2, 1),
   (.unexpectedPrefix .RPAREN ⟨33, 3, 5, []⟩, 3, 5), (.tokenExpected .TEXT_LITERAL ⟨44, 4, 10, []⟩, 4, 10),
   (.tokenExpected .IDENT ⟨52, 4, 18, []⟩, 4, 18), (.tokenExpected .IDENT ⟨54, 5, 1, []⟩, 5, 1),
   (.unsupported b!":" [.IDENT, .INT], 5, 11), (.tokenExpected .IDENT ⟨66, 5, 13, []⟩, 5, 13),
   (.unsupported b!".size" [.TSTR, .BSTR, .UINT], 6, 10), (.tokenExpected .IDENT ⟨85, 6, 16, []⟩, 6, 16),
   (.tagMajor, 7, 6), (.lowerType .ZERO_OR_MORE, 8, 5), (.tokenExpected .IDENT ⟨106, 8, 12, []⟩, 8, 12),
   (.existing b!"d" 9 5, 9, 7)]

set_option maxRecDepth 100000 in
omit [Unicode] in
theorem demoT_parse : letI := asciiOnly; ∃ res rules, parseSource 60 demoT = .ok res ∧
    res.cddl = some rules ∧ res.errs.map (fun d => (d.msg, d.start.line, d.start.column)) = demoTErrs :=
  letI := asciiOnly
  have ⟨res, rules, h1, h2, h3⟩ := of_parses (n := 60) (src := demoT) (f := fun _ errs =>
    decide (errs.map (fun d => (d.msg, d.start.line, d.start.column)) = demoTErrs)) (by decide_cbv)
  ⟨res, rules, h1, h2, of_decide_eq_true h3⟩

omit [Unicode] in
/-- All of it is true: for instance, no `=` follows `b` in the second line, and `99999999999999999999`
is no integer. -/
example : letI := asciiOnly; ∃ res, parseSource 60 demoT = .ok res ∧ res.errs.length = 14 ∧
    (∃ d ∈ res.errs, Missing (Lexer.new demoT) .INT d.start) ∧
    (∃ d ∈ res.errs, ∃ u, Follows (Lexer.new demoT) ⟨.IDENT, d.start, b!"b"⟩ u ∧ u.tok ≠ .ASSIGN) :=
  letI := asciiOnly
  have ⟨res, _, h, _, he⟩ := demoT_parse
  have hlen : res.errs.length = 14 := by
    have := congrArg List.length he
    rw [List.length_map] at this
    exact this
  have hmem : ∀ x ∈ demoTErrs, ∃ d ∈ res.errs, (d.msg, d.start.line, d.start.column) = x := by
    rw [← he]; intro x hx; exact List.mem_map.mp hx
  have ⟨d1, hd1, e1⟩ := hmem _ (show (Msg.tokenExpected .INT ⟨4, 1, 5, []⟩, (1 : Int), (5 : Int)) ∈ demoTErrs by decide)
  have ⟨d2, hd2, e2⟩ := hmem _ (show (Msg.expectedAssign b!"b", (2 : Int), (1 : Int)) ∈ demoTErrs by decide)
  have m1 : d1.msg = .tokenExpected .INT ⟨4, 1, 5, []⟩ := congrArg (·.1) e1
  have m2 : d2.msg = .expectedAssign b!"b" := congrArg (·.1) e2
  have t1 : Missing (Lexer.new demoT) .INT d1.start := by
    rcases C84_truth h d1 hd1 with h | ⟨_, _, h, _⟩ | ⟨_, _, h⟩
    · unfold Tells at h; rw [m1] at h; obtain ⟨h1, _, h2⟩ := h; rw [h1] at h2; exact h2
    · rw [m1] at h; cases h
    · rw [m1] at h; exact h.elim
  have t2 : ∃ u, Follows (Lexer.new demoT) ⟨.IDENT, d2.start, b!"b"⟩ u ∧ u.tok ≠ .ASSIGN := by
    rcases C84_truth h d2 hd2 with h | ⟨_, _, h, _⟩ | ⟨_, _, h⟩
    · unfold Tells at h; rw [m2] at h; obtain ⟨_, u, h1, h2, _⟩ := h; exact ⟨u, h1, h2⟩
    · rw [m2] at h; cases h
    · rw [m2] at h; exact h.elim
  ⟨res, h, hlen, ⟨d1, hd1, t1⟩, ⟨d2, hd2, t2⟩⟩

omit [Unicode] in
/-- The hypotheses of `C84_first` and `C84_shown` are met. -/
example : letI := asciiOnly; ∃ res rules, parseSource 60 demoT = .ok res ∧ res.cddl = some rules ∧
    (∃ d ∈ res.errs, d.msg = .existing b!"d" 9 5) ∧
    (∃ d ∈ res.errs, d.msg = .unexpectedPrefix .RPAREN ⟨33, 3, 5, []⟩) :=
  letI := asciiOnly
  have ⟨res, rules, h, ht, he⟩ := demoT_parse
  have hmem : ∀ x ∈ demoTErrs, ∃ d ∈ res.errs, (d.msg, d.start.line, d.start.column) = x := by
    rw [← he]; intro x hx; exact List.mem_map.mp hx
  have ⟨d1, hd1, e1⟩ := hmem _ (show (Msg.existing b!"d" 9 5, (9 : Int), (7 : Int)) ∈ demoTErrs by decide)
  have ⟨d2, hd2, e2⟩ := hmem _ (show (Msg.unexpectedPrefix .RPAREN ⟨33, 3, 5, []⟩, (3 : Int), (5 : Int)) ∈ demoTErrs by decide)
  ⟨res, rules, h, ht, ⟨d1, hd1, congrArg (·.1) e1⟩, ⟨d2, hd2, congrArg (·.1) e2⟩⟩

omit [Unicode] in
/-- The message about `bool .size 3`. -/
example : letI := asciiOnly; ∃ res, parseSource 60 demoT = .ok res ∧ ∃ d ∈ res.errs,
    Diag.string (Msg.text id id) d = b!"parser error: operator .size only supports tokens tstr, bstr, uint" :=
  letI := asciiOnly
  have ⟨res, _, h, _, he⟩ := demoT_parse
  have hmem : ∀ x ∈ demoTErrs, ∃ d ∈ res.errs, (d.msg, d.start.line, d.start.column) = x := by
    rw [← he]; intro x hx; exact List.mem_map.mp hx
  have ⟨d, hd, e⟩ := hmem _ (show (Msg.unsupported b!".size" [.TSTR, .BSTR, .UINT], (6 : Int), (10 : Int)) ∈ demoTErrs by decide)
  have hm : d.msg = .unsupported b!".size" [.TSTR, .BSTR, .UINT] := congrArg (·.1) e
  ⟨res, h, d, hd, by unfold Diag.string; rw [hm]; decide⟩

end Cddlc
