import Verif.Lemmas.Rename
import Verif.Lemmas.Check
import Verif.Props.Errors
import Verif.Model.Generate

/-! C78, C79: the white space between tokens does not matter. -/

namespace Cddlc
variable [Unicode]
open Spec PState Lexer

/-! ### The tokens of two texts -/

theorem reading_end (k : Nat) (after : Bool) {r r' : List Char} (h : ∀ c ∈ r, ws c = true) (h' : ∀ c ∈ r', ws c = true) :
    SameReading k after r r' :=
  (reading_id k).mp (renamed_end k after h h')

theorem reading_mono {k n : Nat} (hk : k ≤ n) {after : Bool} {r r' : List Char} (h : SameReading n after r r') :
    SameReading k after r r' :=
  (reading_id k).mp (renamed_mono hk ((reading_id n).mpr h))

theorem reading_pieces (k : Nat) (after : Bool) {g g' : List Char} (hg : ∀ c ∈ g, ws c = true) (hg' : ∀ c ∈ g', ws c = true)
    {ps ps' : List (Piece × List Char)} (hp : PiecesWF ps) (hp' : PiecesWF ps') (hs : SameTexts ps ps')
    (hn : after = true → (∃ c ∈ ps.head?, c.1.tok = .COMMENT) → ('\n' ∈ g ↔ '\n' ∈ g')) :
    SameReading k after (g ++ renderAll ps) (g' ++ renderAll ps') :=
  (reading_id k).mp (renamed_pieces k after hg hg' hp hp' (texts_id hs) hn)

/-! ### C78 -/

/-- **C78**: two sources whose tokens have the same kinds and texts, with each comment on the line of
the token before it in both or in neither, are parsed to the same tree, messages and bindings up to
positions, or fail in the same way. -/
theorem C78_tokens (n : Nat) (src src' : Bytes) (env : Env)
    (h : ∀ k, Alike k 0 (Lexer.new src) 0 (Lexer.new src')) :
    SameOutcome (parseSource n src env) (parseSource n src' env) :=
  renamed_id (S_source renaming_id n (by rw [renameEnv_id]) fun k => (toks_id k).mpr (h k))

/-- **C78**, in terms of the characters: two texts that are made of the same lexemes. -/
theorem C78_lexemes (n : Nat) (cs cs' : List Char) (hc : '�' ∉ cs) (hc' : '�' ∉ cs') (env : Env)
    (h : ∀ k, SameReading k false cs cs') :
    SameOutcome (parseSource n (enc cs) env) (parseSource n (enc cs') env) :=
  C78_tokens n _ _ env fun k => (toks_id k).mp (toks_reading k (Lexer.clean_new hc) (Lexer.clean_new hc')
    (by simp [clean_new_errors]) ((reading_id k).mpr (h k)) ⟨rfl, rfl⟩)

/-- **C78**, in terms of token texts: any two ways to put white space between the same token texts,
with each comment on the line of the text before it in both or in neither. -/
theorem C78_layout (n : Nat) (g g' : List Char) (hg : ∀ c ∈ g, ws c = true) (hg' : ∀ c ∈ g', ws c = true)
    (ps ps' : List (Piece × List Char)) (hp : PiecesWF ps) (hp' : PiecesWF ps') (hs : SameTexts ps ps') (env : Env) :
    SameOutcome (parseSource n (enc (g ++ renderAll ps)) env) (parseSource n (enc (g' ++ renderAll ps')) env) := by
  have hbad : ∀ {g : List Char} {ps : List (Piece × List Char)}, (∀ c ∈ g, ws c = true) → PiecesWF ps →
      '�' ∉ g ++ renderAll ps := by
    intro g ps hg hp
    rw [List.mem_append, not_or]
    exact ⟨fun hm => absurd (hg _ hm) (by decide), renderAll_no_bad hp⟩
  exact C78_lexemes n _ _ (hbad hg hp) (hbad hg' hp') env fun k =>
    reading_pieces k false hg hg' hp hp' hs (fun h => absurd h (by simp))

omit [Unicode] in
/-- The texts `a=[x:int]` and, over three lines, `a = [ x : int ]`: the same lexemes. -/
theorem demo_reading : let := asciiOnly
    ∀ k, SameReading k false "a=[x:int]".toList "a =\n  [ x : int\n  ]\n".toList := by
  intro _ k
  refine reading_mono (k := k) (n := k + 7) (Nat.le_add_right k 7) ?_
  refine ⟨rfl, rfl, rfl, fun _ h => absurd h (by decide), rfl, rfl, rfl, fun _ h => absurd h (by decide), rfl, rfl,
    rfl, fun _ h => absurd h (by decide), rfl, rfl, rfl, fun _ h => absurd h (by decide), rfl, rfl, rfl,
    fun _ h => absurd h (by decide), rfl, rfl, rfl, fun _ h => absurd h (by decide), rfl, rfl, rfl,
    fun _ h => absurd h (by decide), ?_⟩
  exact reading_end k true (by decide) (by decide)
/-- Three rules with comments, written in two ways that meet the hypotheses of `C78_layout`. -/
example : SameTexts
      [(.word "a".toList, " ".toList), (.op "=" .ASSIGN, " ".toList), (.word "int".toList, " ".toList),
       (.comment "one".toList true, "\n".toList), (.comment "two".toList false, "\n\n".toList), (.word "b".toList, " ".toList),
       (.op "=" .ASSIGN, "\t".toList), (.word "a".toList, [])]
      [(.word "a".toList, "\n".toList), (.op "=" .ASSIGN, "\r\n ".toList), (.word "int".toList, "   ".toList),
       (.comment "one".toList true, "\n \n".toList), (.comment "two".toList false, "\n".toList), (.word "b".toList, "\n".toList),
       (.op "=" .ASSIGN, " ".toList), (.word "a".toList, "\n".toList)] := by
  simp [SameTexts, Piece.tok, Spec.word]
  try decide

/-- The condition on comments is needed: on the line of the rule the comment belongs to it, on the
next line it is a node of its own. -/
example : let := asciiOnly
    ¬ SameOutcome (parseSource 20 (b!"a = int ; c\n")) (parseSource 20 (b!"a = int\n; c\n")) := by
  intro _
  obtain ⟨r, h1, h2⟩ := Out.of_check (o := parseSource 20 (b!"a = int ; c\n"))
    (f := fun r => (r.cddl.map (·.length)) == some 1) (by decide_cbv)
  obtain ⟨r', h1', h2'⟩ := Out.of_check (o := parseSource 20 (b!"a = int\n; c\n"))
    (f := fun r => (r.cddl.map (·.length)) == some 2) (by decide_cbv)
  rw [h1, h1']
  intro h
  have := congrArg (Option.map List.length) h.tree
  simp only [noPosL_map, Option.map_map, Function.comp_def, List.length_map] at this
  simp only [beq_iff_eq] at h2 h2'
  rw [h2, h2'] at this
  simp at this

/-! ### C79: the generated code -/

section
variable (lib : GoLib)

mutual
/-- The generator does not look at positions. -/
theorem transpile_noPos : (x : Node) → transpileNode lib (noPos x) = transpileNode lib x
  | .nil | .typedNil _ | .badNode .. | .boolType .. | .boolLit .. | .bstr .. | .bytes .. | .cddl .. | .comment .. | .commentGroup .. | .bits ..
  | .comparator .. | .regexp .. | .enumeration .. | .floatType .. | .floatLit .. | .groupChoice ..
  | .intType .. | .nintType .. | .intLit .. | .map .. | .null .. | .optional .. | .range .. | .rule .. | .tag .. | .textLit .. | .tstr ..
  | .typeChoice .. | .uintType .. | .uintLit .. | .unwrap .. => rfl
  | .ident _ => by simp only [noPos, transpileNode]; rfl
  | .group _ es => by simp only [noPos, transpileNode, transpileGroup_noPos es]
  | .array _ es => by simp only [noPos, transpileNode, transpileGroup_noPos es]
  | .entry _ _ v _ => by simp only [noPos, transpileNode, transpile_noPos v]; rfl
  | .nm _ _ _ _ v => by simp only [noPos, transpileNode, transpile_noPos v]
  | .size _ _ s t => by
    have hs : sizeLiteral (noPos s) = sizeLiteral s := by cases s <;> rfl
    simp only [noPos, transpileNode, transpile_noPos t, noPos_kind, hs]
theorem transpileGroup_noPos : (xs : List Node) → transpileGroupLike lib (noPosL xs) = transpileGroupLike lib xs
  | [] => rfl
  | x :: xs => by
    have ih := transpileGroup_noPos xs
    cases x with
    | entry _ n v c =>
      simp only [noPosL, noPos, transpileGroupLike, transpile_noPos v, ih]; rfl
    | optional _ _ v => simp only [noPosL, noPos, transpileGroupLike, transpile_noPos v, ih]
    | ident i => simp only [noPosL, noPos, transpileGroupLike, ih]; rfl
    | nm _ _ _ _ v => simp only [noPosL, noPos, transpileGroupLike, transpile_noPos v, ih]
    | typedNil k => cases k <;> rfl
    | _ => rfl
end

theorem visitRule_noPos (pos : Pos) (n : Ident) (v : Node) :
    visitRule lib ⟨pos, n.name⟩ (noPos v) = visitRule lib n v := by
  have h : endPanic (noPos v) = endPanic v := by
    have := same_stop v
    unfold endPanic
    cases h1 : v.stop <;> cases h2 : (noPos v).stop <;> rw [h1, h2] at this
    all_goals first | rfl | exact this.elim | (cases this; rfl)
  simp only [visitRule, transpile_noPos, noPos_kind, h]
  rfl

mutual
theorem visit_noPos : (x : Node) → visit lib (noPos x) = visit lib x
  | .nil | .typedNil _ | .badNode .. | .boolType .. | .boolLit .. | .bstr .. | .bytes .. | .comment .. | .commentGroup .. | .bits ..
  | .comparator .. | .regexp .. | .enumeration .. | .floatType .. | .floatLit .. | .groupChoice ..
  | .intType .. | .nintType .. | .intLit .. | .map .. | .null .. | .optional .. | .range .. | .tag .. | .textLit .. | .tstr ..
  | .typeChoice .. | .uintType .. | .uintLit .. | .unwrap .. | .ident _ | .group .. | .array .. | .entry .. | .nm ..
  | .size .. => rfl
  | .rule _ n v _ => by simp only [noPos, visit, visitRule_noPos]
  | .cddl _ rs => by simp only [noPos, visit, visitList_noPos rs]
theorem visitList_noPos : (xs : List Node) → visitList lib (noPosL xs) = visitList lib xs
  | [] => rfl
  | x :: xs => by simp only [noPosL, visitList, visit_noPos x, visitList_noPos xs]
end

end

/-- Two results that are the same up to positions are treated in the same way. -/
theorem generateOpen_same (tl : Tool) (n : Nat) (pkg src src' out : Bytes)
    (h : SameOutcome (parseSource n src) (parseSource n src')) :
    generateOpen tl n pkg src out = generateOpen tl n pkg src' out := by
  unfold generateOpen
  cases e : parseSource n src with
  | panic w => cases e' : parseSource n src' <;> rw [e, e'] at h <;> first | exact h.elim | (cases h; rfl)
  | hang => cases e' : parseSource n src' <;> rw [e, e'] at h <;> first | exact h.elim | rfl
  | ok r =>
    cases e' : parseSource n src' with
    | panic w => rw [e, e'] at h; exact h.elim
    | hang => rw [e, e'] at h; exact h.elim
    | ok r' =>
      rw [e, e'] at h
      obtain ⟨h1, h2, _⟩ := h
      have hlen : r.errs.length = r'.errs.length := by
        have := congrArg List.length h2
        simpa using this
      have hv : ∀ rs rs', noPosL rs = noPosL rs' → visit tl.lib (.cddl {} rs) = visit tl.lib (.cddl {} rs') := by
        intro rs rs' hrs
        rw [← visit_noPos, ← visit_noPos tl.lib (.cddl {} rs')]
        simp only [noPos, hrs]
      simp only [Prog.of, Prog.bind, hlen, C33_rendered tl.text e, C33_rendered tl.text e']
      split
      · rfl
      · cases e1 : r.cddl <;> cases e2 : r'.cddl <;> rw [e1, e2] at h1 <;> simp at h1
        simp only [hv _ _ h1]

/-- The program answers in the same way to texts made of the same lexemes. -/
inductive Insens {α : Type} : Prog α → Prop
  | ret {a} : Insens (.ret a)
  | panic {w} : Insens (.panic w)
  | hang : Insens .hang
  | op {o k} : (∀ a, Insens (k a)) → (∀ p, o ≠ .readFile p) → Insens (.op o k)
  | read {p k} : (∀ a, Insens (k a)) →
      (basePath p ≠ b!"cddlc.json" → basePath p ≠ b!"cddlc.yaml" → ∀ cs cs' : List Char, '\uFFFD' ∉ cs → '\uFFFD' ∉ cs' →
        (∀ j, SameReading j false cs cs') → k (.ok (enc cs)) = k (.ok (enc cs'))) → Insens (.op (.readFile p) k)

theorem Insens.bind {α β : Type} {p : Prog α} {f : α → Prog β} (h : Insens p) (hf : ∀ a, Insens (f a)) :
    Insens (p.bind f) := by
  induction h with
  | ret => exact hf _
  | panic => exact .panic
  | hang => exact .hang
  | op _ h2 ih => exact .op ih h2
  | read _ h2 ih => exact .read ih fun a b cs cs' c d e => by rw [h2 a b cs cs' c d e]

theorem Insens.of {α : Type} (o : Out α) : Insens (Prog.of o) := by
  cases o <;> constructor

theorem Insens.traces {α : Type} {p : Prog α} (h : Insens p) {t t' : List Event} {e} (ht : Traces p t e)
    (hr : Reformatted t t') : Traces p t' e := by
  induction h generalizing t t' with
  | ret => cases ht <;> cases hr <;> constructor
  | panic => cases ht <;> cases hr <;> constructor
  | hang => cases ht <;> cases hr <;> constructor
  | op _ h2 ih =>
    cases ht with
    | cut => cases hr; exact .cut
    | op a hk =>
      cases hr with
      | same hr => exact .op a (ih a hk hr)
      | read => exact absurd rfl (h2 _)
  | read _ h2 ih =>
    cases ht with
    | cut => cases hr; exact .cut
    | op a hk =>
      cases hr with
      | same hr => exact .op a (ih a hk hr)
      | read a1 a2 a3 a4 a5 hr =>
        have := ih _ hk hr
        rw [h2 a1 a2 _ _ a3 a4 a5] at this
        exact .op _ this

variable (tl : Tool) (n : Nat)

theorem insens_open (pkg src out : Bytes) : Insens (generateOpen tl n pkg src out) := by
  unfold generateOpen
  refine (Insens.of _).bind fun res => ?_
  split
  · exact (Insens.of _).bind fun _ => .ret
  · simp only
    refine (Insens.of _).bind fun _ => .op (fun w => ?_) nofun
    cases w with
    | error _ => exact .ret
    | ok _ =>
      refine (Insens.of _).bind fun body => ?_
      cases body with
      | none => exact .ret
      | some body => exact .op (fun _ => .ret) nofun

theorem insens_file (pkg path out : Bytes) : Insens (generateFile tl n pkg path out) := by
  refine .read (fun r => ?_) ?_
  · cases r with
    | error _ => exact .ret
    | ok src =>
      refine .op (fun r => ?_) nofun
      cases r with
      | error _ => exact .ret
      | ok _ => exact insens_open tl n pkg src out
  · intro _ _ cs cs' hc hc' hs
    simp only
    congr 1
    funext r
    cases r with
    | error _ => rfl
    | ok _ => exact generateOpen_same tl n pkg _ _ out (C78_lexemes n cs cs' hc hc' _ hs)

theorem insens_ensure (dir : Bytes) : Insens (ensureDir dir) := by
  refine .op (fun r => ?_) nofun
  rcases r with (_ | _) | _
  · refine .op (fun r => ?_) nofun
    cases r <;> exact .ret
  · exact .ret
  · exact .ret

theorem insens_files (b : BuildConfig) (names : List Bytes) : Insens (generateFiles tl n b names) := by
  induction names with
  | nil => exact .ret
  | cons name rest ih =>
    unfold generateFiles
    split
    · exact ih
    · refine (insens_ensure _).bind fun r => ?_
      cases r with
      | some e => exact .ret
      | none =>
        refine (insens_file tl n _ _ _).bind fun r => ?_
        cases r with
        | some e => exact .ret
        | none => exact ih

theorem insens_build (b : Option BuildConfig) : Insens (generateBuild tl n b) := by
  cases b with
  | none => exact .panic
  | some b =>
    refine .op (fun r => ?_) nofun
    cases r with
    | error e => exact .ret
    | ok isDir =>
      simp only
      split
      · exact .ret
      · refine .op (fun r => ?_) nofun
        cases r with
        | error _ => exact .ret
        | ok names => exact insens_files tl n b names

theorem insens_builds (bs : List (Option BuildConfig)) : Insens (generateBuilds tl n bs) := by
  induction bs with
  | nil => exact .ret
  | cons b bs ih =>
    refine (insens_build tl n b).bind fun r => ?_
    cases r with
    | some e => exact .ret
    | none => exact ih

omit [Unicode] in
theorem loadConfig_other (codec : Codec) (path content content' : Bytes) (h1 : basePath path ≠ b!"cddlc.json")
    (h2 : basePath path ≠ b!"cddlc.yaml") : ∀ k, loadConfig codec path = .op (.readFile path) k →
      k (.ok content) = k (.ok content') := by
  intro k hk
  unfold loadConfig at hk
  cases hk
  simp only [h1, h2, if_false]

theorem insens_config (codec : Codec) (dir : Bytes) : Insens (loadConfigFromDir codec dir) := by
  unfold loadConfigFromDir
  have hg : Insens (globConfig dir) := by
    unfold globConfig
    split
    · exact .op (fun _ => .ret) nofun
    · exact .op (fun _ => .ret) nofun
  refine hg.bind fun files => ?_
  rcases files with _ | (_ | ⟨f, _⟩)
  · exact .ret
  · exact .ret
  · refine .read (fun fh => ?_) fun h1 h2 cs cs' _ _ _ => loadConfig_other codec f _ _ h1 h2 _ rfl
    cases fh with
    | error _ => exact .ret
    | ok content =>
      simp only
      split
      · split <;> exact .ret
      · split
        · split <;> exact .ret
        · exact .ret

theorem insens_cmd : Insens (generateCmd tl n) := by
  refine .op (fun r => ?_) nofun
  cases r with
  | error _ => exact .ret
  | ok wd =>
    refine (insens_config _ _).bind fun conf => ?_
    split
    · exact insens_builds tl n _
    · exact .ret
    · exact insens_builds tl n _

/-- **C79** (one file): sources made of the same lexemes are turned into the same output, byte for byte,
or rejected in the same way. -/
theorem C79_same_code (pkg out : Bytes) (cs cs' : List Char) (hc : '\uFFFD' ∉ cs) (hc' : '\uFFFD' ∉ cs')
    (h : ∀ k, SameReading k false cs cs') :
    generateOpen tl n pkg (enc cs) out = generateOpen tl n pkg (enc cs') out :=
  generateOpen_same tl n pkg _ _ out (C78_lexemes n cs cs' hc hc' _ h)

/-- **C79** (the command): if the sources of a project are laid out anew, `generate` makes the same calls
with the same arguments, in particular writes the same bytes to the same files, and ends in the same
way. -/
theorem C79_same_run {t t' : List Event} {e} (h : Traces (generateCmd tl n) t e) (hr : Reformatted t t') :
    Traces (generateCmd tl n) t' e :=
  (insens_cmd tl n).traces h hr

/-- A run over one file, and the run after the file was laid out anew. -/
example : let := asciiOnly
    Reformatted
      [⟨.getwd, .ok b!"/p"⟩, ⟨.readFile b!"a.cddl", .ok (enc "a=[x:int]".toList)⟩, ⟨.openTrunc b!"dist/a.go", .ok ()⟩]
      [⟨.getwd, .ok b!"/p"⟩, ⟨.readFile b!"a.cddl", .ok (enc "a =\n  [ x : int\n  ]\n".toList)⟩,
        ⟨.openTrunc b!"dist/a.go", .ok ()⟩] := by
  intro _
  exact .same (.read (by decide) (by decide) (by decide) (by decide) demo_reading (.same .nil))

end Cddlc
