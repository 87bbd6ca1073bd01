import Verif.Lemmas.Height
import Verif.Lemmas.JsonFile
import Verif.Props.Errors
import Verif.Props.Round

/-! What `cddlc parse` prints: C61 (when it fails), C94 (how deep trees get), C89 and C90. The grammar of JSON is in Spec/Json.lean, and
how a reader rebuilds the tree in Spec/JsonTree.lean. -/

namespace Cddlc
open Spec

/-! ### C94 -/

/-- **C94**: a tree is at most as high as the source has tokens. -/
theorem C94_tokens [Unicode] {n : Nat} {src : Bytes} {env : Env} {res : PState.FileResult} {rules}
    (h : parseSource n src env = .ok res) (ht : res.cddl = some rules) :
    ∃ ts l, Scans (Lexer.new src) ts l ∧ (∀ t ∈ ts, t.tok ≠ .EOF) ∧ heightL rules ≤ ts.length := by
  obtain ⟨p, q, hp, _, _, _, hr, _⟩ := tree_run h ht
  exact run_high hr ⟨_, hp⟩

/-- **C94**: a tree is at most as high as the source has bytes. -/
theorem C94_bytes [Unicode] {n : Nat} {src : Bytes} {env : Env} {res : PState.FileResult} {rules}
    (h : parseSource n src env = .ok res) (ht : res.cddl = some rules) : heightL rules ≤ src.length := by
  obtain ⟨ts, l, h1, h2, h3⟩ := C94_tokens h ht
  exact Nat.le_trans h3 (C01_bound (C02_no_tree h ht) h1 h2)

/-- The bound is reached: `a=#` has three tokens, and its tree is a rule, a tag and the tag's missing item. -/
example : letI := asciiOnly; ∃ res rules, parseSource 10 b!"a=#" = .ok res ∧ res.cddl = some rules ∧
    heightL rules = b!"a=#".length := by
  letI := asciiOnly
  obtain ⟨res, rules, h1, h2, h3⟩ := of_parses (n := 10) (src := b!"a=#") (f := fun rules _ =>
    decide (heightL rules = 3)) (by decide_cbv)
  exact ⟨res, rules, h1, h2, of_decide_eq_true h3⟩

/-! ### C61 -/

/-- **C61**: `cddlc parse` succeeds on every source whose tree is at most 4998 nodes high. -/
theorem C61_not_deep [Unicode] {n : Nat} {src : Bytes} {res : PState.FileResult} (text : Msg → Bytes)
    (lib : JsonLib) (h : parseSource n src = .ok res) (hh : ∀ rules ∈ res.cddl, heightL rules ≤ 4998) :
    ∃ r, parseCmd text lib n src = .ok r ∧ r.err = none := by
  obtain ⟨r, h1, h2, _⟩ := C61_parse_partial text lib h
  refine ⟨r, h1, h2.2 ?_⟩
  cases hc : res.cddl with
  | none => simp [cddlJson, JVal.depth]
  | some rules =>
    have := cddl_depth lib.float rules
    have := hh rules hc
    omega

/-- **C61**: `cddlc parse` succeeds on every source of at most 4998 tokens. -/
theorem C61_few_tokens [Unicode] {n : Nat} {src : Bytes} {res : PState.FileResult} (text : Msg → Bytes)
    (lib : JsonLib) (h : parseSource n src = .ok res) (hh : ∀ ts l, Scans (Lexer.new src) ts l →
      (∀ t ∈ ts, t.tok ≠ .EOF) → ts.length ≤ 4998) :
    ∃ r, parseCmd text lib n src = .ok r ∧ r.err = none := by
  refine C61_not_deep text lib h fun rules hr => ?_
  obtain ⟨ts, l, h1, h2, h3⟩ := C94_tokens h hr
  exact Nat.le_trans h3 (hh ts l h1 h2)

/-- **C61**: `cddlc parse` succeeds on every source of at most 4998 bytes. -/
theorem C61_short [Unicode] {n : Nat} {src : Bytes} {res : PState.FileResult} (text : Msg → Bytes)
    (lib : JsonLib) (h : parseSource n src = .ok res) (hh : src.length ≤ 4998) :
    ∃ r, parseCmd text lib n src = .ok r ∧ r.err = none :=
  C61_not_deep text lib h fun _ hr => Nat.le_trans (C94_bytes h hr) hh

/-- `{ { ... } }`. -/
def braces : Nat → Ty
  | 0 => .list .brace .nil
  | k + 1 => .list .brace (.cons (braces k) false .nil)

/-- The rule `a = { { ... } }`. -/
def deep (k : Nat) : Schema := ⟨[⟨[], ['a'], .eq, braces k⟩], []⟩

theorem braces_wf : ∀ k, (braces k).WF
  | 0 => trivial
  | k + 1 => ⟨braces_wf k, trivial, fun _ => by
      have e : (braces k).mayPrecede .RBRACE = true := by
        cases k <;> (simp only [braces, Ty.mayPrecede]; decide +kernel)
      exact e, fun _ => rfl⟩

theorem braces_pieces : ∀ k, ∀ p ∈ (braces k).pieces, p.WF
  | 0 => by decide +kernel
  | k + 1 => by
    intro p hp
    simp only [braces, Ty.pieces, Ents.pieces, List.mem_cons, List.mem_append, List.not_mem_nil, or_false] at hp
    rcases hp with rfl | (hp | hp) | rfl
    · decide +kernel
    · exact braces_pieces k p hp
    · cases hp
    · decide +kernel

theorem braces_checks : ∀ k, (braces k).checks = []
  | 0 => rfl
  | k + 1 => by
    have := braces_checks k
    simp [braces, Ty.checks, Ents.checks, this]

theorem deep_wf (k : Nat) : (deep k).WF := by
  intro r hr
  simp only [deep, List.mem_singleton] at hr
  subst hr
  have hw : word ['a'] = .IDENT := by decide +kernel
  refine ⟨hw, braces_wf k, fun h => ?_⟩
  cases k <;> (rcases h with h | ⟨_, _, _, h, _⟩ <;> cases h)

theorem deep_text (k : Nat) : (deep k).WrittenAs (deep k).render := by
  refine schema_has_text (deep_wf k) fun p hp => ?_
  simp only [deep, Schema.pieces, SRule.pieces, List.flatMap_cons, List.flatMap_nil, List.map_nil, List.append_nil,
    List.nil_append, List.mem_cons] at hp
  rcases hp with rfl | rfl | hp
  · decide +kernel
  · decide +kernel
  · exact braces_pieces k p hp

theorem deep_errors (k : Nat) : (deep k).errors = [] := by
  simp [deep, Schema.errors, duplicates, braces_checks]

theorem braces_depth (float : FloatVal → Bytes) : ∀ (k : Nat) (x : Node), noPos x = (braces k).node true →
    2 * k ≤ (x.json float).depth
  | 0, _, _ => Nat.zero_le _
  | k + 1, x, h => by
    have e : (braces (k + 1)).node true = .map {} [(braces k).node true] := rfl
    rw [e] at h
    cases x <;> first | (cases h; done) | skip
    rename_i p es
    simp only [noPos, Node.map.injEq, true_and] at h
    match es, h with
    | [], h => cases h
    | [y], h =>
      simp only [noPosL, List.cons.injEq, and_true] at h
      have := braces_depth float k y h
      simp only [Node.json, nodesJson, sliceJson, JVal.depth, depthFields, depthVals]
      omega
    | _ :: _ :: _, h => simp [noPosL] at h

/-- **C61 is false as stated**: on the rule `a = {{...}}` with 5000 pairs of braces inside the outermost one,
which `ParseFile` accepts without a diagnostic, `cddlc parse` fails. -/
theorem C61_refuted [Unicode] (text : Msg → Bytes) (lib : JsonLib) : ∃ src, ∃ N, ∀ n, N ≤ n →
    ∃ res r, parseSource n src = .ok res ∧ res.cddl.isSome ∧ res.errs = [] ∧
      parseCmd text lib n src = .ok r ∧ r.err ≠ none := by
  obtain ⟨N, h⟩ := C23_schema_read_back (deep_wf 5000) (deep_text 5000)
  refine ⟨(deep 5000).render, N, fun n hn => ?_⟩
  obtain ⟨rules, res, h1, h2, h3, h4⟩ := h n hn
  rw [deep_errors, List.map_eq_nil_iff] at h4
  obtain ⟨r, h5, h6, _⟩ := C61_parse_partial text lib h1
  refine ⟨res, r, h1, by simp [h2], h4, h5, fun he => ?_⟩
  have hd := h6.1 he
  rw [h2] at hd
  have e : (deep 5000).nodes true = [.rule {} ⟨{}, enc ['a']⟩ ((braces 5000).node true) none] := rfl
  rw [e] at h3
  match rules, h3 with
  | [], h3 => cases h3
  | [x], h3 =>
    simp only [noPosL, List.cons.injEq, and_true] at h3
    cases x <;> first | (cases h3; done) | skip
    rename_i p nm v c
    simp only [noPos, Node.rule.injEq, true_and] at h3
    have := braces_depth lib.float 5000 v h3.2.1
    simp only [cddlJson, Node.json, nodesJson, JVal.depth, depthFields, depthVals] at hd
    omega
  | _ :: _ :: _, h3 => simp [noPosL] at h3

/-! ### C89 -/

/-- What `cddlc parse` prints if it succeeds. -/
theorem parse_prints [Unicode] {n : Nat} {src : Bytes} {r : CmdResult} {text : Msg → Bytes} {lib : JsonLib}
    (hf : ∀ v, JNumber (lib.float v)) (h : parseCmd text lib n src = .ok r) (he : r.err = none) :
    ∃ res t, parseSource n src = .ok res ∧ r.stdout = [t] ∧ JsonText t (cddlJson lib.float res.cddl).toJson := by
  have : ∃ res, parseSource n src = .ok res := by
    unfold parseCmd at h
    cases hp : parseSource n src with
    | ok res => exact ⟨res, rfl⟩
    | panic w => rw [hp] at h; cases h
    | hang => rw [hp] at h; cases h
  obtain ⟨res, hp⟩ := this
  obtain ⟨r', h1, _, h2, _⟩ := C61_parse_partial text lib hp
  rw [h1] at h
  cases h
  rw [he, if_pos rfl] at h2
  exact ⟨res, _, hp, h2, [], _, b!"\n", rfl, space_nil, print_text lib.short _ 0 (cddl_numsOk hf _), newline_space 0⟩

/-- **C89**: if `cddlc parse` succeeds, its standard output is one JSON text according to RFC 8259, of exactly
one value, whatever the source; assumed of encoding/json is only that it writes floating point numbers as
JSON numbers. -/
theorem C89_valid_json [Unicode] {n : Nat} {src : Bytes} {r : CmdResult} {text : Msg → Bytes} {lib : JsonLib}
    (hf : ∀ v, JNumber (lib.float v)) (h : parseCmd text lib n src = .ok r) (he : r.err = none) :
    ∃ t j, r.stdout = [t] ∧ JsonText t j ∧ ∀ j', JsonText t j' → j' = j := by
  obtain ⟨res, t, _, h2, h3⟩ := parse_prints hf h he
  exact ⟨t, _, h2, h3, fun _ h' => jsonText_unique h' h3⟩

/-! ### C90 -/

/-- **C90** (partial): if all strings in the source are terminated, a reader rebuilds from what `cddlc parse`
prints the tree that `ParseFile` returned, or that it returned none: all nodes, names, texts, numbers,
comments and positions; floating point numbers as far as they can be told from their texts (`rep`). What is
missing: without the condition (`C90_refuted`). -/
theorem C90_read_back_partial [Unicode] {n : Nat} {src : Bytes} {r : CmdResult} {text : Msg → Bytes} {lib : JsonLib}
    (hf : ∀ v, JNumber (lib.float v)) {unfloat : Bytes → FloatVal} {rep : FloatVal → FloatVal}
    (hu : ∀ v, unfloat (lib.float v) = rep v) (hl : NoLexErrors src)
    (h : parseCmd text lib n src = .ok r) (he : r.err = none) :
    ∃ res t, parseSource n src = .ok res ∧ r.stdout = [t] ∧ ∀ j, JsonText t j →
      ∃ M, ∀ m, M ≤ m → readFile unfloat m j = some (res.cddl.map (floatsL rep)) := by
  obtain ⟨res, t, h1, h2, h3⟩ := parse_prints hf h he
  refine ⟨res, t, h1, h2, fun j hj => ⟨sizeOf res.cddl + 1, fun m hm => ?_⟩⟩
  rw [jsonText_unique hj h3]
  exact readFile_json hu (by omega) fun rules hr => parsed_fit h1 hr hl

/-- **C90** (partial), for two sources: if the same is printed for both, their trees are the same, up to
floating point numbers with the same text. -/
theorem C90_same_tree_partial [Unicode] {n n' : Nat} {src src' : Bytes} {r r' : CmdResult} {text : Msg → Bytes}
    {lib : JsonLib} (hf : ∀ v, JNumber (lib.float v)) {unfloat : Bytes → FloatVal} {rep : FloatVal → FloatVal}
    (hu : ∀ v, unfloat (lib.float v) = rep v) (hl : NoLexErrors src) (hl' : NoLexErrors src')
    (h : parseCmd text lib n src = .ok r) (he : r.err = none)
    (h' : parseCmd text lib n' src' = .ok r') (he' : r'.err = none) (hs : r.stdout = r'.stdout) :
    ∃ res res', parseSource n src = .ok res ∧ parseSource n' src' = .ok res' ∧
      res.cddl.map (floatsL rep) = res'.cddl.map (floatsL rep) := by
  obtain ⟨res, t, h1, h2, h3⟩ := C90_read_back_partial hf hu hl h he
  obtain ⟨res', t', h1', h2', h3'⟩ := C90_read_back_partial hf hu hl' h' he'
  refine ⟨res, res', h1, h1', ?_⟩
  rw [h2, h2'] at hs
  cases hs
  obtain ⟨_, u, _, hp, hj⟩ := parse_prints hf h he
  rw [h2] at hp
  cases hp
  obtain ⟨M, hM⟩ := h3 _ hj
  obtain ⟨M', hM'⟩ := h3' _ hj
  have := (hM (M + M') (by omega)).symm.trans (hM' (M + M') (by omega))
  exact Option.some.inj this

/-- Two sources with an unterminated string; the last characters have different first bytes. -/
def lostA : Bytes := b!"a = \"x" ++ [0xC3, 0xA9]
def lostB : Bytes := b!"a = \"x" ++ [0xD0, 0xB9]

/-- **C90 is false as stated**: `ParseFile` returns different trees for `a = "x\u00e9` and `a = "x\u0439`, both
without a diagnostic, and `cddlc parse` prints the same text for both. -/
theorem C90_refuted (text : Msg → Bytes) (lib : JsonLib) : letI := asciiOnly; ∃ res res' r r',
    parseSource 30 lostA = .ok res ∧ parseSource 30 lostB = .ok res' ∧ res.errs = [] ∧ res'.errs = [] ∧
    res.cddl ≠ res'.cddl ∧ parseCmd text lib 30 lostA = .ok r ∧ parseCmd text lib 30 lostB = .ok r' ∧
    r.err = none ∧ r'.err = none ∧ r.stdout = r'.stdout := by
  letI := asciiOnly
  have key : ∀ c : UInt8, c = 0xC3 ∨ c = 0xD0 → ∃ res, parseSource 30 (if c = 0xC3 then lostA else lostB) = .ok res ∧
      res.errs = [] ∧ res.cddl = some [.rule {} ⟨⟨0, 1, 1, []⟩, b!"a"⟩
        (.textLit ⟨4, 1, 5, []⟩ .TEXT_LITERAL [120, c]) none] := by
    have pick : ∀ {rules : List Node} {errs : List Diag} {c : UInt8},
        (match rules, errs with
        | [.rule p ⟨q, k⟩ (.textLit u .TEXT_LITERAL w) none], [] =>
          decide (p = {} ∧ q = ⟨0, 1, 1, []⟩ ∧ k = b!"a" ∧ u = ⟨4, 1, 5, []⟩ ∧ w = [120, c])
        | _, _ => false) = true →
        errs = [] ∧ rules = [.rule {} ⟨⟨0, 1, 1, []⟩, b!"a"⟩ (.textLit ⟨4, 1, 5, []⟩ .TEXT_LITERAL [120, c]) none] := by
      intro rules errs c h
      split at h
      · simp only [decide_eq_true_eq] at h
        obtain ⟨rfl, rfl, rfl, rfl, rfl⟩ := h
        exact ⟨rfl, rfl⟩
      · cases h
    rintro c (rfl | rfl)
    · obtain ⟨res, rules, h1, h2, h3⟩ := of_parses (n := 30) (src := lostA) (f := fun rules errs =>
        match rules, errs with
        | [.rule p ⟨q, k⟩ (.textLit u .TEXT_LITERAL w) none], [] =>
          decide (p = {} ∧ q = ⟨0, 1, 1, []⟩ ∧ k = b!"a" ∧ u = ⟨4, 1, 5, []⟩ ∧ w = [120, 0xC3])
        | _, _ => false) (by decide_cbv)
      exact ⟨res, h1, (pick h3).1, by rw [h2, (pick h3).2]⟩
    · obtain ⟨res, rules, h1, h2, h3⟩ := of_parses (n := 30) (src := lostB) (f := fun rules errs =>
        match rules, errs with
        | [.rule p ⟨q, k⟩ (.textLit u .TEXT_LITERAL w) none], [] =>
          decide (p = {} ∧ q = ⟨0, 1, 1, []⟩ ∧ k = b!"a" ∧ u = ⟨4, 1, 5, []⟩ ∧ w = [120, 0xD0])
        | _, _ => false) (by decide_cbv)
      exact ⟨res, h1, (pick h3).1, by rw [h2, (pick h3).2]⟩
  obtain ⟨res, h1, h2, h3⟩ := key 0xC3 (Or.inl rfl)
  obtain ⟨res', h1', h2', h3'⟩ := key 0xD0 (Or.inr rfl)
  rw [if_pos rfl] at h1
  rw [if_neg (by decide)] at h1'
  obtain ⟨r, h4, h5, h6, _⟩ := C61_parse_partial text lib h1
  obtain ⟨r', h4', h5', h6', _⟩ := C61_parse_partial text lib h1'
  have hd : ∀ c : UInt8, (cddlJson lib.float (some [.rule {} ⟨⟨0, 1, 1, []⟩, b!"a"⟩
        (.textLit ⟨4, 1, 5, []⟩ .TEXT_LITERAL [120, c]) none])).depth ≤ 10000 := fun c =>
    Nat.le_trans (cddl_depth lib.float _) (by simp [heightL, height])
  rw [h3] at h5 h6
  rw [h3'] at h5' h6'
  have e := h5.2 (hd _)
  have e' := h5'.2 (hd _)
  refine ⟨res, res', r, r', h1, h1', h2, h2', ?_, h4, h4', e, e', ?_⟩
  · rw [h3, h3']
    simp
  · rw [h6, h6', e, e', if_pos rfl, if_pos rfl]
    have : jsonString lib.short [120, 0xC3] = jsonString lib.short [120, 0xD0] := by
      cases lib.short <;> decide +kernel
    simp only [cddlJson, Node.json, nodesJson, JVal.print, printFields, printVals, this]

/-! ### An example -/

/-- Floating point numbers as mantissa and exponent, backspace and form feed short. -/
def demoJson : JsonLib := ⟨fun v => decNat v.mant ++ (69 :: 45 :: decNat v.scale), true, fun _ => []⟩

/-- How to read the numbers of `demoJson`. -/
def demoUnfloat (t : Bytes) : FloatVal :=
  ⟨natOf (t.takeWhile (· ≠ 69)), natOf ((t.dropWhile (· ≠ 69)).drop 2)⟩

theorem demoJson_number (v : FloatVal) : JNumber (demoJson.float v) :=
  ⟨[], decNat v.mant, [], 69 :: 45 :: decNat v.scale, by simp [demoJson], Or.inl rfl, (decNat_int v.mant).1, Or.inl rfl,
    Or.inr ⟨69, [45], decNat v.scale, rfl, Or.inr rfl, Or.inr (Or.inr rfl), (decNat_int v.scale).1.1⟩⟩

theorem demoJson_back (v : FloatVal) : demoUnfloat (demoJson.float v) = v := by
  have hd : ∀ c ∈ decNat v.mant, decide (c ≠ 69) = true := by
    intro c hc
    have := (decNat_int v.mant).1.1.2 c hc
    simp only [jDigit, Bool.and_eq_true, decide_eq_true_eq] at this
    simp only [decide_eq_true_eq]
    rintro rfl
    exact absurd this.2 (by decide)
  unfold demoUnfloat demoJson
  simp only []
  rw [List.takeWhile_append_of_pos hd, List.dropWhile_append_of_pos hd]
  simp [natOf_decNat]

/-- A source with a comment, a name, texts and numbers. -/
def demoJ : Bytes := b!"; \"x\" & y\na = {k: tstr .size 3, 1 => \"<\\\"}\nb = a / [ * 1..2 ]"

/-- The hypotheses of C89 and C90 hold for it: it is parsed, `cddlc parse` succeeds, and its strings are
terminated. -/
example : letI := asciiOnly; NoLexErrors demoJ ∧ ∃ r, parseCmd (fun _ => []) demoJson 60 demoJ = .ok r ∧ r.err = none := by
  letI := asciiOnly
  refine ⟨noLexErrors_of_check (n := 60) (by decide_cbv), ?_⟩
  obtain ⟨res, rules, h1, h2, h3⟩ := of_parses (n := 60) (src := demoJ) (f := fun _ errs =>
    decide (errs = [])) (by decide_cbv)
  exact C61_short _ _ h1 (by decide +kernel)

end Cddlc
