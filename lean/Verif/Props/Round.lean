import Verif.Lemmas.RoundFacts
import Verif.Lemmas.DemoSchema
import Verif.Lemmas.Check
import Verif.Props.Lexer

/-! Schemas written as text and read back (C23), integer literals (C24), choices (C25), comments
(C26), occurrences (C27), entries of groups and arrays (C28), tags (C29), ranges (C30), controls (C31,
C32). Everything is about `ParseFile` on the text of a schema (`Schema.WrittenAs`); the tree a schema
stands for is `Schema.nodes` (Spec/Schema.lean). -/

namespace Cddlc
open Spec

variable [Unicode]

/-! ### C23 -/

/-- **C23**: whatever the text of a supported schema, `ParseFile` returns its rules and comments in
order, each with the tree it stands for, as far as the parser keeps it (`nodes true`), and exactly these
errors: one per repeated declaration and one per failed check of a name. -/
theorem C23_schema_read_back {s : Schema} (hs : s.WF) {src : Bytes} (hw : s.WrittenAs src) :
    ∃ N, ∀ n, N ≤ n → ∃ rules res, parseSource n src = .ok res ∧ res.cddl = some rules ∧
      noPosL rules = s.nodes true ∧ res.errs.map (fun d => noPosMsg d.msg) = s.errors := by
  obtain ⟨g, ps, h1, h2, h3, h4, rfl⟩ := hw
  exact ⟨ps.length + 3, fun n hn => schema_parse hs h1 h2 h3 h4 hn⟩

/-- **C23**: for plain schemas that is exactly the tree that was written. -/
theorem C23_plain_schema_read_back {s : Schema} (hs : s.WF) (hpl : ∀ r ∈ s.rules, r.body.plain = true)
    {src : Bytes} (hw : s.WrittenAs src) :
    ∃ N, ∀ n, N ≤ n → ∃ rules res, parseSource n src = .ok res ∧ res.cddl = some rules ∧
      noPosL rules = s.nodes false ∧ res.errs.map (fun d => noPosMsg d.msg) = s.errors := by
  obtain ⟨N, h⟩ := C23_schema_read_back hs hw
  refine ⟨N, fun n hn => ?_⟩
  obtain ⟨rules, res, h1, h2, h3, h4⟩ := h n hn
  refine ⟨rules, res, h1, h2, ?_, h4⟩
  rw [h3]
  unfold Schema.nodes SRule.node
  congr 1
  have aux : ∀ rs : List SRule, (∀ r ∈ rs, r.body.plain = true) →
      rs.flatMap (fun r => commentNodes r.lead ++ [Node.rule {} ⟨{}, enc r.name⟩ (r.body.node true) none]) =
      rs.flatMap (fun r => commentNodes r.lead ++ [Node.rule {} ⟨{}, enc r.name⟩ (r.body.node false) none]) := by
    intro rs h
    induction rs with
    | nil => rfl
    | cons r rs ih =>
      rw [List.flatMap_cons, List.flatMap_cons, ih fun r hr => h r (by simp [hr]), plain_node (h r (by simp))]
  exact aux _ hpl

omit [Unicode] in
/-- When a schema has no errors. -/
theorem errors_nil (s : Schema) : s.errors = [] ↔
    ((s.rules.filter (·.assign = .eq)).map fun r => enc r.name).Nodup ∧
    ∀ r ∈ s.rules, ∀ c ∈ r.body.checks, c.failure (kindOf s.rules) = none := by
  unfold Schema.errors
  rw [List.append_eq_nil_iff, List.map_eq_nil_iff, duplicates_nil, List.filterMap_eq_nil_iff]
  simp only [List.not_mem_nil, not_false_eq_true, implies_true, and_true, List.mem_flatMap]
  constructor
  · rintro ⟨a, b⟩
    exact ⟨a, fun r hr c hc => b c ⟨r, hr, hc⟩⟩
  · rintro ⟨a, b⟩
    exact ⟨a, fun c ⟨r, hr, hc⟩ => b r hr c hc⟩

/-- **C23**: when there are no errors: no name is declared twice, and no check fails; in particular
every name used as a type (and not starting with `$`) is declared with `=`. -/
theorem C23_no_errors {s : Schema} (hs : s.WF) {src : Bytes} (hw : s.WrittenAs src) :
    ∃ N, ∀ n, N ≤ n → ∃ res, parseSource n src = .ok res ∧ (res.errs = [] ↔
      ((s.rules.filter (·.assign = .eq)).map fun r => enc r.name).Nodup ∧
      ∀ r ∈ s.rules, ∀ c ∈ r.body.checks, c.failure (kindOf s.rules) = none) := by
  obtain ⟨N, h⟩ := C23_schema_read_back hs hw
  refine ⟨N, fun n hn => ?_⟩
  obtain ⟨rules, res, h1, h2, h3, h4⟩ := h n hn
  exact ⟨res, h1, by rw [← errors_nil, ← h4, List.map_eq_nil_iff]⟩

omit [Unicode] in
/-- Every supported schema made of allowed token texts has a text. -/
theorem schema_has_text {s : Schema} (hs : s.WF) (h : ∀ p ∈ s.pieces, p.WF) : s.WrittenAs s.render :=
  render_written hs h

/-- The example schema is supported, plain and has a text, and there are no errors in it. -/
example : demoS.WF ∧ (∀ r ∈ demoS.rules, r.body.plain = true) ∧ demoS.WrittenAs demoS.render ∧
    demoS.errors = [] :=
  ⟨demoS_wf, demoS_plain, render_written demoS_wf demoS_pieces, by decide +kernel⟩

/-- Any rule of a schema is read back, at its place. -/
theorem C23_rule_read_back {s : Schema} (hs : s.WF) {src : Bytes} (hw : s.WrittenAs src) {i : Nat} {r : SRule}
    (hr : s.rules[i]? = some r) :
    ∃ N, ∀ n, N ≤ n → ∃ rules res x, parseSource n src = .ok res ∧ res.cddl = some rules ∧
      ruleValue rules i = some (enc r.name, x) ∧ noPos x = r.body.node true := by
  obtain ⟨N, h⟩ := C23_schema_read_back hs hw
  refine ⟨N, fun n hn => ?_⟩
  obtain ⟨rules, res, h1, h2, h3, _⟩ := h n hn
  obtain ⟨x, h4, h5⟩ := rules_of h3 hr
  exact ⟨rules, res, x, h1, h2, h4, h5⟩

/-! ### C24 -/

/-- **C24**: the decimal, hexadecimal, octal and binary spelling of a number is read as that number: a rule
with such a value in a supported schema (which means that the number is below 2^63) is read back with it. -/
theorem C24_value_kept {v : Nat} {b : Piece}
    (hb : b ∈ [Piece.dec (Nat.toDigits 10 v), .hex (Nat.toDigits 16 v), .oct (Nat.toDigits 8 v), .bin (Nat.toDigits 2 v)])
    {s : Schema} (hs : s.WF) {src : Bytes} (hw : s.WrittenAs src) {i : Nat} {r : SRule}
    (hr : s.rules[i]? = some r) (hbody : r.body = .int b) :
    ∃ N, ∀ n, N ≤ n → ∃ rules res pos, parseSource n src = .ok res ∧ res.cddl = some rules ∧
      ruleValue rules i = some (enc r.name, .intLit pos .INT v) := by
  obtain ⟨N, h⟩ := C23_rule_read_back hs hw hr
  refine ⟨N, fun n hn => ?_⟩
  obtain ⟨rules, res, x, h1, h2, h3, h4⟩ := h n hn
  rw [hbody] at h4
  obtain ⟨pos, rfl⟩ := noPos_intLit h4
  refine ⟨rules, res, pos, h1, h2, ?_⟩
  rw [h3, (spellings v b hb).2]
  rfl

omit [Unicode] in
/-- All these spellings are allowed, so that such schemas exist: `name = <spelling>`. -/
theorem spellings_allowed {v : Nat} (hv : v < 2 ^ 63) {b : Piece}
    (hb : b ∈ [Piece.dec (Nat.toDigits 10 v), .hex (Nat.toDigits 16 v), .oct (Nat.toDigits 8 v), .bin (Nat.toDigits 2 v)])
    {w : List Char} (hw : (Piece.word w).WF) (hi : word w = .IDENT) :
    Schema.WF ⟨[⟨[], w, .eq, .int b⟩], []⟩ ∧
    Schema.WrittenAs ⟨[⟨[], w, .eq, .int b⟩], []⟩ (Schema.render ⟨[⟨[], w, .eq, .int b⟩], []⟩) := by
  obtain ⟨h1, h2⟩ := spellings v b hb
  have hs : Schema.WF ⟨[⟨[], w, .eq, .int b⟩], []⟩ := by
    intro r hr
    rw [List.mem_singleton.mp hr]
    refine ⟨hi, ⟨v, h2, hv⟩, ?_⟩
    rintro (h | ⟨_, _, _, h, _⟩) <;> cases h
  refine ⟨hs, ?_⟩
  · apply render_written hs
    intro p hp
    simp only [Schema.pieces, SRule.pieces, List.flatMap_cons, List.flatMap_nil, List.map_nil, List.nil_append,
      List.append_nil, Ty.pieces, List.mem_cons, List.not_mem_nil, or_false] at hp
    rcases hp with rfl | rfl | rfl
    · exact hw
    · show Piece.WF (.op "=" .ASSIGN)
      decide
    · exact h1

/-- **C24**: a spelling of a larger number as the value of the last rule is rejected: the rule has no
value, and an error says that an integer was expected. -/
theorem C24_too_large_rejected {v : Nat} (hv : 2 ^ 63 ≤ v) {b : Piece}
    (hb : b ∈ [Piece.dec (Nat.toDigits 10 v), .hex (Nat.toDigits 16 v), .oct (Nat.toDigits 8 v), .bin (Nat.toDigits 2 v)])
    {rs : List SRule} (hs : Schema.WF ⟨rs, []⟩) {w : List Char} (hi : word w = .IDENT) {src : Bytes}
    (hw : Schema.WrittenAs ⟨rs ++ [⟨[], w, .eq, .int b⟩], []⟩ src) :
    ∃ N, ∀ n, N ≤ n → ∃ rules pos d res, parseSource n src = .ok res ∧
      res.cddl = some (rules ++ [.rule {} ⟨pos, enc w⟩ .nil none]) ∧
      noPosL rules = Schema.nodes true ⟨rs, []⟩ ∧ d ∈ res.errs ∧ noPosMsg d.msg = .tokenExpected .INT {} := by
  obtain ⟨h1, h2⟩ := spellings v b hb
  obtain ⟨g, ps, k1, k2, k3, k4, rfl⟩ := hw
  refine ⟨ps.length + 3, fun n hn => ?_⟩
  refine fail_parse hs hi (fail_big h1 h2 hv) k1 k2 k3 ?_ hn
  rw [k4]
  simp [Schema.pieces, SRule.pieces, Ty.pieces]

/-- The bounds are sharp: 2^63 - 1 and 2^63. -/
example : (Piece.dec "9223372036854775807".toList) = .dec (Nat.toDigits 10 (2 ^ 63 - 1)) ∧
    (Piece.hex "8000000000000000".toList) = .hex (Nat.toDigits 16 (2 ^ 63)) := by decide +kernel

/-! ### C25 -/

/-- **C25**: `t / u1 / ... / un` is read as a choice with exactly these alternatives from left to right. -/
theorem C25_alternatives_in_order {s : Schema} (hs : s.WF) {src : Bytes} (hw : s.WrittenAs src) {i : Nat} {r : SRule}
    (hr : s.rules[i]? = some r) {t : Ty} {us : List Ty} (hbody : r.body = .choices t us)
    (hlast : ∀ u ∈ (t :: us).getLast?, (u.node true).kind ≠ .typeChoice) :
    ∃ N, ∀ n, N ≤ n → ∃ rules res x, parseSource n src = .ok res ∧ res.cddl = some rules ∧
      ruleValue rules i = some (enc r.name, x) ∧ (alternatives x).map noPos = (t :: us).map (·.node true) := by
  obtain ⟨N, h⟩ := C23_rule_read_back hs hw hr
  refine ⟨N, fun n hn => ?_⟩
  obtain ⟨rules, res, x, h1, h2, h3, h4⟩ := h n hn
  refine ⟨rules, res, x, h1, h2, h3, ?_⟩
  rw [← alternatives_noPos, h4, hbody, choices_node true t us hlast]

omit [Unicode] in
/-- Choices between any operands are supported. -/
theorem choices_supported (t : Ty) (us : List Ty) (h : ∀ u ∈ t :: us, u.atom = true ∧ u.WF) :
    (Ty.choices t us).WF := by
  induction us generalizing t with
  | nil => exact (h t (by simp)).2
  | cons u us ih =>
    have ht := h t (by simp)
    exact ⟨ht.1, ht.2, ih u fun v hv => h v (by simp [hv]), trivial⟩

example : ∃ r : SRule, demoS.rules[2]? = some r ∧ r.body = .choices (.int (.hex ['1', '0']))
    [.text ['x'], .tagged (.both ['6'] ['3', '2']) (.kw .TSTR)] := ⟨_, rfl, rfl⟩

/-! ### C26 -/

omit [Unicode] in
/-- **C26**, refuted: a comment behind a rule, comments on their own line before a closing parenthesis
and before `*`, and a comment behind an entry, its comma and before `*` all change the rules. -/
theorem C26_refuted : letI := asciiOnly
    (parses 60 b!"a = int ; c\nb = tstr" (fun rs es => rs.length = 1 && es.length = 2) = true ∧
     parses 60 b!"a = int\nb = tstr" (fun rs es => rs.length = 2 && es.isEmpty) = true) ∧
    (parses 60 b!"a = ( a\n; c\n)" (fun _ es => es.length = 2) = true ∧
     parses 60 b!"a = ( a\n)" (fun _ es => es.isEmpty) = true) ∧
    (parses 60 b!"a = [ a\n; c\n* a ]" (fun _ es => es.isEmpty) = true ∧
     parses 60 b!"a = [ a\n* a ]" (fun _ es => es.length = 3) = true) ∧
    (parses 60 b!"a = [k: int, ; c\n* tstr]" (fun _ es => es.length = 3) = true ∧
     parses 60 b!"a = [k: int,\n* tstr]" (fun _ es => es.isEmpty) = true) := by
  decide_cbv

/-- **C26**, what holds: comments before, between and after rules, in front of types, entries and
operands, and behind entries and their commas leave the rules and the errors of plain schemas as they are
without them, but for the comments that entries keep. (Missing: comments behind rules and before closing
brackets, and schemas that without the comments are read differently; there the claim is false.) -/
theorem C26_comments_partial {s : Schema} (hs : s.WF) (hs' : s.strip.WF)
    (hpl : ∀ r ∈ s.strip.rules, r.body.plain = true) {src src' : Bytes} (hw : s.WrittenAs src)
    (hw' : s.strip.WrittenAs src') :
    ∃ N, ∀ n, N ≤ n → ∃ rules res rules' res', parseSource n src = .ok res ∧ res.cddl = some rules ∧
      parseSource n src' = .ok res' ∧ res'.cddl = some rules' ∧
      (noNotesL (noPosL rules)).filter (·.kind = .rule) = noPosL rules' ∧
      res.errs.map (fun d => noPosMsg d.msg) = res'.errs.map (fun d => noPosMsg d.msg) := by
  have hst : ∀ r ∈ s.rules, r.strip.body.plain = true := fun r hr =>
    hpl r.strip (List.mem_map.mpr ⟨r, hr, rfl⟩)
  obtain ⟨N, h⟩ := C23_plain_schema_read_back hs (fun r hr => strip_plain (hst r hr)) hw
  obtain ⟨N', h'⟩ := C23_plain_schema_read_back hs' hpl hw'
  refine ⟨max N N', fun n hn => ?_⟩
  obtain ⟨rules, res, a1, a2, a3, a4⟩ := h n (by omega)
  obtain ⟨rules', res', b1, b2, b3, b4⟩ := h' n (by omega)
  refine ⟨rules, res, rules', res', a1, a2, b1, b2, ?_, by rw [a4, b4, strip_errors hst]⟩
  rw [a3, b3, notes_nodes]
  have : (s.strip.nodes false).filter (·.kind = .rule) = s.strip.nodes false := by
    rw [List.filter_eq_self]
    intro x hx
    simp only [Schema.nodes, Schema.strip, List.mem_append, List.mem_flatMap, List.mem_map, commentNodes,
      List.not_mem_nil, or_false] at hx
    obtain ⟨r, ⟨r', _, rfl⟩, hx⟩ := hx
    rcases hx with hx | hx
    · cases hx
    · rw [List.mem_singleton.mp hx]; rfl
  rw [← this, rule_nodes]
  simp only [Schema.strip, List.map_map]
  congr 1
  funext r
  show _ = r.strip.node false
  simp only [Function.comp, SRule.node, SRule.strip, strip_node, noNotes]

omit [Unicode] in
/-- The example schema has comments at all these places, and both texts exist. -/
example : demoS.WF ∧ demoS.strip.WF ∧ (∀ r ∈ demoS.strip.rules, r.body.plain = true) ∧ demoS.WrittenAs demoS.render ∧
    demoS.strip.WrittenAs demoS.strip.render ∧ demoS.strip.pieces.length < demoS.pieces.length :=
  ⟨demoS_wf, demoS_strip_wf, by decide +kernel, render_written demoS_wf demoS_pieces,
    render_written demoS_strip_wf demoS_strip_pieces, by decide +kernel⟩

/-! ### C27 -/

/-- **C27**, what holds: `* t`, `+ t`, `n* t` and `n+ t`, with `t` not starting with a number, are read as
occurrences with that lower bound, no upper bound and the item `t`. (Missing: upper bounds, where the
claim is false.) -/
theorem C27_lower_bound_partial {s : Schema} (hs : s.WF) {src : Bytes} (hw : s.WrittenAs src) {i : Nat} {r : SRule}
    (hr : s.rules[i]? = some r) {t : Ty} (ht : t.firstInt = none) {lo : Nat} {tok : Tok}
    (hbody : (∃ plus, r.body = .occ plus t ∧ lo = (if plus then 1 else 0) ∧ tok = (occOp plus).tok) ∨
      ∃ o a, r.body = .bin o (.int a) t ∧ numeral a = some lo ∧ (o = .star ∧ tok = .ZERO_OR_MORE ∨ o = .plus ∧ tok = .ONE_OR_MORE)) :
    ∃ N, ∀ n, N ≤ n → ∃ rules res x, parseSource n src = .ok res ∧ res.cddl = some rules ∧
      ruleValue rules i = some (enc r.name, x) ∧
      noPos x = .nm {} tok (some ⟨{}, .UINT, lo⟩) none (t.node true) := by
  obtain ⟨N, h⟩ := C23_rule_read_back hs hw hr
  refine ⟨N, fun n hn => ?_⟩
  obtain ⟨rules, res, x, h1, h2, h3, h4⟩ := h n hn
  refine ⟨rules, res, x, h1, h2, h3, ?_⟩
  rw [h4]
  rcases hbody with ⟨plus, hb, rfl, rfl⟩ | ⟨o, a, hb, ha, ⟨rfl, rfl⟩ | ⟨rfl, rfl⟩⟩
  · rw [hb, Ty.node, ht]; rfl
  · rw [hb, Ty.node, ht, Ty.node, ha]; rfl
  · rw [hb, Ty.node, ht, Ty.node, ha]; rfl

/-- **C27**, refuted: `( a*b t )` is never read as `t` between `a` and `b` times: whatever the numbers and
the type, it is read as the number `b` between `a` and `b` times, followed by one `t` (which the group
keeps only if it is of one of the kinds in `ast.GroupEntry`). -/
theorem C27_refuted {s : Schema} (hs : s.WF) {src : Bytes} (hw : s.WrittenAs src) {i : Nat} {r : SRule}
    (hr : s.rules[i]? = some r) {a b : Piece} {lo hi : Nat} (ha : numeral a = some lo) (hb : numeral b = some hi) {t : Ty}
    (hbody : r.body = .list .paren (.cons (.bin .star (.int a) (.int b)) false (.cons t false .nil))) :
    ∃ N, ∀ n, N ≤ n → ∃ rules res x, parseSource n src = .ok res ∧ res.cddl = some rules ∧
      ruleValue rules i = some (enc r.name, x) ∧
      noPos x = .group {} (.nm {} .ZERO_OR_MORE (some ⟨{}, .UINT, lo⟩) (some ⟨{}, .INT, hi⟩) (.intLit {} .INT hi) ::
        if listable (t.node true).kind then [t.node true] else []) := by
  obtain ⟨N, h⟩ := C23_rule_read_back hs hw hr
  refine ⟨N, fun n hn => ?_⟩
  obtain ⟨rules, res, x, h1, h2, h3, h4⟩ := h n hn
  refine ⟨rules, res, x, h1, h2, h3, ?_⟩
  rw [h4, hbody]
  simp only [Ty.node, Ents.nodes, Br.node, Bin.node, Ty.firstInt, ha, hb, lowNum, if_true, Option.getD_some, Option.map_some]
  rw [List.filter_cons_of_pos (by rfl)]
  congr 2
  cases hg : listable (t.node true).kind <;> simp [hg]

omit [Unicode] in
/-- The token texts are `( 2 * 3 tstr )`, as for the occurrence of `tstr` two to three times. -/
example : (Ty.list .paren (.cons (.bin .star (.int (.dec ['2'])) (.int (.dec ['3']))) false
      (.cons (.kw .TSTR) false .nil))).pieces.map (fun p => String.ofList p.render) = ["(", "2", "*", "3", "tstr", ")"] ∧
    (Ty.list .paren (.cons (.bin .star (.int (.dec ['2'])) (.int (.dec ['3']))) false (.cons (.kw .TSTR) false .nil))).WF := by
  refine ⟨by decide +kernel, ?_⟩
  simp only [Ty.WF, Ents.WF, Bin.fits, Ty.atom, Int63, numeral]
  exact ⟨⟨trivial, ⟨2, by decide⟩, ⟨3, by decide⟩, _, rfl⟩, ⟨by decide, trivial, by decide⟩, by decide⟩

/-! ### C28 -/

/-- **C28**, what holds: a group or array is read with exactly those of its entries, in order, that are of
one of the kinds in `ast.GroupEntry`; a map with all of them. (Missing: entries of other kinds, which are
lost.) -/
theorem C28_kept_entries_partial {s : Schema} (hs : s.WF) {src : Bytes} (hw : s.WrittenAs src) {i : Nat} {r : SRule}
    (hr : s.rules[i]? = some r) {br : Br} {es : Ents} (hbody : r.body = .list br es) :
    ∃ N, ∀ n, N ≤ n → ∃ rules res x xs, parseSource n src = .ok res ∧ res.cddl = some rules ∧
      ruleValue rules i = some (enc r.name, x) ∧
      (∃ pos, x = match br with | .paren => .group pos xs | .brack => .array pos xs | .brace => .map pos xs) ∧
      xs.map noPos = (if br = .brace then es.nodes true else (es.nodes true).filter (listable ·.kind)) := by
  obtain ⟨N, h⟩ := C23_rule_read_back hs hw hr
  refine ⟨N, fun n hn => ?_⟩
  obtain ⟨rules, res, x, h1, h2, h3, h4⟩ := h n hn
  rw [hbody] at h4
  cases br with
  | paren =>
    cases x <;> try (simp [noPos, Ty.node, Br.node] at h4; done)
    rename_i pos xs
    refine ⟨rules, res, _, xs, h1, h2, h3, ⟨pos, rfl⟩, ?_⟩
    simpa [noPos, Ty.node, Br.node, noPosL_map] using h4
  | brack =>
    cases x <;> try (simp [noPos, Ty.node, Br.node] at h4; done)
    rename_i pos xs
    refine ⟨rules, res, _, xs, h1, h2, h3, ⟨pos, rfl⟩, ?_⟩
    simpa [noPos, Ty.node, Br.node, noPosL_map] using h4
  | brace =>
    cases x <;> try (simp [noPos, Ty.node, Br.node] at h4; done)
    rename_i pos xs
    refine ⟨rules, res, _, xs, h1, h2, h3, ⟨pos, rfl⟩, ?_⟩
    simpa [noPos, Ty.node, Br.node, noPosL_map] using h4

/-- **C28**, refuted: `[ t ]` with a type that is not of one of these kinds, such as `tstr`, is read as an empty
array, without any error. -/
theorem C28_refuted {s : Schema} (hs : s.WF) {src : Bytes} (hw : s.WrittenAs src) {i : Nat} {r : SRule}
    (hr : s.rules[i]? = some r) {t : Ty} {comma : Bool} (hbody : r.body = .list .brack (.cons t comma .nil))
    (hk : listable (t.node true).kind = false) :
    ∃ N, ∀ n, N ≤ n → ∃ rules res pos, parseSource n src = .ok res ∧ res.cddl = some rules ∧
      ruleValue rules i = some (enc r.name, .array pos []) := by
  obtain ⟨N, h⟩ := C28_kept_entries_partial hs hw hr hbody
  refine ⟨N, fun n hn => ?_⟩
  obtain ⟨rules, res, x, xs, h1, h2, h3, ⟨pos, rfl⟩, h4⟩ := h n hn
  refine ⟨rules, res, pos, h1, h2, ?_⟩
  have : xs = [] := by simpa [Ents.nodes, hk] using h4
  rw [h3, this]

omit [Unicode] in
example : letI := asciiOnly; parses 60 b!"a = [ tstr ]" (fun rs es => es.isEmpty &&
    rs.all fun | .rule _ _ (.array _ []) _ => true | _ => false) = true := by decide_cbv

/-! ### C29 -/

/-- **C29**: a tag is read with exactly its major type, number and item. -/
theorem C29_tags {s : Schema} (hs : s.WF) {src : Bytes} (hw : s.WrittenAs src) {i : Nat} {r : SRule}
    (hr : s.rules[i]? = some r) {h : TagNum} {item : Option Ty}
    (hbody : r.body = item.elim (.tag h) (.tagged h)) :
    ∃ N, ∀ n, N ≤ n → ∃ rules res pos major number x, parseSource n src = .ok res ∧ res.cddl = some rules ∧
      ruleValue rules i = some (enc r.name, .tag pos .HASH major number x) ∧
      major.map (·.value) = (match h with | .bare => none | .major m => numeral m | .both a _ => numeral (.dec a)) ∧
      number.map (·.value) = (match h with | .both _ b => numeral (.dec b) | _ => none) ∧
      noPos x = item.elim .nil (·.node true) := by
  obtain ⟨N, hN⟩ := C23_rule_read_back hs hw hr
  refine ⟨N, fun n hn => ?_⟩
  obtain ⟨rules, res, x, h1, h2, h3, h4⟩ := hN n hn
  have hwf : h.WF := by
    have := (hs r (List.mem_of_getElem? hr)).2.1
    rw [hbody] at this
    cases item with
    | none => exact this
    | some t => exact this.1
  have h5 : noPos x = .tag {} .HASH h.majorNum h.minorNum (item.elim .nil (·.node true)) := by
    rw [h4, hbody]
    cases item <;> rfl
  cases x <;> try (simp [noPos] at h5; done)
  rename_i pos tok major number item'
  simp only [noPos] at h5
  injection h5 with _ e1 e2 e3 e4
  subst e1
  refine ⟨rules, res, pos, major, number, item', h1, h2, h3, ?_, ?_, e4⟩
  · have e2' := congrArg (Option.map (·.value)) e2
    rw [Option.map_map] at e2'
    rw [show major.map (·.value) = h.majorNum.map (·.value) from e2']
    cases h with
    | bare => rfl
    | major m => obtain ⟨v, hv, _⟩ := hwf; simp [TagNum.majorNum, hv]
    | both a b => obtain ⟨⟨v, hv, _⟩, _⟩ := hwf; simp [TagNum.majorNum, hv]
  · have e3' := congrArg (Option.map (·.value)) e3
    rw [Option.map_map] at e3'
    rw [show number.map (·.value) = h.minorNum.map (·.value) from e3']
    cases h with
    | bare => rfl
    | major m => rfl
    | both a b => obtain ⟨_, ⟨v, hv, _⟩⟩ := hwf; simp [TagNum.minorNum, hv]

omit [Unicode] in
/-- **C29**, refuted for the closing parenthesis: it may be missing without any error. -/
theorem C29_missing_paren_refuted : letI := asciiOnly;
    parses 60 b!"a = #6(tstr\nb = int" (fun rs es => es.isEmpty && rs.length = 2 &&
      rs.any fun | .rule _ _ (.tag _ _ _ _ (.tstr _)) _ => true | _ => false) = true := by decide_cbv

/-! ### C30 -/

/-- **C30**: a range between integers, fractions or names, with ends of the same kind or one of them a name,
keeps both ends and the operator. (Missing: upper ends of other kinds, which are lost.) -/
theorem C30_ends_kept_partial {s : Schema} (hs : s.WF) {src : Bytes} (hw : s.WrittenAs src) {i : Nat} {r : SRule}
    (hr : s.rules[i]? = some r) {o : Bin} (ho : o.isRange = true) {l u : Ty} (hbody : r.body = .bin o l u)
    (hk : (l.node true).kind = .ident ∨ (u.node true).kind = .ident ∨ (u.node true).kind = (l.node true).kind) :
    ∃ N, ∀ n, N ≤ n → ∃ rules res pos x y, parseSource n src = .ok res ∧ res.cddl = some rules ∧
      ruleValue rules i = some (enc r.name, .range pos o.op.tok x y) ∧
      noPos x = l.node true ∧ noPos y = u.node true := by
  obtain ⟨N, h⟩ := C23_rule_read_back hs hw hr
  refine ⟨N, fun n hn => ?_⟩
  obtain ⟨rules, res, x, h1, h2, h3, h4⟩ := h n hn
  have hup : upperEnd true (l.node true) (u.node true) = u.node true := by
    unfold upperEnd
    rw [if_neg]
    simp only [Bool.true_and, Bool.and_eq_true, bne_iff_ne]
    rintro ⟨⟨a, b⟩, c⟩
    rcases hk with hk | hk | hk
    · exact a hk
    · exact b hk
    · exact c hk
  have h5 : noPos x = .range {} o.op.tok (l.node true) (u.node true) := by
    rw [h4, hbody, Ty.node]
    cases o <;> first | (cases ho; done) | simp only [Bin.node, hup]
  cases x <;> try (simp [noPos] at h5; done)
  rename_i pos tok x y
  simp only [noPos] at h5
  injection h5 with _ e1 e2 e3
  subst e1
  exact ⟨rules, res, pos, x, y, h1, h2, h3, e2, e3⟩

/-- **C30**: as the value of the last rule, a range from an integer to a fraction, or from a fraction to an
integer, is rejected. -/
theorem C30_mixed_rejected {o : Bin} (ho : o = .incl ∨ o = .excl) {l u : Ty} {m : Msg}
    (h : (∃ b, l = .int b ∧ (u.node true).kind = .floatLit ∧ m = .floatInIntRange) ∨
      (∃ a b, l = .float a b ∧ (u.node true).kind = .intLit ∧ m = .intInFloatRange))
    (hl : l.WF) (hu : u.WF) {rs : List SRule} (hs : Schema.WF ⟨rs, []⟩) {w : List Char} (hi : word w = .IDENT)
    {src : Bytes} (hw : Schema.WrittenAs ⟨rs ++ [⟨[], w, .eq, .bin o l u⟩], []⟩ src) :
    ∃ N, ∀ n, N ≤ n → ∃ rules pos d res, parseSource n src = .ok res ∧
      res.cddl = some (rules ++ [.rule {} ⟨pos, enc w⟩ .nil none]) ∧
      noPosL rules = Schema.nodes true ⟨rs, []⟩ ∧ d ∈ res.errs ∧ noPosMsg d.msg = m := by
  obtain ⟨g, ps, k1, k2, k3, k4, rfl⟩ := hw
  have hp : ∀ p ∈ l.pieces ++ o.op :: u.pieces, p.WF := by
    intro p hp
    have := pieces_wf k2
    rw [k4] at this
    refine this p ?_
    simp only [Schema.pieces, SRule.pieces, List.flatMap_append, List.mem_append, List.mem_flatMap,
      List.mem_cons] at hp ⊢
    refine .inl (.inr ⟨_, .inl rfl, ?_⟩)
    simpa [Ty.pieces] using .inr (.inr hp)
  refine ⟨ps.length + 3, fun n hn => ?_⟩
  refine fail_parse hs hi (fail_range ho hl (fun p h => hp p (by simp [h])) hu (fun p h => hp p (by simp [h])) h) k1 k2 k3 ?_ hn
  rw [k4]
  simp [Schema.pieces, SRule.pieces, Ty.pieces]

/-- **C30**, refuted: behind an integer, an upper end of any other kind than integer or name is dropped
without any error. -/
theorem C30_refuted {s : Schema} (hs : s.WF) {src : Bytes} (hw : s.WrittenAs src) {i : Nat} {r : SRule}
    (hr : s.rules[i]? = some r) {o : Bin} (ho : o.isRange = true) {b : Piece} {u : Ty}
    (hbody : r.body = .bin o (.int b) u) (hk : (u.node true).kind ≠ .ident ∧ (u.node true).kind ≠ .intLit) :
    ∃ N, ∀ n, N ≤ n → ∃ rules res x, parseSource n src = .ok res ∧ res.cddl = some rules ∧
      ruleValue rules i = some (enc r.name, x) ∧
      noPos x = .range {} o.op.tok (.intLit {} .INT ((numeral b).getD 0)) .nil := by
  obtain ⟨N, h⟩ := C23_rule_read_back hs hw hr
  refine ⟨N, fun n hn => ?_⟩
  obtain ⟨rules, res, x, h1, h2, h3, h4⟩ := h n hn
  refine ⟨rules, res, x, h1, h2, h3, ?_⟩
  have hup : upperEnd true ((Ty.int b).node true) (u.node true) = .nil := by
    unfold upperEnd
    rw [if_pos]
    simp only [Bool.true_and, Bool.and_eq_true, bne_iff_ne]
    exact ⟨⟨by simp [Ty.node, Node.kind], hk.1⟩, hk.2⟩
  rw [h4, hbody, Ty.node]
  cases o <;> first | (cases ho; done) | (simp only [Bin.node, hup]; rfl)

omit [Unicode] in
example : letI := asciiOnly; parses 60 b!"a = 1 .. tstr" (fun rs es => es.isEmpty &&
    rs.all fun | .rule _ _ (.range _ _ (.intLit _ _ 1) .nil) _ => true | _ => false) = true ∧
    parses 60 b!"a = 1 ... b\nb = 7" (fun rs es => es.isEmpty &&
      rs.any fun | .rule _ _ (.range _ .EXCLUSIVE_BOUND (.intLit _ _ 1) (.ident _)) _ => true | _ => false) = true := by
  decide_cbv

/-! ### C31, C32 -/

/-- **C31**: `b .size n` keeps both operands. -/
theorem C31_operands_kept {s : Schema} (hs : s.WF) {src : Bytes} (hw : s.WrittenAs src) {i : Nat} {r : SRule}
    (hr : s.rules[i]? = some r) {l u : Ty} (hbody : r.body = .bin .size l u) :
    ∃ N, ∀ n, N ≤ n → ∃ rules res pos x y, parseSource n src = .ok res ∧ res.cddl = some rules ∧
      ruleValue rules i = some (enc r.name, .size pos .SIZE y x) ∧ noPos x = l.node true ∧ noPos y = u.node true := by
  obtain ⟨N, h⟩ := C23_rule_read_back hs hw hr
  refine ⟨N, fun n hn => ?_⟩
  obtain ⟨rules, res, x, h1, h2, h3, h4⟩ := h n hn
  have h5 : noPos x = .size {} .SIZE (u.node true) (l.node true) := by rw [h4, hbody]; rfl
  cases x <;> try (simp [noPos] at h5; done)
  rename_i pos tok y x
  simp only [noPos] at h5
  injection h5 with _ e1 e2 e3
  subst e1
  exact ⟨rules, res, pos, x, y, h1, h2, h3, e3, e2⟩

/-- **C32**, what holds: `t .lt n` and the other comparisons keep the operator and the right operand, as
written. (Missing: the left operand, which is lost; `C32_refuted`.) -/
theorem C32_right_as_written_partial {s : Schema} (hs : s.WF) {src : Bytes} (hw : s.WrittenAs src) {i : Nat} {r : SRule}
    (hr : s.rules[i]? = some r) {o : Bin} (ho : o.isCmp = true) {l u : Ty} (hbody : r.body = .bin o l u) :
    ∃ N, ∀ n, N ≤ n → ∃ rules res pos y, parseSource n src = .ok res ∧ res.cddl = some rules ∧
      ruleValue rules i = some (enc r.name, .comparator pos o.op.tok (enc o.op.lit) (.typedNil .intType) y) ∧
      noPos y = u.node true := by
  obtain ⟨N, h⟩ := C23_rule_read_back hs hw hr
  refine ⟨N, fun n hn => ?_⟩
  obtain ⟨rules, res, x, h1, h2, h3, h4⟩ := h n hn
  have h5 : noPos x = .comparator {} o.op.tok (enc o.op.lit) (.typedNil .intType) (u.node true) := by
    rw [h4, hbody, Ty.node]
    cases o <;> first | (cases ho; done) | rfl
  cases x <;> try (simp [noPos] at h5; done)
  rename_i pos tok op left right
  simp only [noPos] at h5
  injection h5 with _ e1 e2 e3 e4
  subst e1 e2
  have : left = .typedNil .intType := by
    cases left <;> first | (simp [noPos] at e3; done) | (simpa [noPos] using e3)
  subst this
  exact ⟨rules, res, pos, right, h1, h2, h3, e4⟩

omit [Unicode] in
/-- Such schemas exist. -/
example : ((Ty.bin .size (.kw .UINT) (.int (.dec ['3']))).WF) ∧ ((Ty.bin .lt (.kw .UINT) (.int (.dec ['5']))).WF) := by
  simp only [Ty.WF, Bin.fits, Ty.atom, Int63, numeral]
  exact ⟨⟨by decide, by decide, ⟨3, by decide⟩, by simp⟩, by decide, by decide, ⟨5, by decide⟩, by simp⟩

end Cddlc
