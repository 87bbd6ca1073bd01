import Verif.Lemmas.TermFile
import Verif.Lemmas.CheckTame
import Verif.Props.Parser

/-! `ParseFile` terminates on every clean source (C15), and on which it returns (C16). -/

namespace Cddlc
open Spec

variable [Unicode]

omit [Unicode] in
/-- Text without U+FFFD is clean. -/
theorem clean_enc {cs : List Char} (h : '�' ∉ cs) : Clean (enc cs) := ⟨cs, h, rfl⟩

/-! ### C15 -/

/-- **C15**: on a clean source `NewParser` and `ParseFile` return or panic. There is one outcome,
and it is reached with any recursion budget of at least the length of the source plus two; a
program that loops or recurses for ever would exhaust every budget. -/
theorem C15_terminates {src : Bytes} {env : Env} (hc : Clean src) :
    ∃ o, o ≠ .hang ∧ ∀ n, src.length + 2 ≤ n → parseSource n src env = o := by
  have h : ∀ n, src.length + 2 ≤ n → parseSource n src env ≠ .hang :=
    fun n hn => (parseSource_tot (s := False) hc nofun nofun hn).1
  refine ⟨parseSource (src.length + 2) src env, h _ (Nat.le_refl _), fun n hn => ?_⟩
  rcases parseSource_le (src := src) (env := env) hn with he | he
  · exact absurd he (h _ (Nat.le_refl _))
  · exact he.symm

omit [Unicode] in
/-- The source of the examples is clean. -/
example : Clean demoP := clean_enc (cs := "a = int\n;n\nc /= a\na = [x: a, * c]".toList) (by decide)

omit [Unicode] in
/-- The hypothesis is needed: on a byte that is not UTF-8 no budget is enough (C02). -/
example : letI := asciiOnly; parseSource 100 (b!"a = int " ++ [255]) = .hang := by
  letI := asciiOnly
  have : (match parseSource 100 (b!"a = int " ++ [255]) with | .hang => true | _ => false) = true := by
    decide_cbv
  split at this
  · assumption
  · cases this

/-! ### C16 -/

omit [Unicode] in
/-- **C16** is false: `ParseFile` panics on short clean sources, for every budget that suffices. An
occurrence mark after a type, a duplicate of a comparison, `.bits` or `.regexp` on the wrong operand,
a range over types, and a lone quote at the end of a line. -/
theorem C16_refuted : letI := asciiOnly;
    ∀ src ∈ [b!"a = # * int", b!"a = int .lt 5 a = int", b!"a = uint .bits", b!"a = int .regexp \"x\"",
      b!"a = int .. int\na = int", b!"a = \"\n"],
    Clean src ∧ ∀ n, 30 ≤ n → ∃ w, parseSource n src = .panic w := by
  letI := asciiOnly
  have key : ∀ {src : Bytes}, Clean src → (parseSource 30 src).panics = true →
      Clean src ∧ ∀ n, 30 ≤ n → ∃ w, parseSource n src = .panic w := by
    intro src hc hp
    obtain ⟨w, hw⟩ := Out.of_panics hp
    refine ⟨hc, fun n hn => ⟨w, ?_⟩⟩
    rcases parseSource_le (src := src) (env := Env.new) hn with he | he
    · rw [hw] at he; cases he
    · rw [← he, hw]
  intro src hs
  simp only [List.mem_cons, List.not_mem_nil, or_false] at hs
  rcases hs with rfl | rfl | rfl | rfl | rfl | rfl
  · exact key (clean_enc (cs := "a = # * int".toList) (by decide)) (by decide_cbv)
  · exact key (clean_enc (cs := "a = int .lt 5 a = int".toList) (by decide)) (by decide_cbv)
  · exact key (clean_enc (cs := "a = uint .bits".toList) (by decide)) (by decide_cbv)
  · exact key (clean_enc (cs := "a = int .regexp \"x\"".toList) (by decide)) (by decide_cbv)
  · exact key (clean_enc (cs := "a = int .. int\na = int".toList) (by decide)) (by decide_cbv)
  · exact key (clean_enc (cs := "a = \"\n".toList) (by decide)) (by decide_cbv)

/-- **C16** (what holds): `ParseFile` returns, whatever the (usable) environment, on a clean source in which no
quote ends a line; `*` and `+` stand only where an operand must follow, or behind one token that is an operand and
no number of a tag; `.regexp` stands only behind `tstr` and `text`; `.bits` has as operand a name or type that is
one token; and no name is declared twice, or there are no comparisons and all ranges start with a name or a
number. In the latter case what is bound afterwards is usable again. -/
theorem C16_returns_partial {src : Bytes} {env : Env} (hc : Clean src) (hs : Safe (Lexer.new src))
    (henv : ∀ k, env.exists? k = true → ∃ pos, (env.get k).start = .ok pos) :
    ∃ res, (∀ n, src.length + 2 ≤ n → parseSource n src env = .ok res) ∧ (Comparable (Lexer.new src) →
      ∀ k, res.final.env.exists? k = true → ∃ pos, (res.final.env.get k).start = .ok pos) := by
  obtain ⟨o, ho, h⟩ := C15_terminates (env := env) hc
  cases o with
  | ok res =>
    have := (parseSource_tot (s := True) (env := env) hc (fun _ => hs) (fun _ => henv)
      (Nat.le_refl _)).2.2 res (h _ (Nat.le_refl _)) trivial
    exact ⟨res, h, this⟩
  | panic w =>
    have := (parseSource_tot (s := True) (env := env) hc (fun _ => hs) (fun _ => henv)
      (Nat.le_refl _)).2.1 trivial w
    exact absurd (h _ (Nat.le_refl _)) this
  | hang => exact absurd rfl ho

omit [Unicode] in
/-- The source of the examples is safe though it has a duplicate and an occurrence. -/
example : letI := asciiOnly; Safe (Lexer.new demoP) :=
  letI := asciiOnly; safe_of_check (n := 60) (by decide_cbv)

omit [Unicode] in
/-- So is one with a comparison and a range. -/
example : letI := asciiOnly; Safe (Lexer.new b!"a = int .lt 5\nb = 1..7 / \"s\"\n") :=
  letI := asciiOnly; safe_of_check (n := 60) (by decide_cbv)

set_option maxRecDepth 100000 in
set_option cbv.maxSteps 2000000 in
omit [Unicode] in
/-- And one with all the other operators, in which names are declared twice. -/
example : letI := asciiOnly; Safe (Lexer.new b!"a = tstr .regexp \"x\"\na = [1*2 b, tstr + c]\nb = bstr .bits a\nb = 1..7 / a...9 / #6.3(b)\n") :=
  letI := asciiOnly; safe_of_check (n := 80) (by decide_cbv)

end Cddlc
