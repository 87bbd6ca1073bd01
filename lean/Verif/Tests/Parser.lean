import Verif.Lemmas.Check
import Verif.Props.Lexer
import Verif.Model.Diag

/-! The tests of /repo/parser/parser_test.go, run in the model. Where a test compares only parts of a tree
(`testWalk`, parser_test.go:19-183), more is compared here. These are samples, evidence that the model does
what the code does; no claim rests on them. -/

namespace Cddlc.Tests
open Cddlc

/-- The source parses without errors to a single rule of that name whose value passes. -/
def one (src name : Bytes) (f : Node → Bool) : Prop :=
  let := asciiOnly
  parses 60 src (fun rules errs => errs.isEmpty && match rules with
    | [.rule _ i v none] => i.name == name && f v
    | _ => false) = true

instance (src name f) : Decidable (one src name f) := inferInstanceAs (Decidable (_ = _))

/-- `typePos` (parser_test.go:196). -/
def at7 : Pos := { offset := 7, line := 1, column := 8 }

/-! The fractions, evaluated apart because of the bound for overflow. -/

set_option exponentiation.threshold 2000 in
@[local cbv_eval] theorem float0 : parseFloat b!"2.4" = .ok ⟨24, 1⟩ := by
  unfold parseFloat
  simp [splitDot, decRun]

set_option exponentiation.threshold 2000 in
@[local cbv_eval] theorem float1 : parseFloat b!"0.10" = .ok ⟨10, 2⟩ := by
  unfold parseFloat
  simp [splitDot, decRun]

set_option exponentiation.threshold 2000 in
@[local cbv_eval] theorem float2 : parseFloat b!"0.0" = .ok ⟨0, 1⟩ := by
  unfold parseFloat
  simp [splitDot, decRun]

set_option exponentiation.threshold 2000 in
@[local cbv_eval] theorem float3 : parseFloat b!"10.0" = .ok ⟨100, 1⟩ := by
  unfold parseFloat
  simp [splitDot, decRun]

/-! `TestParseIdentiferToTypeRule`, parser_test.go:194-232 -/

example : one b!"name = bool" b!"name" (fun | .boolType p t => p == at7 && t == .BOOL | _ => false) := by decide_cbv
example : one b!"name = uint" b!"name"
    (fun | .uintType r t => r.start == at7 && r.stop == at7.to 4 && t == .UINT | _ => false) := by decide_cbv
example : one b!"name = nint" b!"name" (fun | .nintType p t => p == at7 && t == .NINT | _ => false) := by decide_cbv
example : one b!"name = int" b!"name" (fun | .intType p t => p == at7 && t == .INT | _ => false) := by decide_cbv
example : one b!"name = float" b!"name" (fun | .floatType p t => p == at7 && t == .FLOAT | _ => false) := by decide_cbv
example : one b!"name = float16" b!"name" (fun | .floatType p t => p == at7 && t == .FLOAT16 | _ => false) := by decide_cbv
example : one b!"name = float32" b!"name" (fun | .floatType p t => p == at7 && t == .FLOAT32 | _ => false) := by decide_cbv
example : one b!"name = float64" b!"name" (fun | .floatType p t => p == at7 && t == .FLOAT64 | _ => false) := by decide_cbv
example : one b!"name = bytes" b!"name" (fun | .bytes p t => p == at7 && t == .BYTES | _ => false) := by decide_cbv
example : one b!"name = bstr" b!"name" (fun | .bstr p t => p == at7 && t == .BSTR | _ => false) := by decide_cbv
example : one b!"name = tstr" b!"name" (fun | .tstr x => x == ⟨at7, .TSTR⟩ | _ => false) := by decide_cbv
example : one b!"name = text" b!"name" (fun | .tstr x => x == ⟨at7, .TEXT⟩ | _ => false) := by decide_cbv
example : one b!"name = null" b!"name" (fun | .null p t => p == at7 && t == .NULL | _ => false) := by decide_cbv

/-! `TestParseTextLiteral`, parser_test.go:235-260 -/

example : one b!"name = \"text\"" b!"name" (fun | .textLit _ _ s => s == b!"text" | _ => false) := by decide_cbv
example : one b!"name = \"'red' pen\"" b!"name" (fun | .textLit _ _ s => s == b!"'red' pen" | _ => false) := by decide_cbv

/-! `TestNumericLiteral`, parser_test.go:262-289 -/

example : one b!"num = 1" b!"num" (fun | .intLit _ t v => t == .INT && v == 1 | _ => false) := by decide_cbv
set_option maxRecDepth 100000 in
example : one b!"num = 2.4" b!"num" (fun | .floatLit _ t v => t == .FLOAT && v == ⟨24, 1⟩ | _ => false) := by decide_cbv
example : one b!"num = 0x10" b!"num" (fun | .intLit _ t v => t == .INT && v == 16 | _ => false) := by decide_cbv
set_option maxRecDepth 100000 in
example : one b!"num = 0.10" b!"num" (fun | .floatLit _ t v => t == .FLOAT && v == ⟨10, 2⟩ | _ => false) := by decide_cbv

/-! `TestEnumeration`, parser_test.go:291-315 -/

example : one b!"name = &()" b!"name" (fun | .enumeration _ _ (.group _ []) => true | _ => false) := by decide_cbv

/-! `TestRegexpOperator`, parser_test.go:316-348 -/

example : one b!"some-text = tstr .regexp \"\"" b!"some-text" (fun
    | .regexp _ _ base (.textLit _ .TEXT_LITERAL s) =>
      base == ⟨{ offset := 12, line := 1, column := 13 }, .TSTR⟩ && s == b!""
    | _ => false) := by decide_cbv
set_option maxRecDepth 100000 in
example : one b!"some-text = tstr .regexp \"[A-Za-z0-9]+@[A-Za-z0-9]+(\\\\.[A-Za-z0-9]+)+\"" b!"some-text" (fun
    | .regexp _ _ base (.textLit _ .TEXT_LITERAL s) =>
      base == ⟨{ offset := 12, line := 1, column := 13 }, .TSTR⟩ && s == b!"[A-Za-z0-9]+@[A-Za-z0-9]+(\\\\.[A-Za-z0-9]+)+"
    | _ => false) := by decide_cbv

/-! `TestCommentGroups`, parser_test.go:350-379 -/

example : let := asciiOnly
    parses 60 b!"; first line\n;second line" (fun rules errs => errs.isEmpty && match rules with
      | [.commentGroup [c, d]] => c.text == b!" first line" && d.text == b!"second line"
      | _ => false) = true := by decide_cbv

/-! `TestTag`, parser_test.go:381-429 -/

example : one b!"tag = #" b!"tag" (fun | .tag _ _ none none .nil => true | _ => false) := by decide_cbv
example : one b!"tag = #7" b!"tag" (fun | .tag _ _ (some a) none .nil => a.value == 7 | _ => false) := by decide_cbv
example : one b!"tag = #0" b!"tag" (fun | .tag _ _ (some a) none .nil => a.value == 0 | _ => false) := by decide_cbv
example : one b!"tag = #2.63" b!"tag"
    (fun | .tag _ _ (some a) (some b) .nil => a.value == 2 && b.value == 63 | _ => false) := by decide_cbv
example : one b!"tag = #7.0" b!"tag"
    (fun | .tag _ _ (some a) (some b) .nil => a.value == 7 && b.value == 0 | _ => false) := by decide_cbv
example : one b!"tag = #6.2(bstr)" b!"tag" (fun
    | .tag _ _ (some a) (some b) (.bstr p .BSTR) =>
      a.value == 6 && b.value == 2 && p == { offset := 11, line := 1, column := 12 }
    | _ => false) := by decide_cbv

/-! `TestTypeChoice`, parser_test.go:431-462 -/

set_option maxRecDepth 100000 in
example : one b!"choice = \"bow tie\" / \"necktie\" / \"Internet attire\"" b!"choice" (fun
    | .typeChoice _ _ (.textLit _ _ a) (.typeChoice _ _ (.textLit _ _ b) (.textLit _ _ c)) =>
      a == b!"bow tie" && b == b!"necktie" && c == b!"Internet attire"
    | _ => false) := by decide_cbv
example : one b!"choice = 6 / 17" b!"choice"
    (fun | .typeChoice _ _ (.intLit _ _ a) (.intLit _ _ b) => a == 6 && b == 17 | _ => false) := by decide_cbv

/-! `TestOperatorSize`, parser_test.go:466-498 -/

example : one b!"item = bstr .size 4" b!"item"
    (fun | .size _ _ (.intLit _ _ v) (.bstr p .BSTR) => v == 4 && p == at7 | _ => false) := by decide_cbv
example : one b!"item = bstr .size (1..63)" b!"item" (fun
    | .size _ _ (.group _ [.range _ _ (.intLit _ _ a) (.intLit _ _ b)]) (.bstr p .BSTR) => a == 1 && b == 63 && p == at7
    | _ => false) := by decide_cbv
example : one b!"item = uint .size 3" b!"item" (fun
    | .size _ _ (.intLit _ _ v) (.uintType r .UINT) => v == 3 && r.start == at7 && r.stop == at7.to 4
    | _ => false) := by decide_cbv

/-! `TestParseGroup`, parser_test.go:500-527 -/

example : one b!"item = (name: tstr)" b!"item" (fun
    | .group p [.entry _ n (.tstr t) none] =>
      p == at7 && n.name == b!"name" && t == ⟨{ offset := 14, line := 1, column := 15 }, .TSTR⟩
    | _ => false) := by decide_cbv

/-! `TestRange`, parser_test.go:529-556 -/

example : one b!"range = 0..10" b!"range"
    (fun | .range _ _ (.intLit _ _ a) (.intLit _ _ b) => a == 0 && b == 10 | _ => false) := by decide_cbv
set_option maxRecDepth 100000 in
example : one b!"range = 0.0..10.0" b!"range"
    (fun | .range _ _ (.floatLit _ _ a) (.floatLit _ _ b) => a == ⟨0, 1⟩ && b == ⟨100, 1⟩ | _ => false) := by decide_cbv

/-- The source gives one rule without a value, and one diagnostic with that text. -/
def failing (src diag : Bytes) : Prop :=
  let := asciiOnly
  parses 60 src (fun rules errs => (match rules with | [.rule _ _ .nil none] => true | _ => false) &&
    errs.map (Diag.diagnostic (Msg.text id id)) == [diag]) = true

instance (src diag) : Decidable (failing src diag) := inferInstanceAs (Decidable (_ = _))

set_option maxRecDepth 100000 in
example : failing b!"range = 0..10.0"
    b!"parser error: cannot use float literal as upper bound to int range at line 1, column 12 ~ 15" := by decide_cbv
set_option maxRecDepth 100000 in
example : failing b!"range = 0.0..10"
    b!"parser error: cannot use integer literal as upper bound to float range at line 1, column 14 ~ 16" := by decide_cbv

end Cddlc.Tests
