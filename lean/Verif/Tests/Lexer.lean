import Verif.Lemmas.Check
import Verif.Props.Lexer
import Verif.Model.Env

/-! Tests of /repo/lexer/lexer_test.go and /repo/environment/environment_test.go, run in the model. These are
samples, evidence that the model does what the code does; no claim rests on them. `TestLexerFuzz` is proved for
all inputs as C97. -/

namespace Cddlc.Tests
open Cddlc

/-- The source is scanned to that one token, with its own text as literal. -/
def scan1 (src : Bytes) (t : Tok) : Prop :=
  let := asciiOnly
  ((Lexer.new src).scan).check (fun r => r.1 == t && r.2.2.1 == src && r.2.2.2.scan.check (fun r => r.1 == .EOF)) = true

instance (src t) : Decidable (scan1 src t) := inferInstanceAs (Decidable (_ = _))

/-! `TestIdentifers`, lexer_test.go:34-82 -/

example : scan1 b!"a" .IDENT := by decide_cbv
example : scan1 b!"ab" .IDENT := by decide_cbv
example : scan1 b!"ab_cd" .IDENT := by decide_cbv
example : scan1 b!"@a" .IDENT := by decide_cbv
example : scan1 b!"$a" .IDENT := by decide_cbv
example : scan1 b!"_a" .IDENT := by decide_cbv
example : scan1 b!"ab.ba" .IDENT := by decide_cbv
example : scan1 b!"ab-ba" .IDENT := by decide_cbv
example : scan1 b!"ab@ba" .IDENT := by decide_cbv
example : scan1 b!"ab-ba@gh.kl8" .IDENT := by decide_cbv
example : scan1 b!"AB" .IDENT := by decide_cbv
example : scan1 b!"AaBb" .IDENT := by decide_cbv
example : scan1 b!"min..max" .IDENT := by decide_cbv
example : scan1 b!"min...max" .IDENT := by decide_cbv

/-! `TestNumbers`, lexer_test.go:84-135 -/

example : scan1 b!"0" .INT := by decide_cbv
example : scan1 b!"00" .INT := by decide_cbv
example : scan1 b!"10" .INT := by decide_cbv
example : scan1 b!"00.0" .FLOAT := by decide_cbv
example : scan1 b!"0.0" .FLOAT := by decide_cbv
example : scan1 b!"3.4" .FLOAT := by decide_cbv
example : scan1 b!"3.5694298374823" .FLOAT := by decide_cbv
example : scan1 b!"0b00" .INT := by decide_cbv
example : scan1 b!"0b1" .INT := by decide_cbv
example : scan1 b!"0b111010010" .INT := by decide_cbv
example : scan1 b!"0o0" .INT := by decide_cbv
example : scan1 b!"0o1" .INT := by decide_cbv
example : scan1 b!"0o4672726" .INT := by decide_cbv
example : scan1 b!"0x0" .INT := by decide_cbv
example : scan1 b!"0x01" .INT := by decide_cbv
example : scan1 b!"0x0f755b863f" .INT := by decide_cbv

/-! `TestEnvAdd` and `TestEnvGetEmpty`, environment_test.go:12-55 -/

example : (Env.new.add b!"name" (.tstr default)).2 = false ∧
    ((Env.new.add b!"name" (.tstr default)).1.get b!"name").isNil = false := by decide
example : let e := Env.new.add b!"age" (.intLit {} .ILLEGAL 0)
    e.2 = false ∧ (e.1.get b!"age").isNil = false ∧ (e.1.add b!"age" (.intLit {} .ILLEGAL 0)).2 = true ∧
      ((e.1.add b!"age" (.intLit {} .ILLEGAL 0)).1.get b!"age").isNil = false := by decide
example : (Env.new.get b!"non-existent-ident").isNil = true := by decide

end Cddlc.Tests
