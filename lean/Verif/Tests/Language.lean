import Verif.Lemmas.Check
import Verif.Props.Lexer

/-! `TestE2EFast` (/repo/parser/parser_test.go:576-606), run in the model: the files of
/repo/testdata/language parse without errors. These are samples, evidence that the model does what the code
does; no claim rests on them. -/

namespace Cddlc.Tests
open Cddlc

/-- The source parses without errors to that many rules (counting comments). -/
def fine (src : Bytes) (n : Nat) : Prop :=
  let := asciiOnly
  parses 200 src (fun rules errs => errs.isEmpty && rules.length == n) = true

instance (src n) : Decidable (fine src n) := inferInstanceAs (Decidable (_ = _))

set_option maxRecDepth 100000
set_option exponentiation.threshold 2000
set_option cbv.maxSteps 2000000

/-- arrays.cddl -/
example : fine b!"unlimited-people = [+ person]\nunilim-people-1 = [1* person]\none-or-two-people = [1*2 person]\noptional-people = [ ? person ]\n\nperson = (\n    name: tstr,\n    age: uint,\n)\n" 5 := by decide_cbv

/-- bools.cddl -/
example : fine b!"isTrue = true\nisFalse = false\nisBool = bool\nisBoolChoice = isTrue / isFalse\n " 4 := by decide_cbv

/-- control_operator_regexp.cddl -/
example : fine b!"nai = tstr .regexp \"[A-Za-z0-9]+@[A-Za-z0-9]+(\\\\.[A-Za-z0-9]+)+\"" 1 := by decide_cbv

/-- control_operator_size.cddl -/
example : fine b!"full-address = [[+ label], ip4, ip6]\nip4 = bstr .size 4\nip6 = bstr .size 16\nlabel = bstr .size (1..63)\n" 4 := by decide_cbv

/-- group.cddl -/
example : fine b!"person = {\n    identity,\n    employer: tstr,\n}\ndog = {\n    identity,\n    leash-length: float,\n}\nidentity = (\n    age: int,\n    name: tstr,\n)" 3 := by decide_cbv

/-- groups_nested.cddl -/
example : fine b!"person = {(\n    age: int,\n    name: tstr,\n    employer: tstr,\n)}\n" 1 := by decide_cbv

/-- occurrence.cddl -/
example : fine b!"apartment = {\n    kitchen: size,\n    * bedroom: size,\n}\n\nsize = float" 2 := by decide_cbv

/-- operator_precedence.cddl -/
example : fine b!"t = [group1]\ngroup1 = (a / b // c / d)\na = 1 b = 2 c = 3 d = 4\n" 6 := by decide_cbv

/-- prelude.cddl -/
example : fine b!"isBool = bool\nisUint = uint\nisNint = nint\nisInt = int\nisFloat16 = float16\nisFloat32 = float32\nisFloat64 = float64\nisFloat = float\nisBstr = bstr / bytes\nisText = tstr / text" 10 := by decide_cbv

/-- representation_types.cddl -/
example : fine b!"my_breakfast = #6.55799(breakfast)\nbreakfast = cereal / porridge\ncereal = #6.998(tstr)\nporridge = #6.999([liquid, solid])\nliquid = milk / water\nmilk = 0\nwater = 1\nsolid = tstr" 8 := by decide_cbv

/-- socket_plug_empty.cddl -/
example : fine b!"tcp-header = {seq: uint, ack: uint, * $$tcp-option}\n\nPersonalData = {\n    ? displayName: tstr,\n    NameComponents,\n    ? age: uint,\n    * $$personaldata-extensions\n}\nNameComponents = (\n    ? firstName: tstr,\n    ? familyName: tstr,\n)\n" 3 := by decide_cbv

/-- socket_plug_initialized.cddl -/
example : fine b!"tcp-header = {seq: uint, ack: uint, * $$tcp-option}\n\n; later, in a different file\n$$tcp-option //= (\n    sack: [+(left: uint, right: uint)]\n)\n; and, maybe in another file\n$$tcp-option //= (\n    sack-permitted: true\n)\n\nPersonalData = {\n    ? displayName: tstr,\n    NameComponents,\n    ? age: uint,\n    * $$personaldata-extensions\n}\nNameComponents = (\n    ? firstName: tstr,\n    ? familyName: tstr,\n)\n\n; The above already works as is.\n; But then, we can add later:\n$$personaldata-extensions //= (\n    favorite-salsa: tstr,\n)\n\n; and again, somewhere else:\n$$personaldata-extensions //= (\n    shoesize: uint,\n)" 11 := by decide_cbv

/-- unwrap.cddl -/
example : fine b!"basic-header = [\n    field1: int,\n    field2: text,\n]\nadvanced-header = [\n    ~basic-header,\n    field3: bytes\n]" 2 := by decide_cbv

/-- valid_range.cddl -/
example : fine b!"device-address = byte\nmax-byte = 255\nbyte = 0..max-byte\nfirst-non-byte = 256\nbyte1 = 0...first-non-byte\n" 5 := by decide_cbv

end Cddlc.Tests
