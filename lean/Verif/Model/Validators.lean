import Verif.Model.Basic

/-! The validators called by generated code (runtime/validators/validators.go). -/

namespace Cddlc

/-- A Go floating point number: not-a-number, the infinities, and numbers, which are modelled by
their exact value; the sign of zero is left out, comparisons do not see it.
For runtime/validators/validators.go:20-38. -/
inductive GoFloat where
  | nan | negInf | posInf
  | num (value : Rat)
  deriving DecidableEq

/-- Types that satisfy the constraint `NumericOrdered` of validators.go:14-16, with the operators
`<` and `<=` of Go; `a > b` and `a >= b` are `b < a` and `b <= a`. -/
class GoNumeric (T : Type) where
  lt : T → T → Bool
  le : T → T → Bool

/-- The integer types of Go, whatever their size: the values are compared. -/
instance : GoNumeric Int where
  lt a b := decide (a < b)
  le a b := decide (a ≤ b)

/-- The floating point types of Go: comparisons with not-a-number are false. -/
instance : GoNumeric GoFloat where
  lt
    | .num a, .num b => decide (a < b)
    | .negInf, .num _ | .negInf, .posInf | .num _, .posInf => true
    | _, _ => false
  le
    | .num a, .num b => decide (a ≤ b)
    | .negInf, .negInf | .negInf, .num _ | .negInf, .posInf | .num _, .posInf | .posInf, .posInf => true
    | _, _ => false

section
variable {T : Type} [GoNumeric T]

/-- models validators.go:20-22 `InExclusiveRange`. -/
def inExclusiveRange (val lower upper : T) : Bool := GoNumeric.lt lower val && GoNumeric.lt val upper

/-- models validators.go:26-28 `InInclusiveRange`. -/
def inInclusiveRange (val lower upper : T) : Bool := GoNumeric.le lower val && GoNumeric.le val upper

/-- models validators.go:31-33 `IsLessThan`. -/
def isLessThan (val limit : T) : Bool := GoNumeric.lt val limit

/-- models validators.go:36-38 `IsGreaterThan`. -/
def isGreaterThan (val limit : T) : Bool := GoNumeric.lt limit val

end

/-- A type of Go as far as it matters for its size: those that generated code passes. Other types
are `other`, with their size. For runtime/validators/validators.go:46-48. -/
inductive GoType where
  | string | bytes | uint | bool | int
  | other (size : Nat)
  deriving DecidableEq

/-- `reflect.Type.Size` on 64-bit platforms, `unsafe.Sizeof`: a string is a pointer and a length, a
slice a pointer, a length and a capacity. Called at runtime/validators/validators.go:47. -/
def GoType.size : GoType → Nat
  | .string => 16
  | .bytes => 24
  | .uint => 8
  | .int => 8
  | .bool => 1
  | .other n => n

/-- A value in a Go `interface{}`: nil, or a dynamic type and a content.
The argument at runtime/validators/validators.go:46. -/
inductive GoAny where
  | nil
  | mk (type : GoType) (content : Bytes)

/-- models validators.go:46-48 `CheckSize`: `reflect.TypeOf(nil)` is a nil interface. -/
def checkSize (val : GoAny) (size : Nat) : Out Bool :=
  match val with
  | .nil => .panic .nilDeref
  | .mk type _ => .ok (decide (type.size < size))

/-- models validators.go:50-54 `MustBool`. -/
def mustBool (out : Bool) : Out Unit := if !out then .panic .explicit else .ok ()

/-- models validators.go:56-60 `MustNotErr`; `none` is the nil error. -/
def mustNotErr {E : Type} (err : Option E) : Out Unit :=
  match err with
  | some _ => .panic .explicit
  | none => .ok ()

end Cddlc
