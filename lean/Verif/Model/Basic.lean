/-
Basic vocabulary of the model: Go byte strings, outcomes of Go calls, source positions.
-/

namespace Cddlc

/-- A Go `string` or `[]byte` seen as the sequence of its bytes.
As in lexer/lexer.go:30-31 and environment/environment.go:15-17. -/
abbrev Bytes := List UInt8

open Lean in
/-- `b!"abc"` is the list of the UTF-8 bytes of the literal, expanded at elaboration time. -/
macro:max "b!" s:str : term => do
  let bs := s.getString.toUTF8.toList
  let xs : Array (TSyntax `term) :=
    (bs.map fun b => (⟨Syntax.mkNumLit (toString b.toNat)⟩ : TSyntax `term)).toArray
  `(([$xs,*] : List UInt8))

/-- Why a Go call panicked.
Explicit ones are at parser/parser.go:972, ast/astutils/walk.go:184, transforms/codegen/golang/gen_grouped.go:24-27
and runtime/validators/validators.go:52; the others are those of the language. -/
inductive PanicKind where
  /-- slice bounds out of range -/
  | sliceBounds
  /-- index out of range -/
  | index
  /-- nil pointer dereference, or method call on a nil interface -/
  | nilDeref
  /-- failed type assertion without `, ok` -/
  | typeAssert
  /-- an explicit `panic(...)` in the code -/
  | explicit
  deriving DecidableEq, Repr

/-- The outcome of running a Go call: it returns, it panics, or it does not return
(infinite loop or unbounded recursion).
For every function of /repo, from lexer/lexer.go:69 `Scan` to cmd/cddlc/commands/repl.go:22 `Repl`. -/
inductive Out (α : Type u) where
  | ok (a : α)
  | panic (why : PanicKind)
  | hang
  deriving Repr

namespace Out

/-- Sequencing of Go calls: a panic or divergence of the first call is the outcome.
For the sequences of statements of every function, e.g. parser/parser.go:78-107. -/
def bind {α : Type u} {β : Type v} (o : Out α) (f : α → Out β) : Out β :=
  match o with
  | .ok a => f a
  | .panic w => .panic w
  | .hang => .hang

instance : Monad Out where
  pure := Out.ok
  bind := Out.bind

/-- The call returned normally. As of parser/parser.go:78 `ParseFile`. -/
def isOk {α : Type u} : Out α → Bool
  | .ok _ => true
  | _ => false

/-- The call panicked. As at ast/astutils/walk.go:184. -/
def isPanic {α : Type u} : Out α → Bool
  | .panic _ => true
  | _ => false

end Out

/-- models token/position.go:7-12 `type Position struct`.  `file` is never set by the lexer. -/
structure Pos where
  offset : Int := 0
  line : Int := 0
  column : Int := 0
  file : Bytes := []
  deriving DecidableEq, Repr, Inhabited

/-- models token/position.go:35-42 `func (pos Position) To(offset int) Position`.
Simplification: Go `int` is unbounded here. -/
def Pos.to (p : Pos) (n : Int) : Pos :=
  { file := p.file, offset := p.offset + n, line := p.line, column := p.column + n }

/-- models token/position.go:44-46 `type PositionRange struct`. -/
structure PosRange where
  start : Pos
  stop : Pos
  deriving DecidableEq, Repr, Inhabited

/-- Decimal digits of a natural number, most significant first (fuel `n+1` always suffices).
Used by `decNat`, token/position.go:19. -/
def decDigitsAux : Nat → Nat → Bytes → Bytes
  | 0, _, acc => acc
  | f + 1, n, acc =>
    let acc := UInt8.ofNat (48 + n % 10) :: acc
    if n / 10 = 0 then acc else decDigitsAux f (n / 10) acc

/-- models `fmt.Sprintf("%d", n)` / `strconv.FormatInt(n, 10)` for `n ≥ 0`.
Called at token/position.go:19, 22 and parser/parser.go:344. -/
def decNat (n : Nat) : Bytes := decDigitsAux (n + 1) n []

/-- models `fmt.Sprintf("%d", n)` / `strconv.FormatInt(n, 10)`.
Called at ast/integer.go:48, cmd/cddlc/commands.go:120 and transforms/codegen/golang/gen_literals.go:28. -/
def decInt (n : Int) : Bytes :=
  match n with
  | .ofNat k => decNat k
  | .negSucc k => 45 :: decNat (k + 1)

/-- models token/position.go:14-26 `func (pos Position) String() string`. -/
def Pos.string (p : Pos) : Bytes :=
  let s := if p.file ≠ [] then p.file ++ b!":" else p.file
  let s := s ++ decInt p.line
  if p.column > 0 then s ++ b!":" ++ decInt p.column else s

/-- models token/position.go:48-58 `func (ps *PositionRange) String() string`. -/
def PosRange.string (r : PosRange) : Bytes :=
  let trail :=
    if r.start.line ≠ r.stop.line then
      b!" to line " ++ decInt r.stop.line ++ b!", column " ++ decInt r.stop.column
    else b!" ~ " ++ decInt r.stop.column
  b!"line " ++ decInt r.start.line ++ b!", column " ++ decInt r.start.column ++ trail

end Cddlc
