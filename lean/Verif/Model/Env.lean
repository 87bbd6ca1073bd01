import Verif.Model.Ast

namespace Cddlc

/-- models environment/environment.go:15-17 `type Environment struct` (the Go map as an
association list; only `add` extends it, and never with a present key). -/
structure Env where
  symbols : List (Bytes × Node)
  deriving Inhabited

namespace Env

/-- models environment/environment.go:42-46 `NewEnvironment`. -/
def new : Env := ⟨[]⟩

/-- models environment/environment.go:29-32 `Exists`. -/
def exists? (e : Env) (ident : Bytes) : Bool := (assocFind ident e.symbols).isSome

/-- models environment/environment.go:20-26 `Add`; `true` is `ErrSymbolExists`. -/
def add (e : Env) (ident : Bytes) (value : Node) : Env × Bool :=
  if e.exists? ident then (e, true) else (⟨(ident, value) :: e.symbols⟩, false)

/-- models environment/environment.go:34-39 `Get`. -/
def get (e : Env) (ident : Bytes) : Node :=
  match assocFind ident e.symbols with
  | some n => n
  | none => .nil

end Env
end Cddlc
