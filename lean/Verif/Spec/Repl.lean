import Verif.Model.Repl
import Verif.Spec.Tree

/-! Sessions of the REPL, independently of how it works. -/

namespace Cddlc.Spec

/-- What the text of a line asks for. -/
inductive Request where
  | help | pv | exit | tree | source
  deriving DecidableEq

/-- A text that begins with one of the commands asks for that; any other is a source. -/
inductive Asks (text : Bytes) : Request → Prop
  | help : (b!":help") <+: text → Asks text .help
  | pv : (b!":pv") <+: text → Asks text .pv
  | exit : (b!":exit") <+: text → Asks text .exit
  | tree : (b!":tree") <+: text → Asks text .tree
  | source : ¬ (b!":help") <+: text → ¬ (b!":pv") <+: text → ¬ (b!":exit") <+: text → ¬ (b!":tree") <+: text →
    Asks text .source

/-- The sources were parsed one after the other, each with the names of those before. -/
inductive Entered [Unicode] (n : Nat) : Env → List (Bytes × PState.FileResult) → Env → Prop
  | nil {env} : Entered n env [] env
  | cons {env src res rest env'} : parseSource n src env = .ok res → Entered n res.final.env rest env' →
    Entered n env ((src, res) :: rest) env'

/-- A source declares the name with this value; it is the first rule in it to do so. -/
def DeclaresIn [Unicode] (x : Bytes × PState.FileResult) (k : Bytes) (v : Node) : Prop :=
  ∃ rules, x.2.cddl = some rules ∧ FirstDecl (Lexer.new x.1) rules k v

/-- The first of the sources to declare the name declares it with this value. -/
def Bound [Unicode] (xs : List (Bytes × PState.FileResult)) (k : Bytes) (v : Node) : Prop :=
  ∃ pre x post, xs = pre ++ x :: post ∧ DeclaresIn x k v ∧ ∀ y ∈ pre, ∀ w, ¬ DeclaresIn y k w

/-- None of the sources declares the name. -/
def Unbound [Unicode] (xs : List (Bytes × PState.FileResult)) (k : Bytes) : Prop :=
  ∀ x ∈ xs, ∀ v, ¬ DeclaresIn x k v

/-- What is to be printed for a name after the sources `xs`: the name and its tree, or nothing. -/
def Shows [Unicode] (float : FloatVal → Bytes) (xs : List (Bytes × PState.FileResult)) (k : Bytes) (out : List Bytes) : Prop :=
  (∃ v s, Bound xs k v ∧ formatNode float v = .ok s ∧ out = [k ++ b!": ", s ++ b!"\n"]) ∨ (Unbound xs k ∧ out = [])

/-- The names between the spaces of a text, after the first. -/
inductive Between : Bytes → List Bytes → Prop
  | last {w : Bytes} : 32 ∉ w → Between w [w]
  | more {w s : Bytes} {ws} : 32 ∉ w → Between s ws → Between (w ++ 32 :: s) (w :: ws)

end Cddlc.Spec
