import Verif.Model.Print
import Verif.Model.Diag

/-! The command `repl` (cmd/cddlc/commands/repl.go). A session is given by the lines that the scanner
returns; after the last, `Scan` fails. Lines are taken to stay as they are: the scanner uses their memory
again, but all that the parser keeps of a source are strings, which are copies. -/

namespace Cddlc

/-- What the command uses and is not modelled: `strings.TrimSpace`, the texts of diagnostics, the form of
floating point numbers, the verb `%T`, what `Printf` makes of a format with percent signs and without
operands; and the flag `lex`. Called at cmd/cddlc/commands/repl.go:22-112. -/
structure ReplLib where
  trim : Bytes → Bytes
  text : Msg → Bytes
  float : FloatVal → Bytes
  typeName : Node → Bytes
  badFormat : Bytes → Bytes
  lexFlag : Bool

/-- The variables of `Repl`, repl.go:24 and 27. -/
structure ReplState where
  verbose : Bool := false
  env : Env := .new

/-- How `Repl` ends: at the end of the input with an error (repl.go:33-35), or by `os.Exit(0)`
(repl.go:52-55). -/
inductive ReplEnd where
  | noInput | exit
  deriving DecidableEq

/-- models `strings.HasPrefix`. Called at cmd/cddlc/commands/repl.go:38, 48, 53, 58. -/
def hasPrefix (s p : Bytes) : Bool := s.take p.length = p

/-- models `strings.Split(s, " ")`. Called at cmd/cddlc/commands/repl.go:59. -/
def splitSpace : Bytes → List Bytes
  | [] => [[]]
  | c :: s =>
    if c = 32 then [] :: splitSpace s
    else match splitSpace s with
      | [] => [[c]]
      | x :: xs => (c :: x) :: xs

/-- models repl.go:39-44. -/
def helpText : List Bytes :=
  [b!":help - Prints this help message\n", b!":tree - Prints the syntax tree for a value in scope\n", b!"\n",
    b!":pv   - Toggle printing the type after every execution\n", b!"\n", b!":exit - Exits the REPL\n"]

namespace ReplLib

/-- models `fmt.Printf(format)` without operands. Called at cmd/cddlc/commands/repl.go:63. -/
def printf (lib : ReplLib) (format : Bytes) : Bytes := if 37 ∈ format then lib.badFormat format else format

/-- The loop of repl.go:59-65. -/
def tree (lib : ReplLib) (env : Env) : List Bytes → Out (List Bytes)
  | [] => .ok []
  | arg :: args => do
    let here ← match env.get arg with
      | .nil => .ok []
      | val => do
        let s ← formatNode lib.float val
        .ok [lib.printf (arg ++ b!": "), s ++ b!"\n"]
    let rest ← lib.tree env args
    .ok (here ++ rest)

/-- The loop of repl.go:106-111. -/
def shortRules (lib : ReplLib) : List Node → Out (List Bytes)
  | [] => .ok []
  | rule :: rules => do
    let here ← match rule with
      | .rule _ name value _ => .ok [name.name ++ b!" ; " ++ lib.typeName value ++ b!"\n"]
      | .typedNil .rule => .panic .nilDeref
      | _ => .ok []
    let rest ← lib.shortRules rules
    .ok (here ++ rest)

/-- models repl.go:105-112 `printcddlShort`; the field of a nil tree panics. -/
def short (lib : ReplLib) : Option (List Node) → Out (List Bytes)
  | none => .panic .nilDeref
  | some rules => lib.shortRules rules

variable [Unicode] (lib : ReplLib) (n : Nat)

/-- models repl.go:92-103 `printTokens`: the same lines as `cddlc lex`. -/
def tokens (src : Bytes) : Out (List Bytes) := do
  let (_, out) ← loopOut lexStep n (Lexer.new src, 0, [])
  .ok out

/-- models repl.go:70-88: a line of source. -/
def source (st : ReplState) (line : Bytes) : Out (List Bytes × Option ReplState) := do
  let toks ← if lib.lexFlag then tokens n line else .ok []
  let res ← parseSource n line st.env
  let errs := if res.errs.length ≠ 0 then [errorListString lib.text res.errs ++ b!"\n"] else []
  let st' : ReplState := { st with env := res.final.env }
  let rules ← if st.verbose then lib.short res.cddl else .ok []
  .ok (toks ++ errs ++ rules, some st')

/-- models repl.go:37-88, what is done for one line; `none` if the process ends. -/
def line (st : ReplState) (line : Bytes) : Out (List Bytes × Option ReplState) :=
  let text := lib.trim line
  if hasPrefix text b!":help" then .ok (helpText, some st)
  else if hasPrefix text b!":pv" then .ok ([], some { st with verbose := !st.verbose })
  else if hasPrefix text b!":exit" then .ok ([b!"exiting...\n"], none)
  else if hasPrefix text b!":tree" then do
    let out ← lib.tree st.env ((splitSpace text).drop 1)
    .ok (out, some st)
  else lib.source n st line

/-- The loop of repl.go:29-89, with what it prints. -/
def session (st : ReplState) : List Bytes → Out (List Bytes × ReplEnd × ReplState)
  | [] => .ok ([b!">>> "], .noInput, st)
  | l :: ls => do
    let (out, st') ← lib.line n st l
    match st' with
    | none => .ok (b!">>> " :: out, .exit, st)
    | some st' => do
      let (out', e, s) ← session st' ls
      .ok (b!">>> " :: out ++ out', e, s)

end ReplLib

/-- models repl.go:22-90 `Repl`, after the greeting. -/
def repl [Unicode] (lib : ReplLib) (n : Nat) (lines : List Bytes) : Out (List Bytes × ReplEnd × ReplState) :=
  lib.session n {} lines

end Cddlc
