import Verif.Model.Diag
import Verif.Model.Os

/-! The commands `lex` and `parse` from their arguments on, and the exit status. What urfave/cli does with
the command line (options, help, unknown commands) is not modelled. -/

namespace Cddlc
variable [Unicode]

/-- A command that fails before it has printed anything. What it says is the text of the error of
cmd/cddlc/commands.go:40,69, or of the system, which is left out. -/
def refused (why : Bytes) : CmdResult := ⟨[], [], some why⟩

/-- models cmd/cddlc/commands.go:22-32 `readSource` and 34-36 `checkArgs`, as both commands use them
(38-46 and 67-75). Opening and reading the file are one call. -/
def withSource (args : List Bytes) (cmd : Bytes → Out CmdResult) : Prog CmdResult :=
  match args with
  | [f] => .op (.readFile f) fun r =>
    match r with
    | .error _ => .ret (refused [])
    | .ok src => .of (cmd src)
  | _ => .ret (refused b!"filename required")

/-- models cmd/cddlc/commands.go:38-65 `LexerCmd`. -/
def lexMain (n : Nat) (args : List Bytes) : Prog CmdResult := withSource args (lexCmd n)

/-- models cmd/cddlc/commands.go:67-97 `ParseCmd`. -/
def parseMain (text : Msg → Bytes) (lib : JsonLib) (n : Nat) (args : List Bytes) : Prog CmdResult :=
  withSource args (parseCmd text lib n)

/-- What the linker and the compiler fix: models cmd/cddlc/main.go:11-15, and `runtime.GOOS` and `runtime.GOARCH`
(cmd/cddlc/commands.go:101-102). -/
structure BuildInfo where
  version : Bytes := []
  commit : Bytes := []
  date : Bytes := []
  goos : Bytes
  goarch : Bytes

/-- models cmd/cddlc/commands.go:98-108 `DoctorCmd`; `fmt.Println` adds the last line break. -/
def doctorCmd (b : BuildInfo) : CmdResult :=
  ⟨[b!"\nVersion\t\t: " ++ b.version ++ b!"\nCommit\t\t: " ++ b.commit ++ b!"\nBuild Date\t: " ++ b.date ++ b!"\nRuntime\t\t: " ++ b.goos ++
    b!"\nArch\t\t: " ++ b.goarch ++ b!"\n" ++ b!"\n"], [], none⟩

/-- models cmd/cddlc/main.go:67-69: `log.Fatal` exits with status 1, a panic with status 2, and `main`
returning with status 0. No status if the process does not end, or is killed. -/
def exitStatus : End CmdResult → Option Nat
  | .done r => some (if r.err = none then 0 else 1)
  | .panic _ => some 2
  | .hang | .cut => none

end Cddlc
