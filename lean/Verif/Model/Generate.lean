import Verif.Model.Config
import Verif.Model.Codegen
import Verif.Model.Diag
import Verif.Model.Json

/-! The commands `generate` and `init` (cmd/cddlc/commands/generate.go, init.go). What they print on
the terminal is left out. -/

namespace Cddlc

/-- What the command uses and is not modelled: libraries, the printer of package go/format (`none` if
it fails; it writes all at once), the decoders, the texts of diagnostics, the command line
(`os.Args`), and which version of `ast.SortImports` there is. Called at cmd/cddlc/commands/generate.go:46-176. -/
structure Tool where
  lib : GoLib
  codec : Codec
  print : GoFile → Out (Option Bytes)
  text : Msg → Bytes
  arg0 : Bytes
  args : List Bytes
  resets : Bool

/-- The strings with spaces between them: `strings.Join(_, " ")`. Called at cmd/cddlc/commands/generate.go:150. -/
def joinSpace : List Bytes → Bytes
  | [] => []
  | [x] => x
  | x :: xs => x ++ 32 :: joinSpace xs

/-- models generate.go:150, the text of the header. -/
def Tool.header (tl : Tool) : Bytes :=
  b!"/*\n  File generated using `" ++ basePath tl.arg0 ++ b!" " ++ joinSpace tl.args ++
    b!"`. DO NOT EDIT\n*/\n\n"

/-- The errors of `GenerateCmd`. Returned at cmd/cddlc/commands/generate.go:46-147. -/
inductive GenErr where
  | getwd
  | config (e : ConfigErr)
  | statSource (e : StatErr)
  | notDir
  | readDir
  | mkdir
  | statOut
  | read
  | open
  | parse
  | write
  deriving DecidableEq

section
variable [Unicode] (tl : Tool) (n : Nat)

/-- models generate.go:126-147, the rest of `generateFile` after the output is open, with `addBuildHeader`
(149-157); the error of `gen.String` is dropped at line 145. -/
def generateOpen (pkg src out : Bytes) : Prog (Option GenErr) :=
  (Prog.of (parseSource n src)).bind fun res =>
    if res.errs.length > 0 then
      (Prog.of (errorStringer tl.text src res.errs)).bind fun _ => .ret (some .parse)
    else
      let cddl := match res.cddl with
        | none => Node.typedNil .cddl
        | some rules => .cddl {} rules
      let (g, r) := visit tl.lib cddl (.new pkg)
      (Prog.of r).bind fun _ =>
        .op (.write out tl.header) fun w =>
          match w with
          | .error _ => .ret (some .write)
          | .ok _ => (Prog.of (tl.print (g.string tl.resets).file)).bind fun body =>
            match body with
            | none => .ret none
            | some body => .op (.write out body) fun _ => .ret none

/-- models generate.go:112-147 `generateFile` (with `readSource`, 29-40): the source is read, then the
output is opened and emptied, then the source is parsed. -/
def generateFile (pkg path out : Bytes) : Prog (Option GenErr) :=
  .op (.readFile path) fun r =>
    match r with
    | .error _ => .ret (some .read)
    | .ok src => .op (.openTrunc out) fun r =>
      match r with
      | .error _ => .ret (some .open)
      | .ok _ => generateOpen tl n pkg src out

/-- models generate.go:79-86. -/
def ensureDir (dir : Bytes) : Prog (Option GenErr) :=
  .op (.stat dir) fun r =>
    match r with
    | .error .notExist => .op (.mkdirAll dir) fun r =>
      match r with
      | .error _ => .ret (some .mkdir)
      | .ok _ => .ret none
    | .error .other => .ret (some .statOut)
    | .ok _ => .ret none

/-- models generate.go:87-88, the path of the output. -/
def outPath (b : BuildConfig) (name : Bytes) : Bytes :=
  joinPath b.outDir (trimSuffix name b!".cddl" ++ b!".go")

/-- The loop of generate.go:75-92. -/
def generateFiles (b : BuildConfig) : List Bytes → Prog (Option GenErr)
  | [] => .ret none
  | name :: rest =>
    if extPath name ≠ b!".cddl" then generateFiles b rest
    else (ensureDir b.outDir).bind fun r =>
      match r with
      | some e => .ret (some e)
      | none => (generateFile tl n b.package (joinPath b.sourceDir name) (outPath b name)).bind fun r =>
        match r with
        | some e => .ret (some e)
        | none => generateFiles b rest

/-- models generate.go:63-92, one build; for a nil build the field `SourceDir` panics. -/
def generateBuild (build : Option BuildConfig) : Prog (Option GenErr) :=
  match build with
  | none => .panic .nilDeref
  | some b => .op (.stat b.sourceDir) fun r =>
    match r with
    | .error e => .ret (some (.statSource e))
    | .ok isDir =>
      if !isDir then .ret (some .notDir)
      else .op (.readDir b.sourceDir) fun r =>
        match r with
        | .error _ => .ret (some .readDir)
        | .ok names => generateFiles tl n b names

/-- The loop of generate.go:62-94. -/
def generateBuilds : List (Option BuildConfig) → Prog (Option GenErr)
  | [] => .ret none
  | b :: rest => (generateBuild tl n b).bind fun r =>
    match r with
    | some e => .ret (some e)
    | none => generateBuilds rest

/-- models generate.go:46-97 `GenerateCmd`. -/
def generateCmd : Prog (Option GenErr) :=
  .op .getwd fun r =>
    match r with
    | .error _ => .ret (some .getwd)
    | .ok wd => (loadConfigFromDir tl.codec wd).bind fun conf =>
      match conf with
      | .error .none => generateBuilds tl n defaultConfig.builds
      | .error e => .ret (some (.config e))
      | .ok c => generateBuilds tl n c.builds

end

/-! ### The command `init` -/

/-- The errors of `InitCmd`. Returned at cmd/cddlc/commands/init.go:16-48. -/
inductive InitErr where
  | getwd | exists | stat | open | write
  deriving DecidableEq

/-- models config.go:39-43 as encoding/json writes it: the names of the fields are in their tags. -/
def pluginJson : Option Plugin → JVal
  | none => .null
  | some p => .obj [.mk b!"name" (.str p.name), .mk b!"remote" (.obj [.mk b!"url" (.str p.url)]),
      .mk b!"local" (.obj [.mk b!"path" (.str p.path)])]

/-- models config.go:50-57 likewise. -/
def buildJson : Option BuildConfig → JVal
  | none => .null
  | some b => .obj [.mk b!"package" (.str b.package), .mk b!"src" (.str b.sourceDir), .mk b!"output" (.str b.outDir)]

/-- models config.go:60-66 likewise, with slices that are not nil and with the nil map `Options`, as
`NewDefaultConfig` makes them. -/
def Config.json (c : Config) : JVal :=
  .obj [.mk b!"version" (.str c.version), .mk b!"plugins" (.arr (c.plugins.map pluginJson)),
    .mk b!"builds" (.arr (c.builds.map buildJson)), .mk b!"options" .null]

/-- models init.go:41-44, the text that `Encode` writes for a configuration, which ends with a
newline. Versions of the encoder differ only for the control characters U+0008 and U+000C. -/
def configText (c : Config) : Bytes := c.json.print false 0 ++ [10]

/-- models init.go:16-48 `getFileHandle` and `InitCmd`, which writes the text `json` all at once. -/
def initWith (json : Bytes) : Prog (Option InitErr) :=
  .op .getwd fun r =>
    match r with
    | .error _ => .ret (some .getwd)
    | .ok root =>
      let fp := joinPath root b!"cddlc.json"
      .op (.stat fp) fun r =>
        match r with
        | .ok _ => .ret (some .exists)
        | .error .notExist => .op (.openAppend fp) fun r =>
          match r with
          | .error _ => .ret (some .open)
          | .ok _ => .op (.write fp json) fun r =>
            match r with
            | .error _ => .ret (some .write)
            | .ok _ => .ret none
        | .error .other => .ret (some .stat)

/-- models init.go:35-48 `InitCmd`: it writes the default configuration. -/
def initCmd : Prog (Option InitErr) := initWith (configText defaultConfig)

end Cddlc
