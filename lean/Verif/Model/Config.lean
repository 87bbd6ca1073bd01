import Verif.Model.Os

/-! Configuration (config/config.go) and finding it (cmd/cddlc/commands/generate.go). -/

namespace Cddlc

/-- models config.go:39-43 `type Plugin struct`, with the path of `Local` and the address of `Remote`,
which no command reads. -/
structure Plugin where
  name : Bytes
  path : Bytes
  url : Bytes := []
  deriving DecidableEq

/-- models config.go:50-57 `type BuildConfig struct`. -/
structure BuildConfig where
  package : Bytes
  sourceDir : Bytes
  outDir : Bytes
  deriving DecidableEq

/-- models config.go:60-66 `type Config struct`; pointers are options, `Options` is not read by any
command. -/
structure Config where
  version : Bytes
  plugins : List (Option Plugin)
  builds : List (Option BuildConfig)
  deriving DecidableEq

/-- Why a plugin is not valid: the error of `os.Stat`, or it is not a directory. For config/config.go:27-37. -/
inductive PluginErr where
  | stat (e : StatErr)
  | notDir (path : Bytes)
  deriving DecidableEq

/-- models config.go:27-37 `PluginLocal.Valid`, called by 45-48 `Plugin.Valid`; for a nil plugin the
address of its field `Local` panics. -/
def pluginValid (plugin : Option Plugin) : Prog (Except PluginErr Unit) :=
  match plugin with
  | none => .panic .nilDeref
  | some p => .op (.stat p.path) fun stat =>
    match stat with
    | .error e => .ret (.error (.stat e))
    | .ok isDir => if !isDir then .ret (.error (.notDir p.path)) else .ret (.ok ())

/-- The loop of config.go:69-74. -/
def pluginsValid : List (Option Plugin) → Prog (Except PluginErr Unit)
  | [] => .ret (.ok ())
  | p :: rest => (pluginValid p).bind fun r =>
    match r with
    | .error e => .ret (.error e)
    | .ok _ => pluginsValid rest

/-- models config.go:68-76 `Config.Valid`. -/
def Config.valid (c : Config) : Prog (Except PluginErr Unit) := pluginsValid c.plugins

/-- models config.go:88-93 `newDefaultBuildConfig`. -/
def defaultBuildConfig : BuildConfig := { package := [], sourceDir := b!".", outDir := b!"dist/" }

/-- models config.go:78-86 `NewDefaultConfig`. -/
def defaultConfig : Config := { version := b!"1", plugins := [], builds := [some defaultBuildConfig] }

/-- The decoders of packages encoding/json and yaml.v2 for a `Config`, which are not modelled.
Called at config/config.go:104, 106. -/
structure Codec where
  json : Bytes → Except Unit Config
  yaml : Bytes → Except Unit Config

/-- Why no configuration was loaded: there is none, or an error. For cmd/cddlc/commands/generate.go:99-110. -/
inductive ConfigErr where
  /-- the variable `errNoConfiguration` of generate.go:26 -/
  | none
  | glob | open | decode
  | unknownBase (base : Bytes)
  deriving DecidableEq

/-- models config.go:95-116 `LoadConfig`; opening and reading are one call, also for names where the
file is only opened. -/
def loadConfig (codec : Codec) (path : Bytes) : Prog (Except ConfigErr Config) :=
  let base := basePath path
  .op (.readFile path) fun fh =>
    match fh with
    | .error _ => .ret (.error .open)
    | .ok content =>
      if base = b!"cddlc.json" then
        match codec.json content with
        | .error _ => .ret (.error .decode)
        | .ok c => .ret (.ok c)
      else if base = b!"cddlc.yaml" then
        match codec.yaml content with
        | .error _ => .ret (.error .decode)
        | .ok c => .ret (.ok c)
      else .ret (.error (.unknownBase base))

/-- The order of `sort.Strings`: by bytes. Sorted by `filepath.Glob`, cmd/cddlc/commands/generate.go:100. -/
def bytesLe : Bytes → Bytes → Bool
  | [], _ => true
  | _ :: _, [] => false
  | a :: s, b :: t => if a < b then true else if b < a then false else bytesLe s t

/-- The characters that `filepath.hasMeta` looks for on Unix.
Used by `filepath.Glob`, cmd/cddlc/commands/generate.go:100. -/
def hasMeta (p : Bytes) : Bool := p.any fun c => c = 42 || c = 63 || c = 91 || c = 92

/-- models `filepath.Glob(filepath.Join(dir, "cddlc.*"))` (generate.go:100): if the directory has no
wildcards, its names are sorted and those that begin with `cddlc.` are joined with it; other
directories are left to the system. -/
def globConfig (dir : Bytes) : Prog (Except Unit (List Bytes)) :=
  if hasMeta dir then .op (.glob (joinPath dir b!"cddlc.*")) fun files => .ret files
  else .op (.names dir) fun names =>
    .ret (.ok (((names.mergeSort bytesLe).filter fun n => n.take 6 = b!"cddlc.").map (joinPath dir)))

/-- models generate.go:99-110 `loadConfigFromDir`. -/
def loadConfigFromDir (codec : Codec) (dir : Bytes) : Prog (Except ConfigErr Config) :=
  (globConfig dir).bind fun files =>
    match files with
    | .error _ => .ret (.error .glob)
    | .ok [] => .ret (.error .none)
    | .ok (f :: _) => loadConfig codec f

end Cddlc
