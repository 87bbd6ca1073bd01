import Verif.Model.Basic

/-! Programs that use the operating system. A program is a tree of system calls; what the system
answers is left open, so that a run is any sequence of calls with any answers. Files may be changed
by others at any time, and any call may fail. -/

namespace Cddlc

/-- What `os.Stat` says when it fails: no such file, or something else.
Told apart at cmd/cddlc/commands/init.go:23-33 and cmd/cddlc/commands/generate.go:79. -/
inductive StatErr where
  | notExist | other
  deriving DecidableEq

/-- The calls made by the commands. Reading a file is one call (`os.Open` and `ioutil.ReadAll`, or the
reads of a decoder); closing is left out.
They are at config/config.go:28, 97-104, cmd/cddlc/commands/init.go:17-44 and cmd/cddlc/commands/generate.go:30-35,
49-120. -/
inductive Op where
  /-- `os.Getwd` -/
  | getwd
  /-- the names `filepath.Glob` reads from a directory, in the order of the system; none if the
  directory cannot be read -/
  | names (dir : Bytes)
  /-- the matches of `filepath.Glob` for a pattern whose directory part has wildcards -/
  | glob (pattern : Bytes)
  /-- `os.Stat` -/
  | stat (path : Bytes)
  /-- `ioutil.ReadDir` -/
  | readDir (path : Bytes)
  /-- open and read to the end -/
  | readFile (path : Bytes)
  /-- `os.MkdirAll` -/
  | mkdirAll (path : Bytes)
  /-- `os.OpenFile` with `O_WRONLY|O_CREATE|O_TRUNC` -/
  | openTrunc (path : Bytes)
  /-- `os.OpenFile` with `O_CREATE|O_APPEND|O_WRONLY` -/
  | openAppend (path : Bytes)
  /-- a write to the file opened last under this path -/
  | write (path content : Bytes)
  deriving DecidableEq

/-- The answers to a call: an error or a result. `stat` says whether it is a directory.
The results that cmd/cddlc/commands/generate.go:46-147 and cmd/cddlc/commands/init.go:16-48 look at. -/
abbrev Op.Ans : Op → Type
  | .getwd => Except Unit Bytes
  | .names _ => List Bytes
  | .glob _ => Except Unit (List Bytes)
  | .stat _ => Except StatErr Bool
  | .readDir _ => Except Unit (List Bytes)
  | .readFile _ => Except Unit Bytes
  | .mkdirAll _ => Except Unit Unit
  | .openTrunc _ => Except Unit Unit
  | .openAppend _ => Except Unit Unit
  | .write _ _ => Except Unit Unit

/-- A program that makes system calls and then returns, panics or runs forever.
For `GenerateCmd` and `InitCmd`, cmd/cddlc/commands/generate.go:46 and cmd/cddlc/commands/init.go:35. -/
inductive Prog (α : Type) where
  | ret (a : α)
  | panic (why : PanicKind)
  | hang
  | op (o : Op) (k : o.Ans → Prog α)

/-- One program after another. For the sequences of statements of cmd/cddlc/commands/generate.go:46-147. -/
def Prog.bind {α β : Type} : Prog α → (α → Prog β) → Prog β
  | .ret a, f => f a
  | .panic w, _ => .panic w
  | .hang, _ => .hang
  | .op o k, f => .op o fun a => (k a).bind f

/-- A computation without system calls. Such as the parser, called at cmd/cddlc/commands/generate.go:126-128. -/
def Prog.of {α : Type} : Out α → Prog α
  | .ok a => .ret a
  | .panic w => .panic w
  | .hang => .hang

/-- A call and its answer.
Of the calls at cmd/cddlc/commands/generate.go:46-147 and cmd/cddlc/commands/init.go:16-48. -/
abbrev Event := (o : Op) × o.Ans

/-- How a run ends; `cut` if the process is killed between two calls.
Of `GenerateCmd` and `InitCmd`, cmd/cddlc/commands/generate.go:46 and cmd/cddlc/commands/init.go:35. -/
inductive End (α : Type) where
  | done (a : α)
  | panic (why : PanicKind)
  | hang
  | cut

/-- The runs of a program: the calls it makes with any answers, and how it ends.
Of `GenerateCmd` and `InitCmd`, cmd/cddlc/commands/generate.go:46 and cmd/cddlc/commands/init.go:35. -/
inductive Traces {α : Type} : Prog α → List Event → End α → Prop
  | ret {a} : Traces (.ret a) [] (.done a)
  | panic {w} : Traces (.panic w) [] (.panic w)
  | hang : Traces .hang [] .hang
  | cut {p} : Traces p [] .cut
  | op {o k t e} (a : o.Ans) : Traces (k a) t e → Traces (.op o k) (⟨o, a⟩ :: t) e

/-! ### Paths -/

/-- The parts of a path between slashes. For `filepath.Join`, cmd/cddlc/commands/generate.go:87. -/
def splitSlash : Bytes → List Bytes
  | [] => [[]]
  | c :: s =>
    if c = 47 then [] :: splitSlash s
    else match splitSlash s with
      | [] => [[c]]
      | x :: xs => (c :: x) :: xs

/-- One step of `filepath.Clean`: the parts so far, last one first, and the next part.
For `filepath.Join`, cmd/cddlc/commands/generate.go:87. -/
def cleanStep (rooted : Bool) (acc : List Bytes) (x : Bytes) : List Bytes :=
  if x = [] ∨ x = b!"." then acc
  else if x = b!".." then
    match acc with
    | [] => if rooted then [] else [x]
    | y :: rest => if y = b!".." then x :: acc else rest
  else x :: acc

/-- The parts with slashes between them. For `filepath.Join`, cmd/cddlc/commands/generate.go:87. -/
def joinSlash : List Bytes → Bytes
  | [] => []
  | [x] => x
  | x :: xs => x ++ 47 :: joinSlash xs

/-- models `filepath.Clean` on Unix, by parts. For `filepath.Join`, cmd/cddlc/commands/generate.go:87. -/
def cleanPath (p : Bytes) : Bytes :=
  let rooted := p.head? = some 47
  let parts := ((splitSlash p).foldl (cleanStep rooted) []).reverse
  let out := (if rooted then b!"/" else []) ++ joinSlash parts
  if out = [] then b!"." else out

/-- models `filepath.Join` of two elements on Unix.
Called at cmd/cddlc/commands/generate.go:87, 88, 100 and cmd/cddlc/commands/init.go:21. -/
def joinPath (a b : Bytes) : Bytes :=
  if a = [] then (if b = [] then [] else cleanPath b)
  else if b = [] then cleanPath a
  else cleanPath (a ++ 47 :: b)

/-- models `filepath.Base` on Unix. Called at config/config.go:96 and cmd/cddlc/commands/generate.go:150. -/
def basePath (p : Bytes) : Bytes :=
  if p = [] then b!"."
  else
    let q := p.reverse.dropWhile (· = 47)
    if q = [] then b!"/" else (q.takeWhile (· ≠ 47)).reverse

/-- models `filepath.Ext`: from the last dot in the last part of the path.
Called at cmd/cddlc/commands/generate.go:76. -/
def extPath (p : Bytes) : Bytes :=
  let last := p.reverse.takeWhile (· ≠ 47)
  let ext := last.takeWhile (· ≠ 46)
  if ext.length < last.length then 46 :: ext.reverse else []

/-- models `strings.TrimSuffix`. Called at cmd/cddlc/commands/generate.go:87. -/
def trimSuffix (s suffix : Bytes) : Bytes :=
  if s.drop (s.length - suffix.length) = suffix ∧ suffix.length ≤ s.length then
    s.take (s.length - suffix.length)
  else s

end Cddlc
