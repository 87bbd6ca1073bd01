import Verif.Spec.Generate

/-! A file system that nobody else uses, and programs that run on it. There are directories and files,
no links and no permissions, and calls only fail if they have to. Paths are sequences of names from the
root. -/

namespace Cddlc.Spec

/-- What a path may lead to. -/
inductive Entry where
  | dir
  | file (content : Bytes)
  deriving DecidableEq

/-- A file system and the working directory: what paths lead to, and the names in each directory in the
order in which the system lists them. -/
structure Disk where
  cwd : List Bytes
  node : List Bytes → Option Entry
  names : List Bytes → List Bytes

namespace Disk

/-- Names are not empty, have no slashes and are not `.` or `..`. -/
def IsName (x : Bytes) : Prop := (47 : UInt8) ∉ x ∧ x ≠ [] ∧ x ≠ b!"." ∧ x ≠ b!".."

/-- What is on the disk is in directories up to the root, the names are those of what is there, and the
working directory is one. -/
structure WF (d : Disk) : Prop where
  root : d.node [] = some .dir
  parent : ∀ q x, d.node (q ++ [x]) ≠ none → d.node q = some .dir
  listed : ∀ q x, x ∈ d.names q ↔ d.node (q ++ [x]) ≠ none
  plain : ∀ q x, x ∈ d.names q → IsName x
  here : d.node d.cwd = some .dir

/-- One step along a path; the way is given from its end. -/
def go (way : List Bytes) (x : Bytes) : List Bytes :=
  if x = [] ∨ x = b!"." then way else if x = b!".." then way.tail else x :: way

/-- The place that a path names: from the root if it starts with a slash, else from the working
directory. -/
def at_ (d : Disk) (p : Bytes) : List Bytes :=
  ((splitSlash p).foldl go (if p.head? = some 47 then [] else d.cwd.reverse)).reverse

/-- What is named by a path; an empty path names nothing. -/
def get (d : Disk) (p : Bytes) : Option Entry := if p = [] then none else d.node (d.at_ p)

/-- Put something at a place. -/
def put (d : Disk) (q : List Bytes) (e : Entry) : Disk :=
  { d with
    node := fun r => if r = q then some e else d.node r
    names := fun r => match q.getLast? with
      | some x => if r = q.dropLast ∧ x ∉ d.names r then d.names r ++ [x] else d.names r
      | none => d.names r }

/-- Make the directories that are missing on the way from `base` along `rest`. -/
def makeDirs (d : Disk) (base : List Bytes) : List Bytes → Disk
  | [] => d
  | x :: rest =>
    (if d.node (base ++ [x]) = none then d.put (base ++ [x]) .dir else d).makeDirs (base ++ [x]) rest

/-- A file is in the way to this place. -/
def Blocked (d : Disk) (q : List Bytes) : Prop := ∃ r, r <+: q ∧ ∃ c, d.node r = some (.file c)

/-- The directory of a place exists. -/
def HasParent (d : Disk) (q : List Bytes) : Prop := q ≠ [] ∧ d.node q.dropLast = some .dir

open Classical in
/-- May a file be opened for writing at this place? Not a directory; a new one only in a directory. -/
noncomputable def opens (d : Disk) (p : Bytes) : Except Unit Unit :=
  if p = [] then .error () else match d.node (d.at_ p) with
    | some .dir => .error ()
    | some (.file _) => .ok ()
    | none => if d.HasParent (d.at_ p) then .ok () else .error ()

/-- The content of a file, empty if there is none. -/
def content (d : Disk) (p : Bytes) : Bytes :=
  match d.node (d.at_ p) with
  | some (.file c) => c
  | _ => []

/-- The names in a directory as `ioutil.ReadDir` returns them: sorted. -/
def list (d : Disk) (q : List Bytes) : List Bytes := (d.names q).mergeSort bytesLe

open Classical in
/-- The answer to a call. Patterns with wildcards in their directory are not covered. -/
noncomputable def ans (d : Disk) : (o : Op) → o.Ans
  | .getwd => .ok (47 :: joinSlash d.cwd)
  | .names p => if d.get p = some .dir then d.names (d.at_ p) else []
  | .glob _ => .error ()
  | .stat p => match d.get p with
    | some .dir => .ok true
    | some (.file _) => .ok false
    | none => if p ≠ [] ∧ d.Blocked (d.at_ p) then .error .other else .error .notExist
  | .readDir p => if d.get p = some .dir then .ok (d.list (d.at_ p)) else .error ()
  | .readFile p => match d.get p with
    | some (.file c) => .ok c
    | _ => .error ()
  | .mkdirAll p => if p = [] ∨ d.Blocked (d.at_ p) then .error () else .ok ()
  | .openTrunc p => d.opens p
  | .openAppend p => d.opens p
  | .write p _ => match d.get p with
    | some (.file _) => .ok ()
    | _ => .error ()

/-- The disk after a call. -/
noncomputable def after (d : Disk) (o : Op) : Disk :=
  match o, d.ans o with
  | .mkdirAll p, .ok _ => d.makeDirs [] (d.at_ p)
  | .openTrunc p, .ok _ => d.put (d.at_ p) (.file [])
  | .openAppend p, .ok _ => d.put (d.at_ p) (.file (d.content p))
  | .write p c, .ok _ => d.put (d.at_ p) (.file (d.content p ++ c))
  | _, _ => d

/-- Run a program alone on a disk. -/
noncomputable def run {α : Type} (d : Disk) : Prog α → Disk × End α
  | .ret a => (d, .done a)
  | .panic w => (d, .panic w)
  | .hang => (d, .hang)
  | .op o k => (d.after o).run (k (d.ans o))

end Disk

/-! ### What `generate` is expected to do -/

/-- A file to be written: its directory, its name and what is to be in it. -/
structure Job where
  dir : List Bytes
  name : Bytes
  content : Bytes

/-- Write it, in a new directory if need be. -/
def Job.put (j : Job) (d : Disk) : Disk := (d.makeDirs [] j.dir).put (j.dir ++ [j.name]) (.file j.content)

/-- Write some files one after another. -/
def puts (js : List Job) (d : Disk) : Disk := js.foldl (fun d j => j.put d) d

/-- The directories on the way to this place exist or can be made; new ones have names unlike those of
sources and outputs. -/
def CanMake (d : Disk) (q : List Bytes) : Prop :=
  ∀ r, r <+: q → d.node r = some .dir ∨
    d.node r = none ∧ ∀ b x, r = b ++ [x] → ¬ (∃ s, x = s ++ b!".go") ∧ ¬ IsSource x

section
variable [Unicode] (tl : Tool) (n : Nat)

/-- A source of a build that can be turned into code, and the output to be written. -/
def IsJob (d : Disk) (b : BuildConfig) (name : Bytes) (j : Job) : Prop :=
  ∃ stem src body, name = stem ++ b!".cddl" ∧ d.node (d.at_ b.sourceDir ++ [name]) = some (.file src) ∧
    CodeOf tl n b.package src body ∧ b.outDir ≠ [] ∧
    j = ⟨d.at_ b.outDir, stem ++ b!".go", tl.header ++ body.getD []⟩ ∧
    CanMake d j.dir ∧ d.node (j.dir ++ [j.name]) ≠ some .dir

/-- A build all of whose sources can be turned into code. -/
def BuildReady (d : Disk) (build : Option BuildConfig) (js : List Job) : Prop :=
  ∃ b, build = some b ∧ b.sourceDir ≠ [] ∧ d.node (d.at_ b.sourceDir) = some .dir ∧
    List.Forall₂ (IsJob tl n d b) (sources (d.list (d.at_ b.sourceDir))) js

/-- All builds of a configuration are ready, with these outputs. -/
def Ready (d : Disk) (c : Config) (js : List Job) : Prop :=
  ∃ jss, List.Forall₂ (BuildReady tl n d) c.builds jss ∧ js = jss.flatten

end

/-- Names of configurations. -/
def ConfigLike (x : Bytes) : Prop := ∃ s, x = b!"cddlc." ++ s

/-- The first name of a configuration in the working directory, in the order of names. -/
def FirstConfig (d : Disk) (m : Option Bytes) : Prop :=
  match m with
  | none => ∀ x ∈ d.names d.cwd, ¬ ConfigLike x
  | some m => m ∈ d.names d.cwd ∧ ConfigLike m ∧ ∀ x ∈ d.names d.cwd, ConfigLike x → Precedes m x

/-- The configuration that `generate` uses in the working directory: the default one if there is none. -/
def Configured (codec : Codec) (d : Disk) (c : Config) : Prop :=
  (FirstConfig d none ∧ c = defaultConfig) ∨
  ∃ content, (FirstConfig d (some b!"cddlc.json") ∧ d.node (d.cwd ++ [b!"cddlc.json"]) = some (.file content) ∧
      codec.json content = .ok c) ∨
    (FirstConfig d (some b!"cddlc.yaml") ∧ d.node (d.cwd ++ [b!"cddlc.yaml"]) = some (.file content) ∧
      codec.yaml content = .ok c)

/-- The path of the working directory has none of the characters `*`, `?`, `[` and `\`. -/
def PlainCwd (d : Disk) : Prop := ∀ x ∈ d.cwd, ∀ c ∈ x, c ≠ 42 ∧ c ≠ 63 ∧ c ≠ 91 ∧ c ≠ 92

/-- Where a file is to be written. -/
def Job.place (j : Job) : List Bytes := j.dir ++ [j.name]

/-- The disk after some files were written, in this order, and nothing else was done: at their places
there is what was written last, their directories exist, and everything else is as before. -/
structure Outcome (js : List Job) (d d' : Disk) : Prop where
  cwd : d'.cwd = d.cwd
  wf : d'.WF
  last : ∀ js1 j js2, js = js1 ++ j :: js2 → (∀ k ∈ js2, k.place ≠ j.place) → d'.node j.place = some (.file j.content)
  dirs : ∀ j ∈ js, ∀ q, q <+: j.dir → d'.node q = some .dir
  other : ∀ q, (∀ j ∈ js, ¬ q <+: j.dir ∧ q ≠ j.place) → d'.node q = d.node q

end Cddlc.Spec
