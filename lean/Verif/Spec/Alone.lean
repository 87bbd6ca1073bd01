import Verif.Spec.EndToEnd

/-! What `generate` may do to a disk that nobody else uses, and what its success means there. -/

namespace Cddlc.Spec
open Cddlc

/-- A directory that `generate` may make: one on the way to the output directory of a build. -/
def MayMake (d : Disk) (builds : List (Option BuildConfig)) (q : List Bytes) : Prop :=
  ∃ b, some b ∈ builds ∧ q <+: d.at_ b.outDir

/-- A file that `generate` may write: `stem.go` in the output directory of a build, if the file `stem.cddl` is in its
source directory. -/
def MayWrite (d : Disk) (builds : List (Option BuildConfig)) (q : List Bytes) : Prop :=
  ∃ b stem src, some b ∈ builds ∧ d.node (d.at_ b.sourceDir ++ [stem ++ b!".cddl"]) = some (.file src) ∧
    q = d.at_ b.outDir ++ [stem ++ b!".go"]

/-- All that `generate` may change on a disk: it is as before except that there are new directories on the way to output
directories, and that outputs of sources are new or hold something else. Nothing is removed, and no directory becomes a
file or a file a directory. -/
structure Unharmed (d : Disk) (builds : List (Option BuildConfig)) (d' : Disk) : Prop where
  wf : d'.WF
  cwd : d'.cwd = d.cwd
  node : ∀ q, d'.node q = d.node q ∨ (d.node q = none ∧ d'.node q = some .dir ∧ MayMake d builds q) ∨
    (d.node q ≠ some .dir ∧ (∃ c, d'.node q = some (.file c)) ∧ MayWrite d builds q)

section
variable [Unicode]

/-- A source of a build with its code, and the output that is written. -/
def SchemaDone (tl : Tool) (d : Disk) (b : BuildConfig) (name : Bytes) (j : Job) : Prop :=
  ∃ stem src body, name = stem ++ b!".cddl" ∧ d.node (d.at_ b.sourceDir ++ [name]) = some (.file src) ∧
    SchemaCode tl b.package src body ∧ b.outDir ≠ [] ∧ j = ⟨d.at_ b.outDir, stem ++ b!".go", tl.header ++ body.getD []⟩

/-- All sources of all builds of a configuration have code, and these are the outputs. -/
def SchemasDone (tl : Tool) (d : Disk) (c : Config) (js : List Job) : Prop :=
  ∃ jss, List.Forall₂ (fun build js => ∃ b, build = some b ∧ b.sourceDir ≠ [] ∧
    List.Forall₂ (SchemaDone tl d b) (sources (d.list (d.at_ b.sourceDir))) js) c.builds jss ∧ js = jss.flatten

end

end Cddlc.Spec
