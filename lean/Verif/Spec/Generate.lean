import Verif.Model.Generate
import Verif.Spec.Os
import Mathlib.Data.List.Forall2

/-! What the command `generate` is about, independently of how it works. -/

namespace Cddlc.Spec

/-- A name is that of a source: it ends in `.cddl`. -/
def IsSource (name : Bytes) : Prop := ∃ stem, name = stem ++ b!".cddl"

instance (name : Bytes) : Decidable (IsSource name) :=
  if h : (b!".cddl").isSuffixOf name = true then
    .isTrue (by obtain ⟨s, hs⟩ := List.isSuffixOf_iff_suffix.1 h; exact ⟨s, hs.symm⟩)
  else .isFalse fun ⟨s, hs⟩ => h (List.isSuffixOf_iff_suffix.2 ⟨s, hs.symm⟩)

/-- The sources among the names of a directory, in order. -/
def sources (names : List Bytes) : List Bytes := names.filter fun n => decide (IsSource n)

/-- The output for a source of a build: the same name with `.go` in the output directory. -/
def OutputOf (b : BuildConfig) (name out : Bytes) : Prop :=
  ∃ stem, name = stem ++ b!".cddl" ∧ out = joinPath b.outDir (stem ++ b!".go")

/-- What `generateFile` does for a source text: it is parsed without diagnostics, `Visit` of the tree
by a new generator returns, and `body` is what is printed, if it can be printed. -/
def CodeOf [Unicode] (tl : Tool) (n : Nat) (pkg src : Bytes) (body : Option Bytes) : Prop :=
  ∃ res rules g, parseSource n src = .ok res ∧ res.cddl = some rules ∧ res.errs = [] ∧
    visit tl.lib (.cddl {} rules) (.new pkg) = (g, .ok ()) ∧ tl.print (g.string tl.resets).file = .ok body

/-- A write in this run failed. -/
def WriteFailed (t : List Event) : Prop := ∃ p c u, (⟨.write p c, .error u⟩ : Event) ∈ t

/-- The names of directories hold no slashes. -/
def PlainNames (t : List Event) : Prop :=
  ∀ d ns, (⟨.readDir d, .ok ns⟩ : Event) ∈ t → ∀ n ∈ ns, (47 : UInt8) ∉ n

/-- The configurations a run may have used: the default, or one decoded from a file it read. -/
def UsedConfig (codec : Codec) (t : List Event) (c : Config) : Prop :=
  c = defaultConfig ∨ ∃ path content, (⟨.readFile path, .ok content⟩ : Event) ∈ t ∧
    (codec.json content = .ok c ∨ codec.yaml content = .ok c)

/-- A source was turned into its output: it was read; then the output was opened and written, and nothing
else; and after this, whatever was there before, it holds the header and the code, unless a write failed. -/
def FileDone [Unicode] (tl : Tool) (n : Nat) (b : BuildConfig) (name : Bytes) (t : List Event) : Prop :=
  ∃ src body out, OutputOf b name out ∧ CodeOf tl n b.package src body ∧
    (⟨.readFile (joinPath b.sourceDir name), .ok src⟩ : Event) ∈ t ∧
    (∀ ev ∈ t, ∀ p, changes ev.1 = some p → p = out) ∧
    ∀ (at_ : Bytes → Nat) (part : Nat) (fs : Files Nat), ¬ WriteFailed t →
      effects at_ part t fs (at_ out) = some (tl.header ++ body.getD [])

/-- All sources of a build were turned into their outputs, in the order of the listing. -/
def BuildDone [Unicode] (tl : Tool) (n : Nat) (build : Option BuildConfig) (t : List Event) : Prop :=
  ∃ b names ts, build = some b ∧
    t = ⟨.stat b.sourceDir, .ok true⟩ :: ⟨.readDir b.sourceDir, .ok names⟩ :: ts.flatten ∧
    List.Forall₂ (FileDone tl n b) (sources names) ts

/-- A run that changes no file. -/
def Quiet (t : List Event) : Prop := ∀ ev ∈ t, changes ev.1 = none

/-- A build was begun: either nothing was changed, or the first sources of the listing were turned into
their outputs, and after that nothing but the output of the next source was changed. -/
def Stopped [Unicode] (tl : Tool) (n : Nat) (build : Option (Option BuildConfig)) (t : List Event) : Prop :=
  Quiet t ∨ ∃ b names done rest ts t', build = some (some b) ∧
    t = ⟨.stat b.sourceDir, .ok true⟩ :: ⟨.readDir b.sourceDir, .ok names⟩ :: (ts.flatten ++ t') ∧
    sources names = done ++ rest ∧ List.Forall₂ (FileDone tl n b) done ts ∧
    ∀ ev ∈ t', ∀ p, changes ev.1 = some p → ∃ name, rest.head? = some name ∧ OutputOf b name p

/-- What follows the end of a Go comment of the form `/* ... */`, from after its beginning: all after the
first `*/`. -/
def afterComment : Bytes → Option Bytes
  | [] => none
  | c :: s => if c = 42 ∧ s.head? = some 47 then some s.tail else afterComment s

end Cddlc.Spec
