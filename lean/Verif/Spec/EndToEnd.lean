import Verif.Spec.Codegen
import Verif.Spec.Language
import Verif.Spec.Disk

/-! What the code of a schema is, from its tokens to the Go file that is printed, without the parser and the
generator. -/

namespace Cddlc.Spec
open Cddlc

section
variable [Unicode]

/-- The declarations of the rules of a file with their comments, in order: for every rule a variable if its value is a
literal and a type otherwise, then its method `Valid`. -/
inductive GoDecls (lib : GoLib) : List Node → List GoDecl → Prop
  | nil : GoDecls lib [] []
  | rule {p i v c rest m e d ds} : Named lib i m → Denotes lib v e →
      (IsLiteral v ∧ d = .var (b!"\n// (cddlc) Ident: " ++ i.name ++ b!"\n") m e ∨
        ¬ IsLiteral v ∧ d = .type (b!"\n// (cddlc) Ident: " ++ i.name ++ b!"\n") m e) →
      GoDecls lib rest ds →
      GoDecls lib (.rule p i v c :: rest) (d :: .method
        (b!"\n// Valid evaluates type constraints on " ++ i.name ++
          b!" and returns nil if valid \n// else it returns a list of validation errors")
        (lib.toLower i.name) m b!"Valid" [b!"error"] ((checks v).map .expr ++ [.ret [b!"nil"]]) :: ds)
  | skip {r rest ds} : r.kind ≠ .rule → GoDecls lib rest ds → GoDecls lib (r :: rest) ds

omit [Unicode] in
/-- The Go file with these declarations. With the older `SortImports`, the package of the validators is imported once for
every size control; with the newer one, the imports are lost. -/
def goFile (resets : Bool) (pkg : Bytes) (rules : List Node) (ds : List GoDecl) : GoFile :=
  let imports := if resets then [] else
    List.replicate ((rules.filterMap valueOf).map sizeControls).sum
      ⟨none, b!"\"github.com/HannesKimara/cddlc/runtime/validators\""⟩
  ⟨pkg, imports, if imports = [] then ds else .imports imports :: ds⟩

/-- The code of a source: its tokens are a file of the grammar, in which every name is declared once and all names are
used as they are declared; its rules have Go declarations; and this is what is printed for them, if it can be printed. -/
def SchemaCode (tl : Tool) (pkg src : Bytes) (body : Option Bytes) : Prop :=
  ∃ ts eof L rules ns cs ds, Scans (Lexer.new src) (ts ++ [eof]) L ∧ eof.tok = .EOF ∧ (∀ t ∈ ts, t.tok ≠ .EOF) ∧
    Rules eof ts rules ns cs ∧ (ns.map (·.1)).Nodup ∧ (∀ c ∈ cs, c.failure (declaredKind ns) = none) ∧
    GoDecls tl.lib rules ds ∧ tl.print (goFile tl.resets pkg rules ds) = .ok body

/-- A source of a build and the output to be written. -/
def SchemaJob (tl : Tool) (d : Disk) (b : BuildConfig) (name : Bytes) (j : Job) : Prop :=
  ∃ stem src body, name = stem ++ b!".cddl" ∧ d.node (d.at_ b.sourceDir ++ [name]) = some (.file src) ∧
    SchemaCode tl b.package src body ∧ b.outDir ≠ [] ∧
    j = ⟨d.at_ b.outDir, stem ++ b!".go", tl.header ++ body.getD []⟩ ∧
    CanMake d j.dir ∧ d.node (j.dir ++ [j.name]) ≠ some .dir

/-- All sources of all builds of a configuration have code, and these outputs. -/
def SchemasReady (tl : Tool) (d : Disk) (c : Config) (js : List Job) : Prop :=
  ∃ jss, List.Forall₂ (fun build js => ∃ b, build = some b ∧ b.sourceDir ≠ [] ∧
    d.node (d.at_ b.sourceDir) = some .dir ∧
    List.Forall₂ (SchemaJob tl d b) (sources (d.list (d.at_ b.sourceDir))) js) c.builds jss ∧ js = jss.flatten

end

end Cddlc.Spec
