import Verif.Spec.EndToEnd
import Verif.Props.Language
import Verif.Props.Disk

/-! C119: from the text of the sources to the files on the disk. -/

namespace Cddlc
open Spec

section
variable [Unicode] (hU : NoReplacement)

theorem declares_fileDecls {lib : GoLib} {rules ds} (h : GoDecls lib rules ds) : FileDecls lib rules ds := by
  induction h with
  | nil => exact .nil
  | rule h1 h2 h3 _ ih =>
    rcases h3 with ⟨h3, rfl⟩ | ⟨h3, rfl⟩
    · exact .rule (.mk h1 h2 (Or.inl ⟨rfl, h3⟩)) ih
    · exact .rule (.mk h1 h2 (Or.inr ⟨rfl, h3⟩)) ih
  | skip h1 _ ih => exact .skip h1 ih

include hU in
/-- `Visit` of rules that have declarations declares these. -/
theorem visitList_declares {lib : GoLib} {rules : List Node} (ht : TopLevel rules) :
    (∃ ds, FileDecls lib rules ds) → ∃ ds, GoDecls lib rules ds ∧ (∀ ds', GoDecls lib rules ds' → ds' = ds) ∧
      ∀ g, visitList lib rules g = ((g.sized (ruleSizes rules)).declaring ds, .ok ()) := by
  induction rules with
  | nil =>
    refine fun _ => ⟨[], .nil, fun _ h => by cases h; rfl, fun g => ?_⟩
    rw [visitList, declaring_nil, show ruleSizes [] = 0 from rfl, sized_zero]; rfl
  | cons r rest ih =>
    rintro ⟨ds, hd⟩
    have ih := ih fun x hx => ht x (List.mem_cons_of_mem _ hx)
    have hs : ∀ g, visitList lib (r :: rest) g = Act.bind (visit lib r) (fun _ => visitList lib rest) g :=
      fun g => by rw [visitList]
    cases hd with
    | @rule p i v c _ a b ds h1 h2 =>
      obtain ⟨ds, h3, h4, h5⟩ := ih ⟨_, h2⟩
      have hv : ∀ g, visit lib (.rule p i v c) g = visitRule lib i v g := fun g => by rw [visit]
      rcases visitRule_cases hU lib i v with ⟨n, e, k1, k2, k3, k4, k5⟩ | ⟨k1, _⟩
      swap
      · cases h1 with | mk h1 h2 _ => exact absurd ⟨_, _, h1, h2⟩ k1
      refine ⟨_, .rule (d := ruleDecl i v.kind n e) k1 k2 ?_ h3, ?_, fun g => ?_⟩
      · unfold IsLiteral ruleDecl
        cases v.kind <;> simp
      · intro ds' h
        cases h with
        | rule m1 m2 m3 m4 =>
          cases k3 _ m1
          cases k4 _ m2
          cases h4 _ m4
          congr 1
          rcases m3 with ⟨m, rfl⟩ | ⟨m, rfl⟩ <;> revert m <;> unfold IsLiteral ruleDecl <;> cases v.kind <;> simp
        | skip h _ => exact absurd rfl h
      · rw [hs, Act.bind_ok ((hv g).trans (k5 g)), h5, sized_declaring,
          show ruleSizes (.rule p i v c :: rest) = sizeControls v + ruleSizes rest by simp [ruleSizes, valueOf]]
        rfl
    | skip hk h2 =>
      obtain ⟨ds, h3, h4, h5⟩ := ih ⟨_, h2⟩
      refine ⟨ds, .skip hk h3, fun ds' h => ?_, fun g => ?_⟩
      · cases h with
        | rule => exact absurd rfl hk
        | skip _ h => exact h4 _ h
      · rw [hs, Act.bind_ok (visit_skip hk (ht r (List.mem_cons_self ..)).1 g), h5,
          show ruleSizes (r :: rest) = ruleSizes rest by simp [ruleSizes, valueOf_skip hk]]

/-- What is printed after these declarations. -/
theorem string_goFile {lib : GoLib} {rules ds} (h : GoDecls lib rules ds) (resets : Bool) (pkg : Bytes) :
    ((((Generator.new pkg).sized (ruleSizes rules)).declaring ds).string resets).file = goFile resets pkg rules ds := by
  have hn : ∀ specs, GoDecl.imports specs ∉ ds := by
    intro specs
    induction h with
    | nil => simp
    | rule _ _ h _ ih =>
      rcases h with ⟨_, rfl⟩ | ⟨_, rfl⟩ <;> simpa using ih
    | skip _ _ ih => exact ih
  cases resets
  · have key : ∀ k, ((((Generator.new pkg).sized k).declaring ds).string false).file =
        let is : List GoImport := .replicate k ⟨none, b!"\"github.com/HannesKimara/cddlc/runtime/validators\""⟩
        ⟨pkg, is, if is = [] then ds else .imports is :: ds⟩ := by
      intro k
      cases k <;> rfl
    exact key _
  · rw [string_true]
    · rfl
    · simpa [Generator.declaring, Generator.sized, Generator.new] using hn

include hU in
/-- **C119**, one source: parser, generator and printer turn a source into `body` if and only if that is the code of the
source. -/
theorem C119_code {tl : Tool} {pkg src : Bytes} {body : Option Bytes} :
    (∃ n, CodeOf tl n pkg src body) ↔ SchemaCode tl pkg src body := by
  constructor
  · rintro ⟨n, res, rules, g, h1, h2, h3, h4, h5⟩
    obtain ⟨ts, eof, L, ns, cs, k1, k2, k3, k4, k5, -, k6⟩ := C112_accepted.mp ⟨n, res, h1, h2, h3⟩
    have hg : Generated tl.lib n src pkg rules g := ⟨res, h1, h2, h3, h4⟩
    obtain ⟨ds, m1, -, m2⟩ := visitList_declares hU (parsed_topLevel h1 h2) ⟨_, C39_generated hU hg⟩
    rw [visit, m2] at h4
    cases h4
    rw [string_goFile m1] at h5
    exact ⟨ts, eof, L, rules, ns, cs, ds, k1, k2, k3, k4, k5, by simpa [Env.new] using k6, m1, h5⟩
  · rintro ⟨ts, eof, L, rules, ns, cs, ds, k1, k2, k3, k4, k5, k6, m1, h5⟩
    obtain ⟨n, res, h1, h2, h3⟩ := (C112_accepted (env := .new)).mpr
      ⟨ts, eof, L, ns, cs, k1, k2, k3, k4, k5, by simp [Env.new], by simpa [Env.new] using k6⟩
    obtain ⟨ds', m2, m3, m4⟩ := visitList_declares hU (parsed_topLevel h1 h2) ⟨_, declares_fileDecls m1⟩
    cases m3 _ m1
    refine ⟨n, res, rules, _, h1, h2, h3, by rw [visit, m4], ?_⟩
    rw [string_goFile m1]; exact h5

omit [Unicode] in
theorem forall₂_bound {α β : Type} {R : α → β → Prop} {S : Nat → α → β → Prop} {as bs} (h : List.Forall₂ R as bs)
    (hk : ∀ a b, R a b → ∃ N, ∀ n, N ≤ n → S n a b) : ∃ N, ∀ n, N ≤ n → List.Forall₂ (S n) as bs := by
  induction h with
  | nil => exact ⟨0, fun _ _ => .nil⟩
  | cons h _ ih =>
    obtain ⟨N, h1⟩ := hk _ _ h
    obtain ⟨M, h2⟩ := ih
    exact ⟨max N M, fun n hn => .cons (h1 n (by omega)) (h2 n (by omega))⟩

theorem codeOf_le {tl : Tool} {n m : Nat} (hm : n ≤ m) {pkg src body} (h : CodeOf tl n pkg src body) :
    CodeOf tl m pkg src body := by
  obtain ⟨res, rules, g, h1, h2⟩ := h
  have := parseSource_le hm (src := src) (env := .new)
  rw [h1] at this
  exact ⟨res, rules, g, (this.resolve_left nofun).symm, h2⟩

include hU in
/-- **C119**: when nothing interferes and every source of every build has code, `generate` succeeds; then every output
holds the header and the code of its source - of the last one, if several have the same output -, the directories of
the outputs exist, and nothing else on the disk is changed. -/
theorem C119_generates {tl : Tool} {d : Disk} (hw : d.WF) (hp : PlainCwd d) {c : Config} {js : List Job}
    (hc : Configured tl.codec d c) (hr : SchemasReady tl d c js) :
    ∃ N, ∀ n, N ≤ n → ∃ d', d.run (generateCmd tl n) = (d', .done none) ∧ Outcome js d d' := by
  obtain ⟨jss, h1, rfl⟩ := hr
  obtain ⟨N, h2⟩ := forall₂_bound (S := fun n => BuildReady tl n d) h1 (by
    rintro _ js ⟨b, rfl, k1, k2, k3⟩
    obtain ⟨N, k4⟩ := forall₂_bound (S := fun n => IsJob tl n d b) k3 (by
      rintro _ j ⟨stem, src, body, rfl, m1, m2, m3⟩
      obtain ⟨N, m2⟩ := (C119_code hU).mpr m2
      exact ⟨N, fun n hn => ⟨stem, src, body, rfl, m1, codeOf_le hn m2, m3⟩⟩)
    exact ⟨N, fun n hn => ⟨b, rfl, k1, k2, k4 n hn⟩⟩)
  exact ⟨N, fun n hn => C86_generates tl n hw hp hc ⟨jss, h2 n hn, rfl⟩⟩

include hU in
/-- **C119**, whatever else happens on the disk: if `generate` reports success and no write failed, then every source in
the directory of every build has an output that holds the header and the code of a source that was read. -/
theorem C119_only {tl : Tool} {n : Nat} {t} (h : Traces (generateCmd tl n) t (.done none)) (hp : PlainNames t)
    (hw : ¬ WriteFailed t) :
    ∃ c, UsedConfig tl.codec t c ∧ none ∉ c.builds ∧ ∀ b, some b ∈ c.builds →
      ∃ names, (⟨.readDir b.sourceDir, .ok names⟩ : Event) ∈ t ∧ ∀ name ∈ names, IsSource name →
        ∃ out, OutputOf b name out ∧ ∀ (at_ : Bytes → Nat) (part : Nat) (fs : Files Nat),
          ∃ b' name' src body out', some b' ∈ c.builds ∧ OutputOf b' name' out' ∧ at_ out' = at_ out ∧
            (⟨.readFile (joinPath b'.sourceDir name'), .ok src⟩ : Event) ∈ t ∧ SchemaCode tl b'.package src body ∧
            effects at_ part t fs (at_ out) = some (tl.header ++ body.getD []) := by
  obtain ⟨c, h1, h2, h3⟩ := C70_complete_partial tl n h hp hw
  refine ⟨c, h1, h2, fun b hb => ?_⟩
  obtain ⟨names, k1, k2⟩ := h3 b hb
  refine ⟨names, k1, fun name hn hs => ?_⟩
  obtain ⟨out, m1, m2⟩ := k2 name hn hs
  refine ⟨out, m1, fun at_ part fs => ?_⟩
  obtain ⟨b', name', src, body, out', e1, e2, e3, e4, e5, e6⟩ := m2 at_ part fs
  exact ⟨b', name', src, body, out', e1, e2, e3, e4, (C119_code hU).mp ⟨n, e5⟩, e6⟩

include hU in
/-- **C119**, no source is passed over: if `generate` reports success, every source in the directory of every build was
read and has code. -/
theorem C119_every {tl : Tool} {n : Nat} {t} (h : Traces (generateCmd tl n) t (.done none)) (hp : PlainNames t) :
    ∃ c, UsedConfig tl.codec t c ∧ none ∉ c.builds ∧ ∀ b, some b ∈ c.builds →
      ∃ names, (⟨.readDir b.sourceDir, .ok names⟩ : Event) ∈ t ∧ ∀ name ∈ names, IsSource name →
        ∃ src body, (⟨.readFile (joinPath b.sourceDir name), .ok src⟩ : Event) ∈ t ∧ SchemaCode tl b.package src body := by
  rcases C52_in_order tl n h hp with ⟨h, _⟩ | ⟨c, pre, done, rest, ts, t', hc, hb, rfl, -, hf, h⟩
  · exact absurd rfl h
  rcases h with ⟨_, rfl, rfl⟩ | ⟨h, _⟩
  swap
  · exact absurd rfl h
  rw [List.append_nil] at hb
  subst hb
  obtain ⟨segs, h1, -, h3, h4⟩ := parts tl n hf
  simp only [List.append_nil]
  refine ⟨c, ?_, h4, fun b hb => ?_⟩
  · rcases hc with hc | ⟨q, ct, hm, hc⟩
    · exact Or.inl hc
    · exact Or.inr ⟨q, ct, List.mem_append_left _ hm, hc⟩
  · obtain ⟨names, hr, hall⟩ := h3 b hb
    refine ⟨names, List.mem_append_right _ hr, fun name hn hs => ?_⟩
    obtain ⟨s, hsm, src, body, out, -, k1, k2, -⟩ := hall name (List.mem_filter.2 ⟨hn, decide_eq_true hs⟩)
    exact ⟨src, body, List.mem_append_right _ (h1 ▸ List.mem_flatten_of_mem hsm k2), (C119_code hU).mp ⟨n, k1⟩⟩

end

/-- The hypotheses of these theorems are met by a disk with one source, and by a run on it. -/
example : letI := asciiOnly
    ∃ N, ∀ n, N ≤ n → ∃ d', demoDisk.run (generateCmd demoTool n) = (d', .done none) ∧ Outcome [demoJob] demoDisk d' := by
  let := asciiOnly
  refine C119_generates asciiOnly_noReplacement demoDisk_plain.1 demoDisk_plain.2 (Or.inl ⟨demo_first, rfl⟩) ?_
  obtain ⟨jss, h1, h2⟩ := demo_ready
  refine ⟨jss, h1.imp ?_, h2⟩
  rintro _ js ⟨b, rfl, k1, k2, k3⟩
  refine ⟨b, rfl, k1, k2, k3.imp ?_⟩
  rintro _ j ⟨stem, src, body, rfl, m1, m2, m3⟩
  exact ⟨stem, src, body, rfl, m1, (C119_code asciiOnly_noReplacement).mp ⟨_, m2⟩, m3⟩

example : letI := asciiOnly
    ∃ c, UsedConfig demoTool.codec demoTrace c ∧ none ∉ c.builds :=
  letI := asciiOnly
  have ⟨c, h1, h2, _⟩ := C119_only asciiOnly_noReplacement demo_traces.1 demo_traces.2.1 demo_traces.2.2
  ⟨c, h1, h2⟩

example : letI := asciiOnly
    ∃ c, UsedConfig demoTool.codec demoTrace c ∧ none ∉ c.builds :=
  letI := asciiOnly
  have ⟨c, h1, h2, _⟩ := C119_every asciiOnly_noReplacement demo_traces.1 demo_traces.2.1
  ⟨c, h1, h2⟩

/-- A printer that shows how many imports and declarations a file has. -/
def countPrint (f : GoFile) : Out (Option Bytes) := .ok (some (decInt f.imports.length ++ b!" " ++ decInt f.decls.length))

/-- The code of a schema with a size control: an import and two declarations for each of the two rules. -/
example : letI := asciiOnly
    SchemaCode { demoTool with print := countPrint } b!"p" b!"a = uint .size 4\nb = [x: a]" (some b!"1 5") := by
  let := asciiOnly
  refine (C119_code asciiOnly_noReplacement).mp ⟨30, ?_⟩
  obtain ⟨res, rules, h1, h2, h3⟩ := of_parses (n := 30) (src := b!"a = uint .size 4\nb = [x: a]")
    (f := fun rules errs => if errs.isEmpty then
      match visitList demoLib rules (.new b!"p") with
      | (g, .ok _) => (g.string false).file.imports.length == 1 && (g.string false).file.decls.length == 5
      | _ => false
      else false) (by decide_cbv)
  split at h3
  · rename_i he
    split at h3
    · rename_i g u hv
      simp only [Bool.and_eq_true, beq_iff_eq] at h3
      refine ⟨res, rules, g, h1, h2, List.isEmpty_iff.mp he, by rw [visit]; exact hv, ?_⟩
      show countPrint (g.string false).file = _
      unfold countPrint
      rw [h3.1, h3.2]
      exact congrArg (fun x => Out.ok (some x)) (by decide)
    · cases h3
  · cases h3

end Cddlc
