import Verif.Lemmas.Alone
import Verif.Props.EndToEnd

/-! C120: `generate` on a disk that nobody else uses, however it ends. -/

namespace Cddlc
open Spec

section
variable [Unicode] (tl : Tool) (n : Nat)

/-- The command uses the configuration of the working directory, or reports that there is none that can be used. -/
theorem run_config_cases {d : Disk} (hw : d.WF) (hp : PlainCwd d) :
    (∃ e, d.run (generateCmd tl n) = (d, .done (some (.config e)))) ∨
    ∃ c, Configured tl.codec d c ∧ d.run (generateCmd tl n) = d.run (generateBuilds tl n c.builds) := by
  obtain ⟨m, hm⟩ := firstConfig_exists d
  have h := cmd_run tl n hw hp hm
  cases m with
  | none => exact Or.inr ⟨_, Or.inl ⟨hm, rfl⟩, h⟩
  | some m =>
    simp only at h
    cases hl : loaded tl.codec m (configContent d m) with
    | error e => rw [hl] at h; exact Or.inl ⟨e, h⟩
    | ok c =>
      rw [hl] at h
      refine Or.inr ⟨c, ?_, h⟩
      unfold configContent at hl
      cases hn : d.node (d.cwd ++ [m]) with
      | none => rw [hn] at hl; cases hl
      | some e =>
        cases e with
        | dir => rw [hn] at hl; cases hl
        | file content =>
          rw [hn] at hl
          simp only [loaded] at hl
          split at hl
          · rename_i he; subst he
            cases hj : tl.codec.json content with
            | error => rw [hj] at hl; cases hl
            | ok c' => rw [hj] at hl; cases hl; exact Or.inr ⟨content, Or.inl ⟨hm, hn, hj⟩⟩
          · split at hl
            · rename_i he; subst he
              cases hj : tl.codec.yaml content with
              | error => rw [hj] at hl; cases hl
              | ok c' => rw [hj] at hl; cases hl; exact Or.inr ⟨content, Or.inr ⟨hm, hn, hj⟩⟩
            · cases hl

/-- **C120**, however it ends - with success, a report, a panic or a source on which it hangs: `generate` makes no
directory that is not on the way to an output directory, writes no file but the outputs of sources, and leaves
everything else on the disk as it is. If the configuration cannot be used, nothing changes. -/
theorem C120_unharmed {d : Disk} (hw : d.WF) (hp : PlainCwd d) :
    (∃ e, d.run (generateCmd tl n) = (d, .done (some (.config e)))) ∨
    ∃ c, Configured tl.codec d c ∧ Unharmed d c.builds (d.run (generateCmd tl n)).1 := by
  rcases run_config_cases tl n hw hp with h | ⟨c, hc, h⟩
  · exact Or.inl h
  · refine Or.inr ⟨c, hc, ?_⟩
    rw [h]
    obtain ⟨k, -⟩ := done_builds tl n (builds := c.builds) (bs := c.builds) (fun _ h => h) (.refl hw)
    exact ⟨k.wf, k.cwd, k.node⟩

variable (hU : NoReplacement)

include hU in
/-- **C120**, success: if `generate` succeeds, then every source in the source directory of every build, on the disk as it
was before, is a file whose text has code; and nothing else happened to the disk than that the header and the code
of these sources were written to their outputs, in the order of builds and names. -/
theorem C120_success {d d' : Disk} (hw : d.WF) (hp : PlainCwd d) (h : d.run (generateCmd tl n) = (d', .done none)) :
    ∃ c js, Configured tl.codec d c ∧ SchemasDone tl d c js ∧
      (∀ b, some b ∈ c.builds → d'.node (d.at_ b.sourceDir) = some .dir) ∧ Outcome js d d' := by
  rcases run_config_cases tl n hw hp with ⟨e, h'⟩ | ⟨c, hc, h'⟩
  · rw [h] at h'; cases h'
  · rw [h] at h'
    obtain ⟨-, k⟩ := done_builds tl n (builds := c.builds) (bs := c.builds) (fun _ h => h) (.refl hw)
    rw [← h'] at k
    obtain ⟨jss, k1, k2, k3⟩ := k rfl
    refine ⟨c, jss.flatten, hc, ⟨jss, k1.imp ?_, rfl⟩, k3, did_outcome hw k2⟩
    rintro _ js ⟨b, rfl, m1, m2⟩
    refine ⟨b, rfl, m1, m2.imp ?_⟩
    rintro _ j ⟨stem, src, body, rfl, e1, e2, e3⟩
    exact ⟨stem, src, body, rfl, e1, (C119_code hU).mp ⟨n, e2⟩, e3⟩

include hU in
/-- **C120**, failure: if a source of a build has no code, `generate` does not succeed. -/
theorem C120_failure {d : Disk} (hw : d.WF) (hp : PlainCwd d) {c : Config} (hc : Configured tl.codec d c) {b : BuildConfig}
    (hb : some b ∈ c.builds) {name : Bytes} (hs : IsSource name) (hn : d.node (d.at_ b.sourceDir ++ [name]) ≠ none)
    (hbad : ∀ src body, d.node (d.at_ b.sourceDir ++ [name]) = some (.file src) → ¬ SchemaCode tl b.package src body) :
    (d.run (generateCmd tl n)).2 ≠ .done none := by
  intro h
  obtain ⟨d', hr⟩ : ∃ d', d.run (generateCmd tl n) = (d', .done none) := ⟨_, Prod.ext rfl h⟩
  rw [run_configured tl n hw hp hc] at hr
  obtain ⟨-, k⟩ := done_builds tl n (builds := c.builds) (bs := c.builds) (fun _ h => h) (.refl hw)
  rw [hr] at k
  obtain ⟨jss, k1, -⟩ := k rfl
  obtain ⟨js, -, b', hb', -, h2⟩ : ∃ js, js ∈ jss ∧ BuildMade tl n d (some b) js := by
    clear hr k hbad hn
    generalize c.builds = bs at hb k1
    induction k1 with
    | nil => cases hb
    | cons h _ ih =>
      rcases List.mem_cons.1 hb with rfl | hb
      · exact ⟨_, List.mem_cons_self .., h⟩
      · obtain ⟨js, h1, h2⟩ := ih hb
        exact ⟨js, List.mem_cons_of_mem _ h1, h2⟩
  cases hb'
  have hm : name ∈ sources (d.list (d.at_ b.sourceDir)) :=
    List.mem_filter.2 ⟨List.mem_mergeSort.2 ((hw.listed _ _).2 hn), decide_eq_true hs⟩
  have : ∀ {xs ys}, List.Forall₂ (MadeCode tl n d b) xs ys → name ∉ xs := by
    intro xs ys h
    induction h with
    | nil => nofun
    | cons h _ ih =>
      intro hx
      rcases List.mem_cons.1 hx with rfl | hx
      · obtain ⟨stem, src, body, -, e1, e2, -⟩ := h
        exact hbad src body e1 ((C119_code hU).mp ⟨n, e2⟩)
      · exact ih hx
  exact this h2 hm

end

/-- A disk on which `generate` succeeds. -/
example : letI := asciiOnly
    ∃ d' c js, demoDisk.run (generateCmd demoTool 30) = (d', .done none) ∧ Configured demoTool.codec demoDisk c ∧
      SchemasDone demoTool demoDisk c js ∧ Outcome js demoDisk d' := by
  let := asciiOnly
  obtain ⟨d', h, -⟩ := C86_generates demoTool 30 demoDisk_plain.1 demoDisk_plain.2 (Or.inl ⟨demo_first, rfl⟩) demo_ready
  obtain ⟨c, js, h1, h2, -, h3⟩ := C120_success demoTool 30 asciiOnly_noReplacement demoDisk_plain.1 demoDisk_plain.2 h
  exact ⟨d', c, js, h, h1, h2, h3⟩

/-- A disk with a source that uses a name that is not declared: `generate` does not succeed, and the source and all that
is not an output are as before. -/
example : letI := asciiOnly
    let d := smallDisk [b!"w"] [([], .dir), ([b!"w"], .dir), ([b!"w", b!"a.cddl"], .file b!"a = b")]
    (d.run (generateCmd demoTool 30)).2 ≠ .done none ∧
      (d.run (generateCmd demoTool 30)).1.node [b!"w", b!"a.cddl"] = some (.file b!"a = b") := by
  let := asciiOnly
  intro d
  have hw : d.WF := smallDisk_wf (by decide) (by decide) (by decide +kernel) (by decide)
  have hp : PlainCwd d := by unfold PlainCwd; decide
  have hc : FirstConfig d none := by
    have : d.names d.cwd = [b!"a.cddl"] := by decide
    intro x hx
    rw [this] at hx
    rintro ⟨s, rfl⟩
    simp at hx
  have hsrc : d.node (d.at_ defaultBuildConfig.sourceDir ++ [b!"a.cddl"]) = some (.file b!"a = b") := by decide
  refine ⟨C120_failure demoTool 30 asciiOnly_noReplacement hw hp (c := defaultConfig) (Or.inl ⟨hc, rfl⟩)
    (b := defaultBuildConfig) (List.mem_singleton.2 rfl) (name := b!"a.cddl") ⟨b!"a", rfl⟩ (by rw [hsrc]; simp) ?_, ?_⟩
  · intro src body h hcode
    rw [hsrc] at h
    cases h
    obtain ⟨m, res, rules, g, h1, -, h3, -⟩ := (C119_code asciiOnly_noReplacement).mpr hcode
    obtain ⟨res', rules', k1, k2, k3⟩ := of_parses (n := 30) (src := b!"a = b") (f := fun _ errs => !errs.isEmpty)
      (by decide_cbv)
    cases parse_unique h1 k1
    rw [h3] at k3
    cases k3
  · rcases C120_unharmed demoTool 30 hw hp with ⟨e, h⟩ | ⟨c, -, h⟩
    · rw [h]; rfl
    · have hn : d.node [b!"w", b!"a.cddl"] = some (.file b!"a = b") := by decide
      rcases h.node [b!"w", b!"a.cddl"] with h | ⟨h, -⟩ | ⟨-, -, b, stem, src, -, -, h⟩
      · rw [h, hn]
      · rw [hn] at h; cases h
      · have := (List.append_inj' (s₁ := [b!"w"]) (t₁ := [b!"a.cddl"]) h rfl).2
        have := congrArg List.reverse (List.singleton_inj.1 this)
        simp at this

end Cddlc
