import Verif.Lemmas.Generate
import Verif.Props.Config
import Verif.Props.Codegen

/-! Properties of the command `generate` (C50 to C52, C70 to C75). All are about every run: the system
may answer every call in any way, and the process may be killed between any two calls. -/

namespace Cddlc
open Spec

section
variable [Unicode] (tl : Tool) (n : Nat)

/-! ### Runs that exist -/

/-- A source whose code can be made is written in two pieces, whatever becomes of the second. -/
theorem traces_code {pkg src out body : Bytes} (h : CodeOf tl n pkg src (some body)) (u : Unit) (a : Except Unit Unit) :
    Traces (generateOpen tl n pkg src out) [⟨.write out tl.header, .ok u⟩, ⟨.write out body, a⟩] (.done none) := by
  obtain ⟨res, rules, g, h1, h2, h3, h4, h5⟩ := h
  unfold generateOpen
  rw [h1]
  simp only [Prog.of, Prog.bind, h3, h2, h4]
  refine .op (o := .write out tl.header) (.ok u) ?_
  simp only [Prog.bind, h5]
  exact .op (o := .write out body) a .ret

/-- A source with diagnostics is reported. -/
theorem traces_parse {pkg src out : Bytes} {res} (h : parseSource n src = .ok res) (he : res.errs ≠ []) :
    Traces (generateOpen tl n pkg src out) [] (.done (some .parse)) := by
  unfold generateOpen
  have hl : res.errs.length > 0 := List.length_pos_iff.2 he
  simp only [h, Prog.of, Prog.bind, if_pos hl, C33_rendered tl.text h]
  exact .ret

/-! ### C49: the configuration used -/

/-- **C49**: the command uses the first configuration file of the working directory in dictionary order,
and the default only if there is none; an error of the file ends the command before anything is done. -/
theorem C49_generate {wd : Bytes} {ns : List Bytes} {t e}
    (h : Traces (generateCmd tl n) (⟨.getwd, .ok wd⟩ :: ⟨.names wd, ns⟩ :: t) e)
    (hm : hasMeta wd = false) (hs : ∀ m ∈ ns, (47 : UInt8) ∉ m) :
    (e = .cut ∧ Quiet t) ∨
    ((∀ m ∈ ns, ¬ IsConfigName m) ∧ Traces (generateBuilds tl n defaultConfig.builds) t e) ∨
    ∃ m ∈ ns, IsConfigName m ∧ (∀ m' ∈ ns, IsConfigName m' → Precedes m m') ∧ ∃ a t',
      t = ⟨.readFile (joinPath wd m), a⟩ :: t' ∧
      ((∃ c, loaded tl.codec m a = .ok c ∧ Traces (generateBuilds tl n c.builds) t' e) ∨
        ∃ err, loaded tl.codec m a = .error err ∧ t' = [] ∧ (e = .cut ∨ e = .done (some (.config err)))) := by
  unfold generateCmd at h
  rcases runs_op h with ⟨h, _⟩ | ⟨a, t1, ht, h1⟩
  · cases h
  cases ht
  rcases runs_bind h1 with ⟨t2, t3, r, ht, h2, h3⟩ | ⟨e', h2, he⟩
  · obtain ⟨ns', t2', rfl, hr⟩ := C49_first_match tl.codec wd hm t2 r h2
    cases ht
    rcases hr with ⟨hn, rfl, rfl⟩ | ⟨m, hmn, hc, hf, a, rfl, hr⟩
    · exact Or.inr (Or.inl ⟨hn, h3⟩)
    · obtain ⟨hr, hne⟩ := hr (hs m hmn)
      refine Or.inr (Or.inr ⟨m, hmn, hc, hf, a, t3, rfl, ?_⟩)
      match r, hr, hne, h3 with
      | .error .none, _, hne, _ => exact absurd rfl hne
      | .error .glob, hr, _, h3 | .error .open, hr, _, h3 | .error .decode, hr, _, h3
      | .error (.unknownBase _), hr, _, h3 =>
        obtain ⟨rfl, rfl | rfl⟩ := runs_ret h3
        · exact Or.inr ⟨_, hr.symm, rfl, Or.inr rfl⟩
        · exact Or.inr ⟨_, hr.symm, rfl, Or.inl rfl⟩
      | .ok c, hr, _, h3 => exact Or.inl ⟨c, hr.symm, h3⟩
  · rcases config_ends h2 with ⟨_, rfl⟩ | rfl <;> cases he
    refine Or.inl ⟨rfl, fun ev hev => ?_⟩
    exact (calls_traces (loadConfigFromDir_calls tl.codec wd) h2 ev (List.mem_cons_of_mem _ hev)).1

/-! ### C50: what is written -/

/-- **C50**: every call of the command that opens a file for writing or writes to it names the output of
a source: it is the name of a listed file `stem.cddl` with `.go`, in the output directory of the same
build of the configuration used. Directories are created only under the names of output directories. -/
theorem C50_outputs_only {t e} (h : Traces (generateCmd tl n) t e) (hp : PlainNames t) : ∀ ev ∈ t,
    (∀ p, changes ev.1 = some p → ∃ c b names name, UsedConfig tl.codec t c ∧ some b ∈ c.builds ∧
      (⟨.readDir b.sourceDir, .ok names⟩ : Event) ∈ t ∧ name ∈ names ∧ OutputOf b name p) ∧
    (∀ d, ev.1 = .mkdirAll d → ∃ c b, UsedConfig tl.codec t c ∧ some b ∈ c.builds ∧ d = b.outDir) := by
  obtain ⟨pre, t1, rfl, hpre, ⟨_, _, rfl⟩ | ⟨c, hc, h⟩⟩ := cmdRun tl n h
  · intro ev hev
    rw [List.append_nil] at hev
    exact ⟨fun p hc => (by rw [(hpre ev hev).1] at hc; cases hc), fun d hd => absurd hd ((hpre ev hev).2.1 d)⟩
  have hc' : UsedConfig tl.codec (pre ++ t1) c := by
    rcases hc with hc | ⟨q, ct, hm, hc⟩
    · exact Or.inl hc
    · exact Or.inr ⟨q, ct, List.mem_append_left _ hm, hc⟩
  have key := buildsCalls tl n (plain_right hp) h
  intro ev hev
  rcases List.mem_append.1 hev with hev | hev
  · exact ⟨fun p hc => (by rw [(hpre ev hev).1] at hc; cases hc), fun d hd => absurd hd ((hpre ev hev).2.1 d)⟩
  · obtain ⟨h4, h5⟩ := key ev hev
    refine ⟨fun p hcc => ?_, fun d hd => ?_⟩
    · obtain ⟨b, names, name, h6, h7, h8⟩ := h4 p hcc
      exact ⟨c, b, names, name, hc', h6, List.mem_append_right _ h7, h8⟩
    · obtain ⟨b, h6, h7⟩ := h5 d hd
      exact ⟨c, b, hc', h6, h7⟩

omit [Unicode] in
/-- The path of an output ends in `.go`, after the name of the source without its extension. -/
theorem output_go {b : BuildConfig} {name p : Bytes} (h : OutputOf b name p) (hn : (47 : UInt8) ∉ name) :
    ∃ stem, name = stem ++ b!".cddl" ∧ basePath p = stem ++ b!".go" ∧ ∃ q, p = q ++ b!".go" := by
  obtain ⟨stem, rfl, rfl⟩ := h
  have hf : FileName (stem ++ b!".go") := by
    refine ⟨?_, by simp, fun hh => ?_, fun hh => ?_⟩
    · simp only [List.mem_append, not_or] at hn ⊢
      exact ⟨hn.1, by decide⟩
    · have := congrArg List.getLast? hh; simp at this
    · have := congrArg List.getLast? hh; simp at this
  refine ⟨stem, rfl, base_join _ hf, ?_⟩
  rcases join_name b.outDir hf with h | ⟨q, h⟩
  · exact ⟨stem, h⟩
  · exact ⟨q ++ 47 :: stem, by rw [h]; simp⟩

/-- **C50**: so no file changes that is not reached by a path ending in `.go`: sources, configuration
files and all others keep their content, in every file system (`at_` says which file a path leads to)
and whenever the command ends. -/
theorem C50_files {t e} (h : Traces (generateCmd tl n) t e) (hp : PlainNames t) {ι : Type} [DecidableEq ι]
    (at_ : Bytes → ι) (part : Nat) (fs : Files ι) (i : ι) (hi : ∀ q, at_ (q ++ b!".go") ≠ i) :
    effects at_ part t fs i = fs i := by
  refine effects_other at_ part t fs i fun ev hev p hc => ?_
  obtain ⟨c, b, names, name, _, _, hm, hn, ho⟩ := (C50_outputs_only tl n h hp ev hev).1 p hc
  obtain ⟨_, _, _, q, rfl⟩ := output_go ho (hp _ _ hm name hn)
  exact hi q

/-! ### C51: what becomes of an output -/

/-- **C51**: what a run of `generateFile` leaves in the output, by how it ends. If the source cannot be
read or the output not opened, it is as before. If there are diagnostics, it is empty; if the process
panics or hangs, it is empty or holds just the header. On success it holds the header and the code,
unless writing the code failed. -/
theorem C51_contents {pkg path out : Bytes} {t e} (h : Traces (generateFile tl n pkg path out) t e)
    (at_ : Bytes → Nat) (part : Nat) (fs : Files Nat) :
    (e = .done (some .read) → effects at_ part t fs = fs) ∧
    (e = .done (some .open) → effects at_ part t fs = fs) ∧
    (e = .done (some .parse) → effects at_ part t fs (at_ out) = some []) ∧
    (e = .done (some .write) → effects at_ part t fs (at_ out) = some (tl.header.take part)) ∧
    (e = .hang ∨ (∃ w, e = .panic w) →
      effects at_ part t fs (at_ out) = some [] ∨ effects at_ part t fs (at_ out) = some tl.header) ∧
    (e = .done none → ∃ src body, (⟨.readFile path, .ok src⟩ : Event) ∈ t ∧ CodeOf tl n pkg src body ∧
      (effects at_ part t fs (at_ out) = some (tl.header ++ body.getD []) ∨
        WriteFailed t ∧ effects at_ part t fs (at_ out) = some (tl.header ++ (body.getD []).take part))) ∧
    (∀ err, e = .done (some err) → err = .read ∨ err = .open ∨ err = .parse ∨ err = .write) := by
  cases genRun tl n h with
  | cut => exact ⟨nofun, nofun, nofun, nofun, (by simp), nofun, nofun⟩
  | read he =>
    rcases he with rfl | rfl
    · exact ⟨fun _ => rfl, nofun, nofun, nofun, (by simp), nofun,
        (by rintro _ ⟨⟩; simp)⟩
    · exact ⟨nofun, nofun, nofun, nofun, (by simp), nofun, nofun⟩
  | readCut => exact ⟨nofun, nofun, nofun, nofun, (by simp), nofun, nofun⟩
  | openFail he =>
    rcases he with rfl | rfl
    · exact ⟨nofun, fun _ => rfl, nofun, nofun, (by simp), nofun,
        (by rintro _ ⟨⟩; simp)⟩
    · exact ⟨nofun, nofun, nofun, nofun, (by simp), nofun, nofun⟩
  | opened ho =>
    rename_i src u t
    have hempty : effects at_ part [⟨.readFile path, .ok src⟩, ⟨.openTrunc out, .ok u⟩] fs (at_ out) = some [] := by
      simp [effects, effect, Files.set]
    cases ho with
    | cut => exact ⟨nofun, nofun, nofun, nofun, (by simp), nofun, nofun⟩
    | parsePanic | noTree | visitPanic => exact ⟨nofun, nofun, nofun, nofun, fun _ => Or.inl hempty, nofun, nofun⟩
    | parseHang | visitHang => exact ⟨nofun, nofun, nofun, nofun, fun _ => Or.inl hempty, nofun, nofun⟩
    | parse =>
      exact ⟨nofun, nofun, fun _ => hempty, nofun, (by simp), nofun,
        (by rintro _ ⟨⟩; simp)⟩
    | writeFail _ _ _ _ he =>
      rcases he with rfl | rfl
      · exact ⟨nofun, nofun, nofun, fun _ => by simp [effects, effect, Files.set],
          (by simp), nofun,
          (by rintro _ ⟨⟩; simp)⟩
      · exact ⟨nofun, nofun, nofun, nofun, (by simp), nofun, nofun⟩
    | printFail _ _ _ _ he =>
      have hh : ∀ u', effects at_ part [⟨.readFile path, .ok src⟩, ⟨.openTrunc out, .ok u⟩, ⟨.write out tl.header, .ok u'⟩] fs
          (at_ out) = some tl.header := by
        intro u'; simp [effects, effect, Files.set]
      rcases he with ⟨w, _, rfl⟩ | ⟨_, rfl⟩ | rfl <;>
        exact ⟨nofun, nofun, nofun, nofun, fun _ => Or.inr (hh _), nofun, nofun⟩
    | header hc =>
      exact ⟨nofun, nofun, nofun, nofun, (by simp),
        fun _ => ⟨src, none, by simp, hc, Or.inl (by simp [effects, effect, Files.set])⟩, nofun⟩
    | body hc he =>
      rename_i body a
      rcases he with rfl | rfl
      · refine ⟨nofun, nofun, nofun, nofun, (by simp),
          fun _ => ⟨src, some body, by simp, hc, ?_⟩, nofun⟩
        rcases a with a | a
        · exact Or.inr ⟨⟨out, body, a, by simp⟩, by simp [effects, effect, Files.set]⟩
        · exact Or.inl (by simp [effects, effect, Files.set])
      · exact ⟨nofun, nofun, nofun, nofun, (by simp), nofun, nofun⟩

/-- **C51**: however and whenever a run ends, also when it is killed, the output is as before, or a part
of the header, or the header and a part of the code of a source that was read. -/
theorem C51_always {pkg path out : Bytes} {t e} (h : Traces (generateFile tl n pkg path out) t e)
    (at_ : Bytes → Nat) (part : Nat) (fs : Files Nat) :
    effects at_ part t fs (at_ out) = fs (at_ out) ∨
    (∃ k, effects at_ part t fs (at_ out) = some (tl.header.take k)) ∨
    ∃ src body k, (⟨.readFile path, .ok src⟩ : Event) ∈ t ∧ CodeOf tl n pkg src (some body) ∧
      effects at_ part t fs (at_ out) = some (tl.header ++ body.take k) := by
  cases genRun tl n h with
  | cut | read | readCut | openFail => exact Or.inl rfl
  | opened ho =>
    rename_i src u t
    have hempty : effects at_ part [⟨.readFile path, .ok src⟩, ⟨.openTrunc out, .ok u⟩] fs (at_ out) = some [] := by
      simp [effects, effect, Files.set]
    cases ho with
    | cut | parsePanic | parseHang | parse | noTree | visitPanic | visitHang =>
      exact Or.inr (Or.inl ⟨0, hempty⟩)
    | writeFail => exact Or.inr (Or.inl ⟨part, by simp [effects, effect, Files.set]⟩)
    | printFail | header =>
      exact Or.inr (Or.inl ⟨tl.header.length, by simp [effects, effect, Files.set]⟩)
    | body hc =>
      rename_i body a _
      rcases a with a | a
      · exact Or.inr (Or.inr ⟨src, body, part, by simp, hc, by simp [effects, effect, Files.set]⟩)
      · exact Or.inr (Or.inr ⟨src, body, body.length, by simp, hc, by simp [effects, effect, Files.set]⟩)

/-! ### C52: order -/

/-- **C52**: the command takes the builds of the configuration in order, and in each the sources of the
listing in order. Those before the place where it ends have their outputs, unless a write failed
(`BuildDone`, `FileDone`); of those after it nothing is touched (`Stopped`); and it reports success
exactly if it has come to the end. -/
theorem C52_in_order {t e} (h : Traces (generateCmd tl n) t e) (hp : PlainNames t) :
    (e ≠ .done none ∧ Quiet t) ∨
    ∃ c pre done rest ts t', UsedConfig tl.codec pre c ∧ c.builds = done ++ rest ∧ t = pre ++ ts.flatten ++ t' ∧ Quiet pre ∧
      List.Forall₂ (BuildDone tl n) done ts ∧
      ((e = .done none ∧ rest = [] ∧ t' = []) ∨ (e ≠ .done none ∧ Stopped tl n rest.head? t')) := by
  obtain ⟨pre, t1, rfl, hpre, ⟨he, _, rfl⟩ | ⟨c, hc, h⟩⟩ := cmdRun tl n h
  · exact Or.inl ⟨he, by rw [List.append_nil]; exact fun ev hev => (hpre ev hev).1⟩
  · obtain ⟨done, rest, ts, t', h1, rfl, h3, h4⟩ := buildsRun tl n (plain_right hp) h
    exact Or.inr ⟨c, pre, done, rest, ts, t', hc, h1, by simp, fun ev hev => (hpre ev hev).1, h3, h4⟩

/-! ### C70: success -/

/-- **C70** (partial): if the command reports success and no write failed, then for every build of the
configuration the directory was listed, and the output of every source in it holds the header and the
code of a source that was read: of the last one whose output leads to the same file. The code is nothing
if printing it failed. -/
theorem C70_complete_partial {t} (h : Traces (generateCmd tl n) t (.done none)) (hp : PlainNames t) (hw : ¬ WriteFailed t) :
    ∃ c, UsedConfig tl.codec t c ∧ none ∉ c.builds ∧ ∀ b, some b ∈ c.builds →
      ∃ names, (⟨.readDir b.sourceDir, .ok names⟩ : Event) ∈ t ∧ ∀ name ∈ names, IsSource name →
        ∃ out, OutputOf b name out ∧ ∀ (at_ : Bytes → Nat) (part : Nat) (fs : Files Nat),
          ∃ b' name' src body out', some b' ∈ c.builds ∧ OutputOf b' name' out' ∧ at_ out' = at_ out ∧
            (⟨.readFile (joinPath b'.sourceDir name'), .ok src⟩ : Event) ∈ t ∧ CodeOf tl n b'.package src body ∧
            effects at_ part t fs (at_ out) = some (tl.header ++ body.getD []) := by
  rcases C52_in_order tl n h hp with ⟨h, _⟩ | ⟨c, pre, done, rest, ts, t', hc, hb, rfl, hq, hf, h⟩
  · exact absurd rfl h
  rcases h with ⟨_, rfl, rfl⟩ | ⟨h, _⟩
  swap
  · exact absurd rfl h
  rw [List.append_nil] at hb
  subst hb
  obtain ⟨segs, h1, h2, h3, h4⟩ := parts tl n hf
  simp only [List.append_nil] at hw hp ⊢
  refine ⟨c, ?_, h4, fun b hb => ?_⟩
  · rcases hc with hc | ⟨q, ct, hm, hc⟩
    · exact Or.inl hc
    · exact Or.inr ⟨q, ct, List.mem_append_left _ hm, hc⟩
  · obtain ⟨names, hr, hall⟩ := h3 b hb
    refine ⟨names, List.mem_append_right _ hr, fun name hn hs => ?_⟩
    obtain ⟨s, hsm, hd⟩ := hall name (List.mem_filter.2 ⟨hn, decide_eq_true hs⟩)
    obtain ⟨src, body, out, ho, _⟩ := id hd
    refine ⟨out, ho, fun at_ part fs => ?_⟩
    rw [effects_append, h1]
    have hw' : ¬ WriteFailed segs.flatten :=
      fun ⟨p, c, u, h⟩ => hw ⟨p, c, u, List.mem_append_right _ (h1 ▸ h)⟩
    rcases last_writer tl n at_ part segs h2 hw' (effects at_ part pre fs) (at_ out) with
      ⟨_, h⟩ | ⟨b', name', src', body', out', e1, e2, e3, e4, e5, e6⟩
    · exact absurd rfl (h b name s out hsm hd ho)
    · exact ⟨b', name', src', body', out', e1, e2, e3, List.mem_append_right _ (h1 ▸ e5), e4, e6⟩

/-! ### C71: validation -/

/-- **C71**: the command never looks at the path of a plugin: all paths it looks at are source or output
directories of builds. -/
theorem C71_never_checked {t e} (h : Traces (generateCmd tl n) t e) : ∀ ev ∈ t, ∀ p, ev.1 = .stat p →
    ∃ c b, UsedConfig tl.codec t c ∧ some b ∈ c.builds ∧ (p = b.sourceDir ∨ p = b.outDir) := by
  obtain ⟨pre, t1, rfl, hpre, ⟨_, _, rfl⟩ | ⟨c, hc, h⟩⟩ := cmdRun tl n h
  · intro ev hev p hp
    rw [List.append_nil] at hev
    exact absurd hp ((hpre ev hev).2.2.2 p)
  · intro ev hev p hp
    rcases List.mem_append.1 hev with hev | hev
    · exact absurd hp ((hpre ev hev).2.2.2 p)
    · obtain ⟨b, hb, h⟩ := calls_traces (generateBuilds_stats tl n c.builds) h ev hev p hp
      refine ⟨c, b, ?_, hb, h⟩
      rcases hc with hc | ⟨q, ct, hm, hc⟩
      · exact Or.inl hc
      · exact Or.inr ⟨q, ct, List.mem_append_left _ hm, hc⟩

/-! ### C72: panics -/

/-- **C72** (partial): the command panics only on a nil build of the configuration, or on a source that
it read on which the parser panics or returns no tree, or for whose tree the generator or the printer
panics. -/
theorem C72_panics_partial {t w} (h : Traces (generateCmd tl n) t (.panic w)) :
    ∃ c, UsedConfig tl.codec t c ∧ (none ∈ c.builds ∨
      ∃ b, some b ∈ c.builds ∧ ∃ name src, (⟨.readFile (joinPath b.sourceDir name), .ok src⟩ : Event) ∈ t ∧
        CrashingSource tl n b.package src) := by
  obtain ⟨pre, t1, rfl, _, ⟨_, h, _⟩ | ⟨c, hc, h⟩⟩ := cmdRun tl n h
  · exact absurd rfl (h w)
  · refine ⟨c, ?_, ?_⟩
    · rcases hc with hc | ⟨q, ct, hm, hc⟩
      · exact Or.inl hc
      · exact Or.inr ⟨q, ct, List.mem_append_left _ hm, hc⟩
    · rcases builds_panic tl n h with h | ⟨b, hb, name, src, hs, h⟩
      · exact Or.inl h
      · exact Or.inr ⟨b, hb, name, src, List.mem_append_right _ hs, h⟩

/-! ### C73: the package -/

/-- **C73** (partial): what is printed for a build declares the package of the build, as written in the
configuration. -/
theorem C73_package_partial (hU : NoReplacement) {pkg src : Bytes} {rules : List Node} {g : Generator}
    (h : Generated tl.lib n src pkg rules g) : (g.string tl.resets).file.name = pkg := by
  obtain ⟨res, h1, h2, _, h4⟩ := h
  obtain ⟨ds, _, _, h5, _⟩ := C39_declarations hU (parsed_topLevel h1 h2) h4
  have hs : ∀ f : GoFile, (sortImports tl.resets f).name = f.name := fun f => by unfold sortImports; split <;> rfl
  unfold Generator.string
  dsimp only
  split <;> exact (hs _).trans h5

end

/-! ### C74: the header -/

/-- The command line as the header shows it. -/
def Tool.command (tl : Tool) : Bytes := basePath tl.arg0 ++ b!" " ++ joinSpace tl.args

/-- **C74** (partial): the header is one comment and two line ends exactly if the command line does not
contain `*/`. -/
theorem C74_header_partial (tl : Tool) : ∃ rest, tl.header = b!"/*" ++ rest ∧
    (afterComment rest = some b!"\n\n" ↔ ¬ (b!"*/") <:+: tl.command) := by
  refine ⟨b!"\n  File generated using `" ++ (tl.command ++ (b!"`. DO NOT EDIT\n" ++ b!"*/\n\n")), ?_, ?_⟩
  · unfold Tool.header Tool.command
    simp
  · rw [afterComment_plain (by decide)]
    constructor
    · intro h hi
      obtain ⟨r, hr⟩ := afterComment_some hi (b!"`. DO NOT EDIT\n" ++ b!"*/\n\n")
      rw [hr] at h
      have := congrArg (Option.map List.length) h
      simp at this
    · intro h
      rw [afterComment_none h (by decide), afterComment_plain (by decide)]
      rfl

/-! ### Runs of an example -/

/-- The tool of the examples: what is printed is the name of the package. -/
def demoTool : Tool :=
  { lib := demoLib, codec := demoCodec, print := fun f => .ok (some f.name), text := fun _ => []
    arg0 := b!"/bin/cddlc", args := [b!"generate"], resets := false }

/-- The code of `a = int`. -/
theorem demo_code (tl : Tool) (hl : tl.lib = demoLib) (hpr : tl.print = demoTool.print) (pkg : Bytes) :
    letI := asciiOnly; CodeOf tl 30 pkg b!"a = int" (some pkg) := by
  let := asciiOnly
  obtain ⟨rules, g, ⟨res, h1, h2, h3, h4⟩, _⟩ := of_generates (src := b!"a = int") (f := fun _ => true) (by decide_cbv)
  have hU := asciiOnly_noReplacement
  have ht := parsed_topLevel h1 h2
  have hok : (visit demoLib (.cddl {} rules) (.new pkg)).2.isOk = true :=
    (C40_panics_iff hU ht _).2.2 ((C40_panics_iff hU ht _).2.1 (by rw [h4]; rfl))
  cases hv : visit demoLib (.cddl {} rules) (.new pkg) with
  | mk g' r =>
    rw [hv] at hok
    cases r with
    | ok u =>
      refine ⟨res, rules, g', h1, h2, h3, by rw [hl]; exact hv, ?_⟩
      have : (g'.string tl.resets).file.name = pkg :=
        C73_package_partial tl 30 hU (rules := rules) ⟨res, h1, h2, h3, by rw [hl]; exact hv⟩
      rw [hpr]
      exact congrArg (fun x => Out.ok (some x)) this
    | panic w => cases hok
    | hang => cases hok

theorem demo_sort : [b!"a.cddl", b!"x"].mergeSort bytesLe = [b!"a.cddl", b!"x"] := by decide_cbv

/-- A run of the command in a directory without configuration, up to the files: `a.cddl` is there, and
the output directory is not. -/
theorem demo_builds {tl : Tool} {n : Nat} [Unicode] {t e}
    (h : Traces (generateFiles tl n defaultBuildConfig [b!"a.cddl", b!"x"]) t e) (he : e = .done none ∨ ∃ er, e = .done (some er)) :
    Traces (generateCmd tl n) ([⟨.getwd, .ok b!"/w"⟩, ⟨.names b!"/w", [b!"a.cddl", b!"x"]⟩, ⟨.stat b!".", .ok true⟩,
      ⟨.readDir b!".", .ok [b!"a.cddl", b!"x"]⟩] ++ t) e := by
  refine .op (o := .getwd) (.ok b!"/w") ?_
  refine .op (o := .names b!"/w") [b!"a.cddl", b!"x"] ?_
  simp only [demo_sort]
  refine .op (o := .stat b!".") (.ok true) ?_
  refine .op (o := .readDir b!".") (.ok [b!"a.cddl", b!"x"]) ?_
  change Traces _ t e
  rcases he with rfl | ⟨er, rfl⟩
  · refine (congrArg (Traces _ · _) (List.append_nil t)).mp ?_
    exact bind_runs (f := fun r : Option GenErr => match r with
      | some e => .ret (some e)
      | none => generateBuilds tl n []) (t2 := []) (e := .done none) h .ret
  · refine (congrArg (Traces _ · _) (List.append_nil t)).mp ?_
    exact bind_runs (f := fun r : Option GenErr => match r with
      | some e => .ret (some e)
      | none => generateBuilds tl n []) (t2 := []) (e := .done (some er)) h .ret

/-- The files of that run, from the source on. -/
theorem demo_files {tl : Tool} {n : Nat} [Unicode] {t e} {src : Bytes}
    (h : Traces (generateOpen tl n [] src b!"dist/a.go") t e) (he : e = .done none ∨ ∃ er, e = .done (some er)) :
    Traces (generateFiles tl n defaultBuildConfig [b!"a.cddl", b!"x"])
      ([⟨.stat b!"dist/", .error .notExist⟩, ⟨.mkdirAll b!"dist/", .ok ()⟩, ⟨.readFile b!"a.cddl", .ok src⟩,
        ⟨.openTrunc b!"dist/a.go", .ok ()⟩] ++ t) e := by
  unfold generateFiles
  rw [if_neg (by decide)]
  refine .op (o := .stat b!"dist/") (.error .notExist) ?_
  refine .op (o := .mkdirAll b!"dist/") (.ok ()) ?_
  refine .op (o := .readFile b!"a.cddl") (.ok src) ?_
  refine .op (o := .openTrunc b!"dist/a.go") (.ok ()) ?_
  change Traces _ t e
  rcases he with rfl | ⟨er, rfl⟩
  · refine (congrArg (Traces _ · _) (List.append_nil t)).mp ?_
    exact bind_runs (f := fun r : Option GenErr => match r with
      | some e => .ret (some e)
      | none => generateFiles tl n defaultBuildConfig [b!"x"]) (t2 := []) (e := .done none) h (by
        unfold generateFiles
        rw [if_pos (by decide)]
        exact .ret)
  · refine (congrArg (Traces _ · _) (List.append_nil t)).mp ?_
    exact bind_runs (f := fun r : Option GenErr => match r with
      | some e => .ret (some e)
      | none => generateFiles tl n defaultBuildConfig [b!"x"]) (t2 := []) (e := .done (some er)) h .ret

/-- The calls of the example before the writes. -/
def demoStart (src : Bytes) : List Event :=
  [⟨.getwd, .ok b!"/w"⟩, ⟨.names b!"/w", [b!"a.cddl", b!"x"]⟩, ⟨.stat b!".", .ok true⟩,
    ⟨.readDir b!".", .ok [b!"a.cddl", b!"x"]⟩, ⟨.stat b!"dist/", .error .notExist⟩, ⟨.mkdirAll b!"dist/", .ok ()⟩,
    ⟨.readFile b!"a.cddl", .ok src⟩, ⟨.openTrunc b!"dist/a.go", .ok ()⟩]

theorem demo_run {tl : Tool} {n : Nat} [Unicode] {t e} {src : Bytes}
    (h : Traces (generateOpen tl n [] src b!"dist/a.go") t e) (he : e = .done none ∨ ∃ er, e = .done (some er)) :
    Traces (generateCmd tl n) (demoStart src ++ t) e := demo_builds (demo_files h he) he

theorem demo_plain {src : Bytes} {t : List Event} (ht : ∀ ev ∈ t, ∀ d, ev.1 ≠ .readDir d) : PlainNames (demoStart src ++ t) := by
  intro d ns h
  rcases List.mem_append.1 h with h | h
  · simp only [demoStart, List.mem_cons, List.not_mem_nil, or_false] at h
    rcases h with h | h | h | h | h | h | h | h <;> cases h
    decide
  · exact absurd rfl (ht _ h d)

/-- The example: `a.cddl` is turned into `dist/a.go`, with both writes; the other file is passed over. -/
def demoTrace : List Event :=
  demoStart b!"a = int" ++ [⟨.write b!"dist/a.go" demoTool.header, .ok ()⟩, ⟨.write b!"dist/a.go" [], .ok ()⟩]

theorem demo_traces : letI := asciiOnly; Traces (generateCmd demoTool 30) demoTrace (.done none) ∧ PlainNames demoTrace ∧
    ¬ WriteFailed demoTrace := by
  let := asciiOnly
  refine ⟨demo_run (traces_code demoTool 30 (demo_code demoTool rfl rfl []) () (.ok ())) (Or.inl rfl),
    demo_plain (by simp), ?_⟩
  rintro ⟨p, c, u, h⟩
  simp [demoTrace, demoStart] at h

/-- The hypotheses of C50, C52, C70 and C71 are met by this run. -/
example : letI := asciiOnly
    ∀ ev ∈ demoTrace, ∀ p, changes ev.1 = some p → ∃ c b names name, UsedConfig demoTool.codec demoTrace c ∧ some b ∈ c.builds ∧
      (⟨.readDir b.sourceDir, .ok names⟩ : Event) ∈ demoTrace ∧ name ∈ names ∧ OutputOf b name p :=
  let := asciiOnly
  fun ev hev p hc => (C50_outputs_only demoTool 30 demo_traces.1 demo_traces.2.1 ev hev).1 p hc

example : letI := asciiOnly
    ∃ c, UsedConfig demoTool.codec demoTrace c ∧ none ∉ c.builds :=
  let := asciiOnly
  have ⟨c, h1, h2, _⟩ := C70_complete_partial demoTool 30 demo_traces.1 demo_traces.2.1 demo_traces.2.2
  ⟨c, h1, h2⟩

/-- What is in the files after it, one number for each path. -/
example : effects (fun p => if p = b!"dist/a.go" then 1 else 0) 0 demoTrace (fun _ => none) 1 = some demoTool.header := by
  decide +kernel

/-- A run of `generateFile` as in C51: the code is written but for the second write, which fails. -/
example : letI := asciiOnly
    Traces (generateFile demoTool 30 b!"p" b!"a.cddl" b!"a.go")
      [⟨.readFile b!"a.cddl", .ok b!"a = int"⟩, ⟨.openTrunc b!"a.go", .ok ()⟩, ⟨.write b!"a.go" demoTool.header, .ok ()⟩,
        ⟨.write b!"a.go" b!"p", .error ()⟩] (.done none) :=
  letI := asciiOnly
  .op (o := .readFile b!"a.cddl") (.ok b!"a = int") <| .op (o := .openTrunc b!"a.go") (.ok ()) <|
    traces_code demoTool 30 (demo_code demoTool rfl rfl b!"p") () (.error ())

/-! ### Refutations -/

/-- Two paths of the same file: the source is a link to the output. -/
def linked (p : Bytes) : Nat := if p = b!"a.cddl" ∨ p = b!"dist/a.go" then 1 else 0

/-- **C50**: a source that is the same file as its output (a link) is overwritten by a successful run, so
`C50_files` needs its hypothesis. -/
theorem C50_links : letI := asciiOnly
    ∃ t, Traces (generateCmd demoTool 30) t (.done none) ∧ (⟨.readFile b!"a.cddl", .ok b!"a = int"⟩ : Event) ∈ t ∧
      effects linked 0 t (fun _ => some b!"a = int") (linked b!"a.cddl") ≠ some b!"a = int" :=
  let := asciiOnly
  ⟨demoTrace, demo_traces.1, by simp [demoTrace, demoStart], by decide +kernel⟩

/-- **C51** is false: a source with a diagnostic makes the command fail and leaves the output empty,
whatever it was before. -/
theorem C51_refuted : letI := asciiOnly
    ∃ t, Traces (generateCmd demoTool 30) t (.done (some .parse)) ∧
      ∀ (at_ : Bytes → Nat) (part : Nat) (fs : Files Nat), effects at_ part t fs (at_ b!"dist/a.go") = some [] := by
  let := asciiOnly
  obtain ⟨res, rules, h1, h2, h3⟩ := of_parses (n := 30) (src := b!"a = b") (f := fun _ errs => !errs.isEmpty) (by decide_cbv)
  refine ⟨demoStart b!"a = b", ?_, fun at_ part fs => ?_⟩
  · have := demo_run (traces_parse demoTool 30 (pkg := []) (out := b!"dist/a.go") h1 (by simpa using h3)) (Or.inr ⟨_, rfl⟩)
    rwa [List.append_nil] at this
  · simp [demoStart, effects, effect, Files.set]

/-- **C70** is false: if writing the code fails, success is reported and the output holds only the
header. -/
theorem C70_refuted : letI := asciiOnly
    ∃ t, Traces (generateCmd { demoTool with print := fun _ => .ok (some b!"package p") } 30) t (.done none) ∧
      ∀ (at_ : Bytes → Nat) (fs : Files Nat), effects at_ 0 t fs (at_ b!"dist/a.go") = some demoTool.header := by
  let := asciiOnly
  let tl : Tool := { demoTool with print := fun _ => .ok (some b!"package p") }
  have hc : CodeOf tl 30 [] b!"a = int" (some b!"package p") := by
    obtain ⟨res, rules, g, h1, h2, h3, h4, _⟩ := demo_code demoTool rfl rfl []
    exact ⟨res, rules, g, h1, h2, h3, h4, rfl⟩
  refine ⟨_, demo_run (traces_code tl 30 hc () (.error ())) (Or.inl rfl), fun at_ fs => ?_⟩
  simp [demoStart, effects, effect, Files.set]
  rfl

/-- **C70** is false: if the printer fails, success is reported and the output holds only the header. -/
theorem C70_refuted_print : letI := asciiOnly
    ∃ t, Traces (generateCmd { demoTool with print := fun _ => .ok none } 30) t (.done none) ∧ ¬ WriteFailed t ∧
      ∀ (at_ : Bytes → Nat) (fs : Files Nat), effects at_ 0 t fs (at_ b!"dist/a.go") = some demoTool.header := by
  let := asciiOnly
  let tl : Tool := { demoTool with print := fun _ => .ok none }
  have ht : Traces (generateOpen tl 30 [] b!"a = int" b!"dist/a.go") [⟨.write b!"dist/a.go" tl.header, .ok ()⟩] (.done none) := by
    obtain ⟨res, rules, g, h1, h2, h3, h4, _⟩ := demo_code demoTool rfl rfl []
    unfold generateOpen
    rw [h1]
    have h4' : visit tl.lib (.cddl {} rules) (.new []) = (g, .ok ()) := h4
    simp only [Prog.of, Prog.bind, h3, h2, h4']
    exact .op (o := .write b!"dist/a.go" tl.header) (.ok ()) .ret
  refine ⟨_, demo_run ht (Or.inl rfl), ?_, fun at_ fs => ?_⟩
  · rintro ⟨p, c, u, h⟩
    simp [demoStart] at h
  · simp [demoStart, effects, effect, Files.set]
    rfl

/-- A decoder that gives one configuration. -/
def constCodec (c : Config) : Codec := { json := fun _ => .ok c, yaml := fun _ => .ok c }

theorem const_sort : [b!"cddlc.json"].mergeSort bytesLe = [b!"cddlc.json"] := by decide_cbv

/-- The command with a given configuration. -/
theorem const_run {tl : Tool} {n : Nat} [Unicode] {c : Config} (hc : tl.codec = constCodec c) {t e}
    (h : Traces (generateBuilds tl n c.builds) t e) :
    Traces (generateCmd tl n) ([⟨.getwd, .ok b!"/w"⟩, ⟨.names b!"/w", [b!"cddlc.json"]⟩,
      ⟨.readFile b!"/w/cddlc.json", .ok b!"{}"⟩] ++ t) e := by
  refine .op (o := .getwd) (.ok b!"/w") ?_
  refine .op (o := .names b!"/w") [b!"cddlc.json"] ?_
  simp only [const_sort]
  refine .op (o := .readFile b!"/w/cddlc.json") (.ok b!"{}") ?_
  rw [hc]
  exact h

/-- **C71** is false: the command succeeds with a configuration that is not valid. Its plugin's path is
not looked at; and by C54, `Valid` would return nil only if it were a directory. -/
theorem C71_refuted [Unicode] : ∃ tl t c, Traces (generateCmd tl 30) t (.done none) ∧ UsedConfig tl.codec t c ∧
    (∀ ev ∈ t, ∀ p, ev.1 ≠ .stat p) ∧
    ∀ t', Traces c.valid t' (.done (.ok ())) → t' = [⟨.stat b!"/missing", .ok true⟩] := by
  let c : Config := ⟨b!"1", [some ⟨b!"p", b!"/missing", []⟩], []⟩
  refine ⟨{ demoTool with codec := constCodec c }, _, c, const_run (c := c) rfl (t := []) .ret, ?_, by simp, fun t' h => ?_⟩
  · exact Or.inr ⟨b!"/w/cddlc.json", b!"{}", by simp, Or.inl rfl⟩
  · have h := C54_first_bad c t' _ h
    cases h with
    | cons h1 h2 =>
      obtain ⟨q, hq, rfl⟩ := h1
      cases hq
      cases h2
      rfl

/-- **C72** is false: a configuration with `null` among the builds makes the command panic; and so does
a source whose string has an error at the beginning, for which `ParseFile` returns neither a tree nor
errors. -/
theorem C72_refuted : letI := asciiOnly
    (∃ tl t, Traces (generateCmd tl 30) t (.panic .nilDeref) ∧ UsedConfig tl.codec t ⟨b!"1", [], [none]⟩) ∧
    ∃ t, Traces (generateOpen demoTool 30 b!"p" (b!"a \"x\n" ++ [255]) b!"out/a.go") t (.panic .nilDeref) := by
  let := asciiOnly
  constructor
  · refine ⟨{ demoTool with codec := constCodec ⟨b!"1", [], [none]⟩ }, _, const_run (c := ⟨b!"1", [], [none]⟩) rfl (t := []) .panic, ?_⟩
    exact Or.inr ⟨b!"/w/cddlc.json", b!"{}", by simp, Or.inl rfl⟩
  · obtain ⟨res, h1, h2⟩ := Out.of_check (o := parseSource 30 (b!"a \"x\n" ++ [255]))
      (f := fun res => res.cddl.isNone && decide (res.errs = [])) (by decide_cbv)
    simp only [Bool.and_eq_true, Option.isNone_iff_eq_none, decide_eq_true_eq] at h2
    refine ⟨[], ?_⟩
    unfold generateOpen
    rw [h1]
    simp only [Prog.of, Prog.bind, h2.1, h2.2]
    have : (visit demoTool.lib (Node.typedNil .cddl) (Generator.new b!"p")).2 = .panic .nilDeref := by
      rw [visit]; rfl
    rw [if_neg (by simp)]
    rw [this]
    exact .panic

/-- **C73** is false: without a configuration, or with the one that `init` writes, the package name is
empty, which is no Go identifier; and success is reported. -/
theorem C73_refuted : letI := asciiOnly
    (∀ b, some b ∈ defaultConfig.builds → b.package = [] ∧ isGoIdentifier b.package = false) ∧
    Traces (generateCmd demoTool 30) demoTrace (.done none) ∧
    ∃ rules g, Generated demoLib 30 b!"a = int" [] rules g ∧ (g.string demoTool.resets).file.name = [] := by
  let := asciiOnly
  refine ⟨?_, demo_traces.1, ?_⟩
  · intro b hb
    simp only [defaultConfig, List.mem_singleton, Option.some.injEq] at hb
    subst hb
    exact ⟨rfl, rfl⟩
  · obtain ⟨res, rules, g, h1, h2, h3, h4, h5⟩ := demo_code demoTool rfl rfl []
    exact ⟨rules, g, ⟨res, h1, h2, h3, h4⟩,
      C73_package_partial demoTool 30 asciiOnly_noReplacement (rules := rules) ⟨res, h1, h2, h3, h4⟩⟩

/-- **C74** is false: an argument with `*/` ends the comment early, and what follows is read as Go. -/
theorem C74_refuted : ∃ tl : Tool, tl.args = [b!"generate", b!"*/ x"] ∧ ∃ rest, tl.header = b!"/*" ++ rest ∧
    afterComment rest = some b!" x`. DO NOT EDIT\n*/\n\n" := by
  refine ⟨{ demoTool with args := [b!"generate", b!"*/ x"] }, rfl, _, rfl, ?_⟩
  decide +kernel

example : ¬ (b!"*/") <:+: demoTool.command := by
  have : demoTool.command = b!"cddlc generate" := by decide +kernel
  rw [this]
  decide

end Cddlc
