import Verif.Spec.Alone
import Verif.Props.Disk

/-! Runs of `generate` on a disk that nobody else uses, however they end. -/

namespace Cddlc
open Spec

/-! ### What is allowed -/

/-- A disk with new directories and files at some places. -/
structure GrownDisk (S T : List Bytes → Prop) (d0 d : Disk) : Prop where
  wf : d.WF
  cwd : d.cwd = d0.cwd
  node : ∀ q, d.node q = d0.node q ∨ (d0.node q = none ∧ d.node q = some .dir ∧ S q) ∨
    (d0.node q ≠ some .dir ∧ (∃ c, d.node q = some (.file c)) ∧ T q)
  names : ∀ q, ∃ new, d.names q = d0.names q ++ new ∧ ∀ x ∈ new, d0.node (q ++ [x]) = none

section
variable {S T : List Bytes → Prop} {d0 d : Disk}

theorem GrownDisk.refl (h : d.WF) : GrownDisk S T d d :=
  ⟨h, rfl, fun _ => Or.inl rfl, fun q => ⟨[], by simp⟩⟩

theorem GrownDisk.trans {d1 : Disk} (h1 : GrownDisk S T d0 d) (h2 : GrownDisk S T d d1) : GrownDisk S T d0 d1 := by
  refine ⟨h2.wf, h2.cwd.trans h1.cwd, fun q => ?_, fun q => ?_⟩
  · rcases h2.node q with h | ⟨h, h', hs⟩ | ⟨h, h', ht⟩
    · rw [h]; exact h1.node q
    · rcases h1.node q with k | ⟨_, k, _⟩ | ⟨_, ⟨c, k⟩, _⟩
      · exact Or.inr (Or.inl ⟨k.symm.trans h, h', hs⟩)
      · rw [k] at h; cases h
      · rw [k] at h; cases h
    · rcases h1.node q with k | ⟨_, k, _⟩ | ⟨k, _, _⟩
      · exact Or.inr (Or.inr ⟨k ▸ h, h', ht⟩)
      · exact absurd k h
      · exact Or.inr (Or.inr ⟨k, h', ht⟩)
  · obtain ⟨n1, e1, a1⟩ := h1.names q
    obtain ⟨n2, e2, a2⟩ := h2.names q
    refine ⟨n1 ++ n2, by rw [e2, e1, List.append_assoc], fun x hx => ?_⟩
    rcases List.mem_append.1 hx with hx | hx
    · exact a1 x hx
    · have := a2 x hx
      rcases h1.node (q ++ [x]) with k | ⟨k, _⟩ | ⟨_, ⟨c, k⟩, _⟩
      · exact k.symm.trans this
      · exact k
      · rw [k] at this; cases this

theorem grownDisk_dirs (hw : d.WF) {q : List Bytes} (hq : ∀ x ∈ q, FileName x) (hb : ¬ d.Blocked q)
    (hS : ∀ r, r <+: q → S r) : GrownDisk S T d (d.makeDirs [] q) := by
  obtain ⟨h1, h2, h3⟩ := makeDirs_spec hw [] q hw.root hq fun r hr c hc => hb ⟨r, hr, c, by simpa using hc⟩
  refine ⟨h1, makeDirs_cwd .., fun r => ?_, fun r => ?_⟩
  · rw [h2]
    split
    · rename_i h
      obtain ⟨h, r', hr', rfl⟩ := h
      exact Or.inr (Or.inl ⟨h, rfl, hS _ hr'⟩)
    · exact Or.inl rfl
  · obtain ⟨new, h4, h5⟩ := h3 r
    exact ⟨new, h4, fun x hx => (h5 x hx).1⟩

theorem grownDisk_put (hw : d.WF) {b : List Bytes} {x : Bytes} {c : Bytes} (hx : FileName x) (hb : d.node b = some .dir)
    (hn : d.node (b ++ [x]) ≠ some .dir) (hT : T (b ++ [x])) : GrownDisk S T d (d.put (b ++ [x]) (.file c)) := by
  refine ⟨put_wf hw hx hb (Or.inr hn), rfl, fun r => ?_, fun r => ?_⟩
  · rw [put_node]
    split
    · rename_i h; subst h
      exact Or.inr (Or.inr ⟨hn, ⟨c, rfl⟩, hT⟩)
    · exact Or.inl rfl
  · rw [put_names]
    split
    · rename_i h
      obtain ⟨rfl, h⟩ := h
      refine ⟨[x], rfl, fun y hy => ?_⟩
      rw [List.mem_singleton.1 hy]
      rw [hw.listed] at h
      exact not_not.1 h
    · exact ⟨[], by simp⟩

end

/-! ### Jobs in turn -/

/-- A disk where one job can be done. -/
structure Fits (d : Disk) (j : Job) : Prop where
  plain : ∀ x ∈ j.dir, FileName x
  name : FileName j.name
  way : ¬ d.Blocked j.dir
  free : d.node j.place ≠ some .dir

/-- These jobs are done in turn. -/
inductive Did : Disk → List Job → Disk → Prop
  | nil {d} : Did d [] d
  | cons {d j js d'} : Fits d j → Did (j.put d) js d' → Did d (j :: js) d'

theorem Did.append {d d1 d2 js js'} (h1 : Did d js d1) (h2 : Did d1 js' d2) : Did d (js ++ js') d2 := by
  induction h1 with
  | nil => exact h2
  | cons h _ ih => exact .cons h (ih h2)

open Classical in
theorem fits_node {d : Disk} (hw : d.WF) {j : Job} (h : Fits d j) :
    (j.put d).WF ∧ (j.put d).cwd = d.cwd ∧
    ∀ q, (j.put d).node q = if q = j.place then some (.file j.content) else
      if d.node q = none ∧ q <+: j.dir then some .dir else d.node q := by
  obtain ⟨h1, h2, -⟩ := makeDirs_spec hw [] j.dir hw.root h.plain fun r hr c hc => h.way ⟨r, hr, c, by simpa using hc⟩
  have hdir : (d.makeDirs [] j.dir).node j.dir = some .dir := by
    rw [h2]
    split
    · rfl
    · rename_i hh
      cases hn : d.node j.dir with
      | none => exact absurd ⟨hn, _, List.prefix_refl _, rfl⟩ hh
      | some e =>
        cases e with
        | dir => rfl
        | file c => exact absurd ⟨_, List.prefix_refl _, c, hn⟩ h.way
  have hfree : (d.makeDirs [] j.dir).node (j.dir ++ [j.name]) ≠ some .dir := by
    rw [h2, if_neg]
    · exact h.free
    · rintro ⟨-, r, hr, he⟩
      rw [List.nil_append] at he
      exact not_prefix _ _ (he ▸ hr)
  refine ⟨put_wf h1 h.name hdir (Or.inr hfree), makeDirs_cwd .., fun q => ?_⟩
  show (if q = j.dir ++ [j.name] then some (.file j.content) else (d.makeDirs [] j.dir).node q) = _
  unfold Job.place
  split
  · rfl
  · rw [h2]
    simp only [List.nil_append, exists_eq_right']

theorem did_outcome {d d' : Disk} {js : List Job} (hw : d.WF) (h : Did d js d') : Outcome js d d' := by
  induction h with
  | nil => exact ⟨rfl, hw, fun js1 j js2 h => by simp at h, nofun, fun _ _ => rfl⟩
  | @cons d j js d' hf hd ih =>
    obtain ⟨h1, h2, h3⟩ := fits_node hw hf
    have ih := ih h1
    have keep : ∀ js (d d' : Disk), Did d js d' → d.WF → ∀ q, (d.node q = some .dir → d'.node q = some .dir) ∧
        ∀ c, d.node q = some (.file c) → (∀ k ∈ js, k.place ≠ q) → d'.node q = some (.file c) := by
      intro js d d' h hw q
      induction h with
      | nil => exact ⟨fun h => h, fun _ h _ => h⟩
      | @cons d j js d' hf hd ih =>
        obtain ⟨h1, h2, h3⟩ := fits_node hw hf
        refine ⟨fun h => (ih h1).1 ?_, fun c h hk => (ih h1).2 c ?_ fun k hm => hk k (List.mem_cons_of_mem _ hm)⟩
        · rw [h3, if_neg (fun he : q = j.place => hf.free (he ▸ h)), if_neg (by simp [h]), h]
        · rw [h3, if_neg (hk j (List.mem_cons_self ..)).symm, if_neg (by simp [h]), h]
    refine ⟨ih.cwd.trans h2, ih.wf, fun js1 k js2 he hl => ?_, fun k hk q hq => ?_, fun q hq => ?_⟩
    · cases js1 with
      | nil =>
        obtain ⟨rfl, rfl⟩ := List.cons.inj he
        exact (keep _ _ _ hd h1 _).2 _ (by rw [h3, if_pos rfl]) hl
      | cons _ js1 =>
        obtain ⟨rfl, rfl⟩ := List.cons.inj he
        exact ih.last js1 k js2 rfl hl
    · rcases List.mem_cons.1 hk with rfl | hk
      · refine (keep _ _ _ hd h1 _).1 ?_
        rw [h3, if_neg]
        · split
          · rfl
          · rename_i hh
            cases hn : d.node q with
            | none => exact absurd ⟨hn, hq⟩ hh
            | some e =>
              cases e with
              | dir => rfl
              | file c => exact absurd ⟨_, hq, c, hn⟩ hf.way
        · rintro rfl
          exact not_prefix _ _ hq
      · exact ih.dirs k hk q hq
    · rw [ih.other q fun k hk => hq k (List.mem_cons_of_mem _ hk), h3, if_neg (hq j (List.mem_cons_self ..)).2,
        if_neg fun h => (hq j (List.mem_cons_self ..)).1 h.2]

theorem did_dir {d d' : Disk} {js : List Job} (h : Did d js d') (hw : d.WF) {q : List Bytes} (hd : d.node q = some .dir) :
    d'.node q = some .dir := by
  induction h with
  | nil => exact hd
  | @cons d j js d' hf _ ih =>
    obtain ⟨h1, -, h3⟩ := fits_node hw hf
    refine ih h1 ?_
    rw [h3, if_neg (fun he : q = j.place => hf.free (he ▸ hd)), if_neg (by simp [hd]), hd]

/-! ### The command -/

theorem done_ensureDir {d : Disk} (hw : d.WF) (p : Bytes) :
    (∃ e, d.run (ensureDir p) = (d, .done (some e))) ∨
    (p ≠ [] ∧ (∃ c, d.node (d.at_ p) = some (.file c)) ∧ d.run (ensureDir p) = (d, .done none)) ∨
    (p ≠ [] ∧ ¬ d.Blocked (d.at_ p) ∧ d.run (ensureDir p) = (d.makeDirs [] (d.at_ p), .done none)) := by
  classical
  by_cases hp : p = []
  · subst hp
    refine Or.inl ⟨.mkdir, ?_⟩
    unfold ensureDir
    rw [run_stat]
    have : d.ans (.stat []) = .error .notExist := by
      simp [Disk.ans, Disk.get]
    rw [this]
    simp only
    rw [run_op]
    have : d.ans (.mkdirAll []) = .error () := by
      simp [Disk.ans]
    simp only [Disk.after, this]
    rfl
  · by_cases hb : d.Blocked (d.at_ p)
    · cases hn : d.node (d.at_ p) with
      | none =>
        refine Or.inl ⟨.statOut, ?_⟩
        unfold ensureDir
        rw [run_stat]
        have : d.ans (.stat p) = .error .other := by
          show (match d.get p with | some .dir => _ | some (.file _) => _ | none => _) = _
          rw [get_ne hp, hn]
          simp [hp, hb]
        rw [this]
        rfl
      | some e =>
        cases e with
        | dir =>
          obtain ⟨r, hr, c, hc⟩ := hb
          rcases hw.prefix hr (by rw [hn]; simp) with rfl | h
          · rw [hn] at hc; cases hc
          · rw [h] at hc; cases hc
        | file c =>
          refine Or.inr (Or.inl ⟨hp, ⟨c, rfl⟩, ?_⟩)
          unfold ensureDir
          rw [run_stat]
          have : d.ans (.stat p) = .ok false := by
            show (match d.get p with | some .dir => _ | some (.file _) => _ | none => _) = _
            rw [get_ne hp, hn]
          rw [this]
          rfl
    · refine Or.inr (Or.inr ⟨hp, hb, ?_⟩)
      unfold ensureDir
      rw [run_stat]
      cases hn : d.node (d.at_ p) with
      | none =>
        rw [ans_stat_none hp hn hb]
        simp only
        rw [run_mkdirAll]
        · rfl
        · show (if p = [] ∨ d.Blocked (d.at_ p) then _ else _) = _
          rw [if_neg (by rintro (h2 | h2); exacts [hp h2, hb h2])]
      | some e =>
        cases e with
        | file c => exact absurd ⟨_, List.prefix_refl _, c, hn⟩ hb
        | dir =>
          rw [ans_stat_dir hp hn, makeDirs_same]
          · rfl
          · intro r hr
            rw [List.nil_append]
            rcases hw.prefix hr (by rw [hn]; simp) with rfl | h2
            · rw [hn]; simp
            · rw [h2]; simp

section
variable {S T : List Bytes → Prop}

/-- A program that only writes to a file that is there. -/
theorem grownDisk_writes {α : Type} {p : Prog α} {out : Bytes} (hp : Calls (fun o => ∃ c, o = .write out c) p) (ho : out ≠ [])
    {d : Disk} (hw : d.WF) {b : List Bytes} {x : Bytes} (hat : d.at_ out = b ++ [x]) (hT : T (b ++ [x])) {c0 : Bytes}
    (hn : d.node (b ++ [x]) = some (.file c0)) : GrownDisk S T d (d.run p).1 := by
  induction hp generalizing d c0 with
  | ret | panic | hang => exact .refl hw
  | @op o k h _ ih =>
    obtain ⟨c, rfl⟩ := h
    rw [run_write (c0 := c0) _ ho (by rw [hat]; exact hn), hat]
    have hx : FileName x := hw.place (q := b ++ [x]) (by rw [hn]; simp) x (by simp)
    have hg : GrownDisk S T d (d.put (b ++ [x]) (.file (c0 ++ c))) :=
      grownDisk_put hw hx (hw.parent b x (by rw [hn]; simp)) (by rw [hn]; simp) hT
    exact hg.trans (ih _ hg.wf (by rw [at_of_cwd (put_cwd ..), hat]) (by rw [put_node, if_pos rfl]))

variable [Unicode] (tl : Tool) (n : Nat)

theorem done_generateFile {d : Disk} (hw : d.WF) {b : List Bytes} {x pkg path out : Bytes} (hp : path ≠ []) (ho : out ≠ [])
    (hx : FileName x) (hat : d.at_ out = b ++ [x]) (hT : ∀ src, d.node (d.at_ path) = some (.file src) → T (b ++ [x])) :
    GrownDisk S T d (d.run (generateFile tl n pkg path out)).1 ∧
    ((d.run (generateFile tl n pkg path out)).2 = .done none → ∃ src body, d.node (d.at_ path) = some (.file src) ∧
      CodeOf tl n pkg src body ∧ d.node b = some .dir ∧ d.node (b ++ [x]) ≠ some .dir ∧
      (d.run (generateFile tl n pkg path out)).1 = d.put (b ++ [x]) (.file (tl.header ++ body.getD []))) := by
  classical
  by_cases hs : ∃ src, d.node (d.at_ path) = some (.file src)
  swap
  · have hr : d.ans (.readFile path) = .error () := by
      show (match d.get path with | some (.file c) => _ | _ => _) = _
      rw [get_ne hp]
      cases h : d.node (d.at_ path) with
      | none => rfl
      | some e =>
        cases e with
        | dir => rfl
        | file c => exact absurd ⟨c, h⟩ hs
    unfold generateFile
    rw [run_readFile, hr]
    exact ⟨.refl hw, nofun⟩
  obtain ⟨src, hs⟩ := hs
  by_cases hop : d.node b = some .dir ∧ d.node (b ++ [x]) ≠ some .dir
  swap
  · have hr : d.opens out = .error () := by
      unfold Disk.opens
      rw [if_neg ho, hat]
      cases h : d.node (b ++ [x]) with
      | none =>
        simp only
        rw [if_neg]
        rintro ⟨_, hh⟩
        rw [List.dropLast_concat] at hh
        exact hop ⟨hh, by rw [h]; simp⟩
      | some e =>
        cases e with
        | dir => rfl
        | file c => exact absurd ⟨hw.parent b x (by rw [h]; simp), by rw [h]; simp⟩ hop
    unfold generateFile
    rw [run_readFile, ans_readFile hp hs]
    simp only
    rw [run_op]
    have hr' : d.ans (.openTrunc out) = .error () := hr
    simp only [Disk.after, hr']
    exact ⟨.refl hw, nofun⟩
  · have hr : d.opens out = .ok () := by
      unfold Disk.opens
      rw [if_neg ho, hat]
      cases h : d.node (b ++ [x]) with
      | none =>
        simp only
        rw [if_pos]
        exact ⟨by simp, by simpa using hop.1⟩
      | some e =>
        cases e with
        | dir => exact absurd h hop.2
        | file c => rfl
    have hrun : d.run (generateFile tl n pkg path out) = (d.put (b ++ [x]) (.file [])).run (generateOpen tl n pkg src out) := by
      unfold generateFile
      rw [run_readFile, ans_readFile hp hs]
      simp only
      rw [run_openTrunc _ hr, hat]
    have hg : GrownDisk S T d (d.put (b ++ [x]) (.file [])) := grownDisk_put hw hx hop.1 hop.2 (hT src hs)
    refine ⟨?_, fun h => ?_⟩
    · rw [hrun]
      exact hg.trans (grownDisk_writes (generateOpen_calls tl n pkg src out) ho hg.wf (by rw [at_of_cwd (put_cwd ..), hat])
        (hT src hs) (by rw [put_node, if_pos rfl]))
    · obtain ⟨t, ht⟩ := run_traces (generateOpen tl n pkg src out) (d.put (b ++ [x]) (.file []))
      rw [← hrun, h] at ht
      have hc : ∃ body, CodeOf tl n pkg src body := by
        cases openRun tl n ht with
        | writeFail _ _ _ _ h => rcases h with h | h <;> cases h
        | printFail _ _ _ _ h => rcases h with ⟨_, _, h⟩ | ⟨_, h⟩ | h <;> cases h
        | header h => exact ⟨_, h⟩
        | body h _ => exact ⟨_, h⟩
      obtain ⟨body, hc⟩ := hc
      exact ⟨src, body, hs, hc, hop.1, hop.2, by rw [run_generateFile tl n hp hs ho hat hop.1 hop.2 hc]⟩

/-- A source of a build that was turned into code, and its output. -/
def MadeCode (d : Disk) (b : BuildConfig) (name : Bytes) (j : Job) : Prop :=
  ∃ stem src body, name = stem ++ b!".cddl" ∧ d.node (d.at_ b.sourceDir ++ [name]) = some (.file src) ∧
    CodeOf tl n b.package src body ∧ b.outDir ≠ [] ∧ j = ⟨d.at_ b.outDir, stem ++ b!".go", tl.header ++ body.getD []⟩

omit [Unicode] in
/-- The sources on a grown disk that are files were there before. -/
theorem grownDisk_source {d0 d : Disk} (h : GrownDisk S T d0 d) (hT : ∀ q, T q → GoEnd q) {q : List Bytes} {name src : Bytes}
    (hs : IsSource name) (hn : d.node (q ++ [name]) = some (.file src)) : d0.node (q ++ [name]) = some (.file src) := by
  rcases h.node (q ++ [name]) with k | ⟨_, k, _⟩ | ⟨_, _, k⟩
  · exact k.symm.trans hn
  · rw [k] at hn; cases hn
  · obtain ⟨b', s, he⟩ := hT _ k
    have := (List.append_inj' he rfl).2
    exact absurd (List.singleton_inj.1 this ▸ hs) go_not_source

end

section
variable [Unicode] (tl : Tool) (n : Nat) {builds : List (Option BuildConfig)} {d0 : Disk}

omit [Unicode] in
theorem mayWrite_go {q : List Bytes} (h : MayWrite d0 builds q) : GoEnd q := by
  obtain ⟨b, stem, src, -, -, rfl⟩ := h
  exact ⟨_, _, rfl⟩

theorem done_files {b : BuildConfig} (hb : some b ∈ builds) (hsd : b.sourceDir ≠ []) (names : List Bytes)
    (hnames : ∀ x ∈ names, FileName x) {d : Disk} (hg : GrownDisk (MayMake d0 builds) (MayWrite d0 builds) d0 d) :
    GrownDisk (MayMake d0 builds) (MayWrite d0 builds) d0 (d.run (generateFiles tl n b names)).1 ∧
    ((d.run (generateFiles tl n b names)).2 = .done none → ∃ js, List.Forall₂ (MadeCode tl n d0 b) (sources names) js ∧
      Did d js (d.run (generateFiles tl n b names)).1) := by
  induction names generalizing d with
  | nil => exact ⟨hg, fun _ => ⟨[], .nil, .nil⟩⟩
  | cons name rest ih =>
    have hname := hnames name (List.mem_cons_self ..)
    have hs := source_iff hname.1
    have ih := fun {d} => @ih (fun x hx => hnames x (List.mem_cons_of_mem _ hx)) d
    unfold generateFiles
    by_cases hsrc : IsSource name
    swap
    · have : sources (name :: rest) = sources rest := by
        unfold sources
        rw [List.filter_cons, if_neg (by simpa using hsrc)]
      rw [if_pos (fun h => hsrc (hs.1 h)), this]
      exact ih hg
    have : sources (name :: rest) = name :: sources rest := by
      unfold sources
      rw [List.filter_cons, if_pos (by simpa using hsrc)]
    rw [this, if_neg (not_not.2 (hs.2 hsrc)), run_bind]
    obtain ⟨stem, rfl⟩ := id hsrc
    have hgn : FileName (stem ++ b!".go") :=
      fileName_ext (x := b!"go") (fun hs => hname.1 (List.mem_append_left _ hs)) (by decide) (by decide)
    have hout : outPath b (stem ++ b!".cddl") = joinPath b.outDir (stem ++ b!".go") := by unfold outPath; rw [trim_append]
    -- the file itself, once the directory is there
    have key : ∀ d1, GrownDisk (MayMake d0 builds) (MayWrite d0 builds) d0 d1 → b.outDir ≠ [] →
        GrownDisk (MayMake d0 builds) (MayWrite d0 builds) d1
          (d1.run (generateFile tl n b.package (joinPath b.sourceDir (stem ++ b!".cddl")) (outPath b (stem ++ b!".cddl")))).1 ∧
        ((d1.run (generateFile tl n b.package (joinPath b.sourceDir (stem ++ b!".cddl")) (outPath b (stem ++ b!".cddl")))).2
            = .done none → ∃ src body, d0.node (d0.at_ b.sourceDir ++ [stem ++ b!".cddl"]) = some (.file src) ∧
          CodeOf tl n b.package src body ∧ d1.node (d0.at_ b.outDir) = some .dir ∧
          d1.node (d0.at_ b.outDir ++ [stem ++ b!".go"]) ≠ some .dir ∧
          (d1.run (generateFile tl n b.package (joinPath b.sourceDir (stem ++ b!".cddl")) (outPath b (stem ++ b!".cddl")))).1
            = d1.put (d0.at_ b.outDir ++ [stem ++ b!".go"]) (.file (tl.header ++ body.getD []))) := by
      intro d1 h1 hod
      have hsp : d1.at_ (joinPath b.sourceDir (stem ++ b!".cddl")) = d0.at_ b.sourceDir ++ [stem ++ b!".cddl"] := by
        rw [at_join _ hsd hname, at_of_cwd h1.cwd]
      obtain ⟨k1, k2⟩ := done_generateFile (S := MayMake d0 builds) (T := MayWrite d0 builds) tl n h1.wf
        (pkg := b.package) (path := joinPath b.sourceDir (stem ++ b!".cddl")) (out := outPath b (stem ++ b!".cddl"))
        (b := d0.at_ b.outDir) (x := stem ++ b!".go")
        (joinPath_ne hname) (by rw [hout]; exact joinPath_ne hgn) hgn (by rw [hout, at_join _ hod hgn, at_of_cwd h1.cwd])
        (fun src h => ⟨b, stem, src, hb, grownDisk_source h1 (fun _ => mayWrite_go) hsrc (hsp ▸ h), rfl⟩)
      refine ⟨k1, fun h => ?_⟩
      obtain ⟨src, body, m1, m2⟩ := k2 h
      exact ⟨src, body, grownDisk_source h1 (fun _ => mayWrite_go) hsrc (hsp ▸ m1), m2⟩
    have hatd : d.at_ b.outDir = d0.at_ b.outDir := at_of_cwd hg.cwd _
    rcases done_ensureDir hg.wf b.outDir with ⟨e, h⟩ | ⟨hod, ⟨c, hc⟩, h⟩ | ⟨hod, hnb, h⟩
    · rw [h]
      exact ⟨hg, nofun⟩
    · -- a file where the directory should be: the output cannot be opened
      rw [h]
      simp only
      rw [run_bind]
      obtain ⟨k1, k2⟩ := key d hg hod
      generalize d.run (generateFile tl n b.package (joinPath b.sourceDir (stem ++ b!".cddl"))
        (outPath b (stem ++ b!".cddl"))) = r at k1 k2 ⊢
      obtain ⟨d1, e⟩ := r
      cases e with
      | done a =>
        cases a with
        | some e => exact ⟨hg.trans k1, nofun⟩
        | none =>
          obtain ⟨_, _, _, _, m, _⟩ := k2 rfl
          rw [← hatd, hc] at m; cases m
      | panic | hang | cut => exact ⟨hg.trans k1, nofun⟩
    · rw [h]
      simp only
      rw [run_bind]
      have hg1 : GrownDisk (MayMake d0 builds) (MayWrite d0 builds) d0 (d.makeDirs [] (d.at_ b.outDir)) :=
        hg.trans (grownDisk_dirs hg.wf (at_plain hg.wf _) hnb fun r hr => ⟨b, hb, hatd ▸ hr⟩)
      obtain ⟨k1, k2⟩ := key _ hg1 hod
      generalize hr : (d.makeDirs [] (d.at_ b.outDir)).run (generateFile tl n b.package (joinPath b.sourceDir (stem ++ b!".cddl"))
        (outPath b (stem ++ b!".cddl"))) = r at k1 k2 ⊢
      obtain ⟨d1, e⟩ := r
      cases e with
      | done a =>
        cases a with
        | some e => exact ⟨hg1.trans k1, nofun⟩
        | none =>
          obtain ⟨src, body, m1, m2, m3, m4, m5⟩ := k2 rfl
          simp only
          obtain ⟨i1, i2⟩ := ih (hg1.trans k1)
          refine ⟨i1, fun he => ?_⟩
          obtain ⟨js, i3, i4⟩ := i2 he
          refine ⟨⟨d0.at_ b.outDir, stem ++ b!".go", tl.header ++ body.getD []⟩ :: js,
            .cons ⟨stem, src, body, rfl, m1, m2, hod, rfl⟩ i3, .cons ⟨?_, hgn, hatd ▸ hnb, ?_⟩ ?_⟩
          · rw [← hatd]; exact at_plain hg.wf _
          · intro hd
            obtain ⟨-, h2, -⟩ := makeDirs_spec hg.wf [] (d.at_ b.outDir) hg.wf.root (at_plain hg.wf _)
              fun r hr c hc => hnb ⟨r, hr, c, by simpa using hc⟩
            refine m4 ?_
            have hd : d.node (d0.at_ b.outDir ++ [stem ++ b!".go"]) = some .dir := hd
            rw [h2, if_neg (by rw [hd]; simp)]
            exact hd
          · simp only at m5
            subst m5
            have hput : (Job.mk (d0.at_ b.outDir) (stem ++ b!".go") (tl.header ++ body.getD [])).put d =
                (d.makeDirs [] (d.at_ b.outDir)).put (d0.at_ b.outDir ++ [stem ++ b!".go"])
                  (.file (tl.header ++ body.getD [])) := by rw [hatd]; rfl
            rw [hput]
            exact i4
      | panic | hang | cut => exact ⟨hg1.trans k1, nofun⟩

/-- Builds of a configuration that were made. -/
def BuildMade (d : Disk) (build : Option BuildConfig) (js : List Job) : Prop :=
  ∃ b, build = some b ∧ b.sourceDir ≠ [] ∧ List.Forall₂ (MadeCode tl n d b) (sources (d.list (d.at_ b.sourceDir))) js

omit [Unicode] in
theorem GrownDisk.dir {S T : List Bytes → Prop} {d0 d : Disk} (h : GrownDisk S T d0 d) {q : List Bytes}
    (hd : d0.node q = some .dir) : d.node q = some .dir := by
  rcases h.node q with k | ⟨k, _⟩ | ⟨k, _⟩
  · exact k.trans hd
  · rw [k] at hd; cases hd
  · exact absurd hd k

theorem done_build {build : Option BuildConfig} (hb : build ∈ builds) {d : Disk}
    (hg : GrownDisk (MayMake d0 builds) (MayWrite d0 builds) d0 d) :
    GrownDisk (MayMake d0 builds) (MayWrite d0 builds) d0 (d.run (generateBuild tl n build)).1 ∧
    ((d.run (generateBuild tl n build)).2 = .done none → ∃ js, BuildMade tl n d0 build js ∧
      Did d js (d.run (generateBuild tl n build)).1 ∧
      ∀ b, build = some b → (d.run (generateBuild tl n build)).1.node (d0.at_ b.sourceDir) = some .dir) := by
  cases build with
  | none => exact ⟨hg, nofun⟩
  | some b =>
    have hat : d.at_ b.sourceDir = d0.at_ b.sourceDir := at_of_cwd hg.cwd _
    by_cases hd : b.sourceDir ≠ [] ∧ d.node (d.at_ b.sourceDir) = some .dir
    swap
    · have : ∃ e, d.run (generateBuild tl n (some b)) = (d, .done (some e)) := by
        unfold generateBuild
        simp only
        rw [run_stat]
        by_cases hsd : b.sourceDir = []
        · have : d.ans (.stat b.sourceDir) = .error .notExist := by
            rw [hsd]
            simp [Disk.ans, Disk.get]
          rw [this]
          exact ⟨_, rfl⟩
        · cases ha : d.ans (.stat b.sourceDir) with
          | error e => exact ⟨_, rfl⟩
          | ok dir =>
            cases dir with
            | false => exact ⟨_, rfl⟩
            | true =>
              exfalso
              refine hd ⟨hsd, ?_⟩
              revert ha
              show (match d.get b.sourceDir with | some .dir => _ | some (.file _) => _ | none => _) = _ → _
              rw [get_ne hsd]
              cases d.node (d.at_ b.sourceDir) with
              | none => simp only; split <;> nofun
              | some e =>
                cases e with
                | dir => exact fun _ => rfl
                | file c => nofun
      obtain ⟨e, h⟩ := this
      rw [h]
      exact ⟨hg, nofun⟩
    obtain ⟨hsd, hd⟩ := hd
    have hrun : d.run (generateBuild tl n (some b)) = d.run (generateFiles tl n b (d.list (d.at_ b.sourceDir))) := by
      unfold generateBuild
      simp only
      rw [run_stat, ans_stat_dir hsd hd]
      simp only [Bool.not_true, Bool.false_eq_true, if_false]
      rw [run_readDir, ans_readDir hsd hd]
    rw [hrun]
    obtain ⟨k1, k2⟩ := done_files tl n hb hsd _ (list_plain hg.wf _) hg
    refine ⟨k1, fun he => ?_⟩
    obtain ⟨js, k3, k4⟩ := k2 he
    refine ⟨js, ⟨b, rfl, hsd, ?_⟩, k4, fun b' hb' => ?_⟩
    · have : sources (d.list (d.at_ b.sourceDir)) = sources (d0.list (d0.at_ b.sourceDir)) := by
        have hfile : ∀ x ∈ sources (d.list (d.at_ b.sourceDir)), d0.node (d0.at_ b.sourceDir ++ [x]) ≠ none := by
          intro x hx
          have : ∀ {xs ys}, List.Forall₂ (MadeCode tl n d0 b) xs ys → ∀ x ∈ xs, d0.node (d0.at_ b.sourceDir ++ [x]) ≠ none := by
            intro xs ys h
            induction h with
            | nil => nofun
            | cons h _ ih =>
              intro x hx
              rcases List.mem_cons.1 hx with rfl | hx
              · obtain ⟨stem, src, body, -, h, -⟩ := h
                rw [h]; simp
              · exact ih x hx
          exact this k3 x hx
        rw [hat] at hfile ⊢
        obtain ⟨new, hn, hall⟩ := hg.names (d0.at_ b.sourceDir)
        unfold sources Disk.list at hfile ⊢
        rw [sort_filter, sort_filter, hn, List.filter_append]
        have : new.filter (fun n => decide (IsSource n)) = [] := by
          rw [List.filter_eq_nil_iff]
          intro x hx hs
          refine hfile x (List.mem_filter.2 ⟨?_, hs⟩) (hall x hx)
          rw [List.mem_mergeSort, hn]
          exact List.mem_append_right _ hx
        rw [this, List.append_nil]
      rw [← this]; exact k3
    · cases hb'
      rw [hat] at hd
      exact did_dir k4 hg.wf hd

theorem done_builds {bs : List (Option BuildConfig)} (hb : ∀ x ∈ bs, x ∈ builds) {d : Disk}
    (hg : GrownDisk (MayMake d0 builds) (MayWrite d0 builds) d0 d) :
    GrownDisk (MayMake d0 builds) (MayWrite d0 builds) d0 (d.run (generateBuilds tl n bs)).1 ∧
    ((d.run (generateBuilds tl n bs)).2 = .done none → ∃ jss, List.Forall₂ (BuildMade tl n d0) bs jss ∧
      Did d jss.flatten (d.run (generateBuilds tl n bs)).1 ∧
      ∀ b, some b ∈ bs → (d.run (generateBuilds tl n bs)).1.node (d0.at_ b.sourceDir) = some .dir) := by
  induction bs generalizing d with
  | nil => exact ⟨hg, fun _ => ⟨[], .nil, .nil, nofun⟩⟩
  | cons build bs ih =>
    unfold generateBuilds
    rw [run_bind]
    obtain ⟨k1, k2⟩ := done_build tl n (hb _ (List.mem_cons_self ..)) hg
    generalize d.run (generateBuild tl n build) = r at k1 k2 ⊢
    obtain ⟨d1, e⟩ := r
    cases e with
    | done a =>
      cases a with
      | some e => exact ⟨k1, nofun⟩
      | none =>
        simp only
        obtain ⟨js, k3, k4, k5⟩ := k2 rfl
        obtain ⟨i1, i2⟩ := ih (fun x hx => hb x (List.mem_cons_of_mem _ hx)) k1
        refine ⟨i1, fun he => ?_⟩
        obtain ⟨jss, i3, i4, i5⟩ := i2 he
        refine ⟨js :: jss, .cons k3 i3, k4.append i4, fun b hb => ?_⟩
        rcases List.mem_cons.1 hb with rfl | hb
        · exact did_dir i4 k1.wf (k5 b rfl)
        · exact i5 b hb
    | panic | hang | cut => exact ⟨k1, nofun⟩

end

end Cddlc
