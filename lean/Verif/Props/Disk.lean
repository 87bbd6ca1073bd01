import Verif.Lemmas.DiskRun
import Verif.Props.Generate
import Verif.Props.ConfigText

/-! Properties of the commands when nothing interferes (C86, C87, C88). -/

namespace Cddlc
open Spec

/-! ### The configuration -/

theorem firstConfig_exists (d : Disk) : ∃ m, FirstConfig d m := by
  classical
  have hs := (List.pairwise_mergeSort bytesLe_trans bytesLe_total (d.names d.cwd)).filter fun n => decide (ConfigLike n)
  have hmem : ∀ n, n ∈ ((d.names d.cwd).mergeSort bytesLe).filter (fun n => decide (ConfigLike n)) ↔
      n ∈ d.names d.cwd ∧ ConfigLike n := by
    intro n
    rw [List.mem_filter, List.mem_mergeSort, decide_eq_true_iff]
  generalize ((d.names d.cwd).mergeSort bytesLe).filter (fun n => decide (ConfigLike n)) = l at hs hmem
  cases l with
  | nil =>
    refine ⟨none, fun x hx hc => ?_⟩
    exact absurd ((hmem x).2 ⟨hx, hc⟩) (by simp)
  | cons m l =>
    obtain ⟨h1, h2⟩ := (hmem m).1 (List.mem_cons_self ..)
    refine ⟨some m, h1, h2, fun x hx hc => ?_⟩
    rcases List.mem_cons.1 ((hmem x).2 ⟨hx, hc⟩) with rfl | h
    · exact Or.inl ⟨[], by simp⟩
    · exact (bytesLe_iff _ _).1 ((List.pairwise_cons.1 hs).1 x h)

theorem firstConfig_unique {d : Disk} {m m' : Option Bytes} (h : FirstConfig d m) (h' : FirstConfig d m') : m = m' := by
  cases m with
  | none =>
    cases m' with
    | none => rfl
    | some m' => exact absurd h'.2.1 (h m' h'.1)
  | some m =>
    cases m' with
    | none => exact absurd h.2.1 (h' m h.1)
    | some m' =>
      rw [bytesLe_antisymm m m' ((bytesLe_iff _ _).2 (h.2.2 m' h'.1 h'.2.1)) ((bytesLe_iff _ _).2 (h'.2.2 m h.1 h.2.1))]

theorem plainCwd_meta {d : Disk} (h : PlainCwd d) : hasMeta (47 :: joinSlash d.cwd) = false := by
  unfold PlainCwd at h
  have : ∀ xs : List Bytes, (∀ x ∈ xs, ∀ c ∈ x, c ≠ 42 ∧ c ≠ 63 ∧ c ≠ 91 ∧ c ≠ 92) →
      ∀ c ∈ joinSlash xs, c ≠ 42 ∧ c ≠ 63 ∧ c ≠ 91 ∧ c ≠ 92 := by
    intro xs
    induction xs with
    | nil => intro _ c hc; cases hc
    | cons x xs ih =>
      intro hx c hc
      have ih := ih fun y hy => hx y (List.mem_cons_of_mem _ hy)
      cases xs with
      | nil => exact hx x (List.mem_cons_self ..) c hc
      | cons y ys =>
        have hc : c ∈ x ++ 47 :: joinSlash (y :: ys) := hc
        rcases List.mem_append.1 hc with hc | hc
        · exact hx x (List.mem_cons_self ..) c hc
        · rcases List.mem_cons.1 hc with rfl | hc
          · decide
          · exact ih c hc
  unfold hasMeta
  rw [List.any_eq_false]
  intro c hc
  rcases List.mem_cons.1 hc with rfl | hc
  · decide
  · have := this _ h c hc
    simp [this]

/-- The content of a configuration file, if it can be read. -/
def configContent (d : Disk) (m : Bytes) : Except Unit Bytes :=
  match d.node (d.cwd ++ [m]) with
  | some (.file c) => .ok c
  | _ => .error ()

theorem run_config (codec : Codec) {d : Disk} (hw : d.WF) (hp : PlainCwd d) {m : Option Bytes} (hm : FirstConfig d m) :
    d.run (loadConfigFromDir codec (47 :: joinSlash d.cwd)) = (d, .done (match m with
      | none => .error .none
      | some m => loaded codec m (configContent d m))) := by
  have hns : d.ans (.names (47 :: joinSlash d.cwd)) = d.names d.cwd := by
    show (if d.get _ = some .dir then _ else _) = _
    rw [get_ne (List.cons_ne_nil _ _), at_cwd hw, if_pos hw.here]
  unfold loadConfigFromDir globConfig
  rw [plainCwd_meta hp]
  simp only [Prog.bind, Bool.false_eq_true, if_false]
  rw [run_names, hns]
  have hs := (List.pairwise_mergeSort bytesLe_trans bytesLe_total (d.names d.cwd)).filter fun n => decide (n.take 6 = b!"cddlc.")
  have hmem : ∀ n, n ∈ ((d.names d.cwd).mergeSort bytesLe).filter (fun n => decide (n.take 6 = b!"cddlc.")) ↔
      n ∈ d.names d.cwd ∧ ConfigLike n := by
    intro n
    rw [List.mem_filter, List.mem_mergeSort, decide_eq_true_iff, take6_iff]; rfl
  generalize ((d.names d.cwd).mergeSort bytesLe).filter (fun n => decide (n.take 6 = b!"cddlc.")) = l at hs hmem
  cases l with
  | nil =>
    have : FirstConfig d none := fun x hx hc => absurd ((hmem x).2 ⟨hx, hc⟩) (by simp)
    obtain rfl := firstConfig_unique hm this
    rfl
  | cons x l =>
    obtain ⟨h1, h2⟩ := (hmem x).1 (List.mem_cons_self ..)
    have : FirstConfig d (some x) := by
      refine ⟨h1, h2, fun y hy hc => ?_⟩
      rcases List.mem_cons.1 ((hmem y).2 ⟨hy, hc⟩) with rfl | h
      · exact Or.inl ⟨[], by simp⟩
      · exact (bytesLe_iff _ _).1 ((List.pairwise_cons.1 hs).1 y h)
    obtain rfl := firstConfig_unique hm this
    simp only [List.map_cons]
    have hx : FileName x := hw.plain _ _ h1
    unfold loadConfig
    simp only [base_join _ hx]
    rw [run_readFile]
    have hans : d.ans (.readFile (joinPath (47 :: joinSlash d.cwd) x)) = configContent d x := by
      show (match d.get _ with | some (.file c) => _ | _ => _) = _
      rw [get_ne (joinPath_ne hx), at_join _ (List.cons_ne_nil _ _) hx, at_cwd hw]
      rfl
    rw [hans]
    cases configContent d x with
    | error => rfl
    | ok content =>
      simp only [loaded]
      split
      · cases codec.json content <;> rfl
      · split
        · cases codec.yaml content <;> rfl
        · rfl

section
variable [Unicode] (tl : Tool) (n : Nat)

theorem cmd_run {d : Disk} (hw : d.WF) (hp : PlainCwd d) {m : Option Bytes} (hm : FirstConfig d m) :
    d.run (generateCmd tl n) = match m with
      | none => d.run (generateBuilds tl n defaultConfig.builds)
      | some m => match loaded tl.codec m (configContent d m) with
        | .error e => (d, .done (some (.config e)))
        | .ok c => d.run (generateBuilds tl n c.builds) := by
  unfold generateCmd
  rw [run_getwd]
  simp only
  rw [run_bind, run_config tl.codec hw hp hm]
  cases m with
  | none => rfl
  | some m =>
    simp only
    cases h : loaded tl.codec m (configContent d m) with
    | ok c => rfl
    | error e =>
      cases e with
      | none =>
        exfalso
        unfold loaded at h
        split at h
        · cases h
        · split at h
          · rename_i content _ _
            cases hj : tl.codec.json content <;> rw [hj] at h <;> simp [Except.mapError] at h
          · split at h
            · rename_i content _ _ _
              cases hj : tl.codec.yaml content <;> rw [hj] at h <;> simp [Except.mapError] at h
            · simp at h
      | _ => rfl

theorem run_configured {d : Disk} (hw : d.WF) (hp : PlainCwd d) {c : Config} (hc : Configured tl.codec d c) :
    d.run (generateCmd tl n) = d.run (generateBuilds tl n c.builds) := by
  rcases hc with ⟨h1, rfl⟩ | ⟨content, ⟨h1, h2, h3⟩ | ⟨h1, h2, h3⟩⟩
  · rw [cmd_run tl n hw hp h1]
  · rw [cmd_run tl n hw hp h1]
    simp [configContent, h2, loaded, h3, Except.mapError]
  · rw [cmd_run tl n hw hp h1]
    simp [configContent, h2, loaded, h3, Except.mapError]

/-! ### C86: what is generated -/

omit [Unicode] in
theorem puts_outcome {d : Disk} (hw : d.WF) {js : List Job} (h : ∀ j ∈ js, Doable d j) : Outcome js d (puts js d) := by
  have hf := puts_frame hw h
  have key : ∀ (js : List Job) (d : Disk), d.WF → (∀ j ∈ js, Doable d j) →
      ∀ q, (∀ j ∈ js, ¬ q <+: j.dir ∧ q ≠ j.place) → (puts js d).node q = d.node q := by
    intro js
    induction js with
    | nil => exact fun d _ _ q _ => rfl
    | cons j js ih =>
      intro d hw h q hq
      have h1 := h j (List.mem_cons_self ..)
      have hf := job_frame hw h1
      show (puts js (j.put d)).node q = _
      rw [ih _ hf.wf (fun k hk => (h k (List.mem_cons_of_mem _ hk)).frame hf) q fun k hk => hq k (List.mem_cons_of_mem _ hk)]
      have := hq j (List.mem_cons_self ..)
      exact (job_node hw h1).2.2 q this.1 this.2
  refine ⟨hf.cwd, hf.wf, ?_, ?_, key js d hw h⟩
  · rintro js1 j js2 rfl hlast
    have hf1 := puts_frame hw fun k hk => h k (List.mem_append_left (as := js1) (j :: js2) hk)
    have hj := (h j (by simp)).frame hf1
    have hf2 := job_frame hf1.wf hj
    rw [puts_append]
    show (puts js2 (j.put (puts js1 d))).node j.place = _
    rw [key js2 _ hf2.wf fun k hk => (h k (by simp [hk])).frame (hf1.trans hf2)]
    · exact (job_node hf1.wf hj).1
    · intro k hk
      refine ⟨fun hpre => ?_, (hlast k hk).symm⟩
      obtain ⟨s, hs⟩ := hj.goes
      have hnode := (job_node hf1.wf hj).1
      rcases ((h k (by simp [hk])).frame (hf1.trans hf2)).can j.place hpre with h1 | ⟨h1, _⟩
      · rw [show (j.put (puts js1 d)).node j.place = _ from hnode] at h1; cases h1
      · rw [show (j.put (puts js1 d)).node j.place = _ from hnode] at h1; cases h1
  · intro j hj q hq
    obtain ⟨js1, js2, rfl⟩ := List.append_of_mem hj
    have hf1 := puts_frame hw fun k hk => h k (List.mem_append_left (as := js1) (j :: js2) hk)
    have hj := (h j (by simp)).frame hf1
    have hf2 := job_frame hf1.wf hj
    rw [puts_append]
    show (puts js2 (j.put (puts js1 d))).node q = _
    exact (puts_frame hf2.wf fun k hk => (h k (by simp [hk])).frame (hf1.trans hf2)).dirs q ((job_node hf1.wf hj).2.1 q hq)

/-- **C86**: when nothing interferes and all sources of all builds can be turned into code, `generate`
succeeds. Then every output holds the header and the code of its source - of the last one, if several
have the same output -, the directories of the outputs exist, and nothing else on the disk is changed. -/
theorem C86_generates {d : Disk} (hw : d.WF) (hp : PlainCwd d) {c : Config} {js : List Job}
    (hc : Configured tl.codec d c) (hr : Ready tl n d c js) :
    ∃ d', d.run (generateCmd tl n) = (d', .done none) ∧ Outcome js d d' := by
  refine ⟨puts js d, ?_, puts_outcome hw (ready_doable tl n hw hr)⟩
  rw [run_configured tl n hw hp hc]
  obtain ⟨jss, h1, rfl⟩ := hr
  exact run_builds tl n hw h1 (.refl hw)

/-! ### C87: again -/

theorem isJob_frame {d0 d : Disk} (hf : Frame d0 d) (hw : d0.WF) {b : BuildConfig} {name : Bytes} {j : Job} (hn : FileName name)
    (h : IsJob tl n d0 b name j) : IsJob tl n d b name j := by
  have hdo := (isJob_doable tl n hw hn h).frame hf
  obtain ⟨stem, src, body, rfl, hnode, hcode, hod, hjj, _⟩ := h
  refine ⟨stem, src, body, rfl, ?_, hcode, hod, by rw [hjj, at_of_cwd hf.cwd], hdo.can, hdo.free⟩
  rw [at_of_cwd hf.cwd]
  refine hf.files _ _ hnode ?_
  rintro ⟨b', s, he⟩
  have := (List.append_inj' he rfl).2
  exact go_not_source (s := s) (by rw [← List.singleton_inj.1 this]; exact ⟨stem, rfl⟩)

theorem buildReady_frame {d0 d : Disk} (hf : Frame d0 d) (hw : d0.WF) {build : Option BuildConfig} {js : List Job}
    (h : BuildReady tl n d0 build js) : BuildReady tl n d build js := by
  obtain ⟨b, rfl, hsd, hdir, hj⟩ := h
  refine ⟨b, rfl, hsd, by rw [at_of_cwd hf.cwd]; exact hf.dirs _ hdir, ?_⟩
  rw [sources_frame hf, at_of_cwd hf.cwd]
  have hn : ∀ x ∈ sources (d0.list (d0.at_ b.sourceDir)), FileName x := fun x hx =>
    list_plain hw _ x (List.mem_filter.1 hx).1
  revert hn
  generalize sources (d0.list (d0.at_ b.sourceDir)) = ns at hj
  induction hj with
  | nil => exact fun _ => .nil
  | cons h1 _ ih =>
    exact fun hn => .cons (isJob_frame tl n hf hw (hn _ (List.mem_cons_self ..)) h1)
      (ih fun x hx => hn x (List.mem_cons_of_mem _ hx))

theorem ready_frame {d0 d : Disk} (hf : Frame d0 d) (hw : d0.WF) {c : Config} {js : List Job}
    (h : Ready tl n d0 c js) : Ready tl n d c js := by
  obtain ⟨jss, h1, rfl⟩ := h
  exact ⟨jss, h1.imp fun _ _ h => buildReady_frame tl n hf hw h, rfl⟩

omit [Unicode] in
theorem disk_ext {d d' : Disk} (h1 : d.cwd = d'.cwd) (h2 : d.node = d'.node) (h3 : d.names = d'.names) : d = d' := by
  cases d; cases d'; simp_all

omit [Unicode] in
/-- Files that exist are written without new names. -/
theorem puts_names {d : Disk} (hw : d.WF) {js : List Job} (h : ∀ j ∈ js, Doable d j)
    (he : ∀ j ∈ js, d.node j.place ≠ none) : (puts js d).names = d.names := by
  induction js generalizing d with
  | nil => rfl
  | cons j js ih =>
    have h1 := h j (List.mem_cons_self ..)
    have he1 := he j (List.mem_cons_self ..)
    have hf := job_frame hw h1
    have hsame : d.makeDirs [] j.dir = d := makeDirs_same _ _ fun r hr => by
      rw [List.nil_append]
      have hd : d.node j.dir = some .dir := hw.parent _ _ he1
      rcases hw.prefix hr (by rw [hd]; simp) with rfl | h2
      · rw [hd]; simp
      · rw [h2]; simp
    have hn : (j.put d).names = d.names := by
      unfold Job.put
      rw [hsame]
      funext r
      rw [put_names, if_neg]
      rintro ⟨rfl, hx⟩
      exact hx ((hw.listed _ _).2 he1)
    show (puts js (j.put d)).names = _
    rw [ih hf.wf (fun k hk => (h k (List.mem_cons_of_mem _ hk)).frame hf) (fun k hk => ?_), hn]
    unfold Job.put
    rw [hsame, put_node]
    split
    · simp
    · exact he k (List.mem_cons_of_mem _ hk)

omit [Unicode] in
/-- The last job for a place. -/
theorem last_job {js : List Job} {j : Job} (hj : j ∈ js) :
    ∃ js1 k js2, js = js1 ++ k :: js2 ∧ k.place = j.place ∧ ∀ i ∈ js2, i.place ≠ k.place := by
  induction js with
  | nil => cases hj
  | cons a js ih =>
    by_cases h : ∃ i ∈ js, i.place = j.place
    · obtain ⟨i, hi, hij⟩ := h
      by_cases hj' : j ∈ js
      · obtain ⟨js1, k, js2, rfl, h1, h2⟩ := ih hj'
        exact ⟨a :: js1, k, js2, rfl, h1, h2⟩
      · obtain rfl : j = a := (List.mem_cons.1 hj).resolve_right hj'
        clear ih
        have : ∀ (js : List Job) (i : Job), i ∈ js → i.place = j.place →
            ∃ js1 k js2, js = js1 ++ k :: js2 ∧ k.place = j.place ∧ ∀ i ∈ js2, i.place ≠ k.place := by
          intro js
          induction js with
          | nil => intro i hi; cases hi
          | cons b js ih =>
            intro i hi hij
            by_cases hh : ∃ i ∈ js, i.place = j.place
            · obtain ⟨i', hi', hij'⟩ := hh
              obtain ⟨js1, k, js2, rfl, h1, h2⟩ := ih i' hi' hij'
              exact ⟨b :: js1, k, js2, rfl, h1, h2⟩
            · have hib : i = b := (List.mem_cons.1 hi).resolve_right fun h => hh ⟨i, h, hij⟩
              subst hib
              exact ⟨[], i, js, rfl, hij, fun i' hi' h => hh ⟨i', hi', h.trans hij⟩⟩
        obtain ⟨js1, k, js2, rfl, h1, h2⟩ := this js i hi hij
        exact ⟨j :: js1, k, js2, rfl, h1, h2⟩
    · have hja : j = a := (List.mem_cons.1 hj).resolve_right fun h' => h ⟨j, h', rfl⟩
      subst hja
      exact ⟨[], j, js, rfl, rfl, fun i hi hh => h ⟨i, hi, hh⟩⟩

omit [Unicode] in
/-- What was written may be written again. -/
theorem puts_again {d d' : Disk} {js : List Job} (ho : Outcome js d d') (h : ∀ j ∈ js, Doable d' j) : puts js d' = d' := by
  have he : ∀ j ∈ js, d'.node j.place ≠ none := by
    intro j hj
    obtain ⟨js1, k, js2, e, h1, h2⟩ := last_job hj
    rw [← h1, ho.last js1 k js2 e h2]; simp
  have ho' := puts_outcome ho.wf h
  refine disk_ext ho'.cwd ?_ (puts_names ho.wf h he)
  funext q
  by_cases hq : ∃ j ∈ js, q = j.place
  · obtain ⟨j, hj, rfl⟩ := hq
    obtain ⟨js1, k, js2, e, h1, h2⟩ := last_job hj
    rw [← h1, ho.last js1 k js2 e h2, ho'.last js1 k js2 e h2]
  · by_cases hd : ∃ j ∈ js, q <+: j.dir
    · obtain ⟨j, hj, hjd⟩ := hd
      rw [ho.dirs j hj q hjd, ho'.dirs j hj q hjd]
    · exact ho'.other q fun j hj => ⟨fun h => hd ⟨j, hj, h⟩, fun h => hq ⟨j, hj, h⟩⟩

/-- **C87**: after a successful `generate`, a second one changes nothing. It succeeds exactly if the
first one made no file or directory in the working directory whose name comes first among those that
begin with `cddlc.`; otherwise it ends with an error of the configuration. -/
theorem C87_again {d : Disk} (hw : d.WF) (hp : PlainCwd d) {c : Config} {js : List Job}
    (hc : Configured tl.codec d c) (hr : Ready tl n d c js) :
    ∃ d', d.run (generateCmd tl n) = (d', .done none) ∧ (d'.run (generateCmd tl n)).1 = d' ∧
      (((∀ m, FirstConfig d m ↔ FirstConfig d' m) ∧ (d'.run (generateCmd tl n)).2 = .done none) ∨
       ((∃ m, ¬ FirstConfig d (some m) ∧ FirstConfig d' (some m)) ∧
          ∃ e, (d'.run (generateCmd tl n)).2 = .done (some (.config e)))) := by
  have hdo := ready_doable tl n hw hr
  have hf := puts_frame hw hdo
  have ho := puts_outcome hw hdo
  have hrun : d.run (generateCmd tl n) = (puts js d, .done none) := by
    rw [run_configured tl n hw hp hc]
    obtain ⟨jss, h1, rfl⟩ := hr
    exact run_builds tl n hw h1 (.refl hw)
  refine ⟨puts js d, hrun, ?_⟩
  clear hrun
  have hdo' : ∀ j ∈ js, Doable (puts js d) j := fun j hj => (hdo j hj).frame hf
  have hsame := puts_again ho hdo'
  generalize puts js d = d' at hf ho hdo' hsame
  have hp' : PlainCwd d' := by unfold PlainCwd; rw [hf.cwd]; exact hp
  obtain ⟨m, hm⟩ := firstConfig_exists d
  obtain ⟨m', hm'⟩ := firstConfig_exists d'
  by_cases hmm : m = m'
  · subst hmm
    have hkeep : ∀ x content, (x = b!"cddlc.json" ∨ x = b!"cddlc.yaml") → d.node (d.cwd ++ [x]) = some (.file content) →
        d'.node (d'.cwd ++ [x]) = some (.file content) := by
      intro x content hx hn
      rw [hf.cwd]
      refine hf.files _ _ hn ?_
      rintro ⟨b, s, he⟩
      have hs := List.singleton_inj.1 (List.append_inj' he rfl).2
      rcases hx with rfl | rfl <;>
      · have := congrArg List.reverse hs
        simp at this
    have hc' : Configured tl.codec d' c := by
      rcases hc with ⟨h1, rfl⟩ | ⟨content, ⟨h1, h2, h3⟩ | ⟨h1, h2, h3⟩⟩
      · exact Or.inl ⟨firstConfig_unique hm h1 ▸ hm', rfl⟩
      · exact Or.inr ⟨content, Or.inl ⟨firstConfig_unique hm h1 ▸ hm', hkeep _ _ (Or.inl rfl) h2, h3⟩⟩
      · exact Or.inr ⟨content, Or.inr ⟨firstConfig_unique hm h1 ▸ hm', hkeep _ _ (Or.inr rfl) h2, h3⟩⟩
    have hrun : d'.run (generateCmd tl n) = (d', .done none) := by
      rw [run_configured tl n hf.wf hp' hc']
      obtain ⟨jss, h1, rfl⟩ := ready_frame tl n hf hw hr
      rw [run_builds tl n hf.wf h1 (.refl hf.wf), hsame]
    rw [hrun]
    refine ⟨rfl, Or.inl ⟨fun k => ⟨fun h => ?_, fun h => ?_⟩, rfl⟩⟩
    · rw [firstConfig_unique h hm]; exact hm'
    · rw [firstConfig_unique h hm']; exact hm
  · have hsub : ∀ x ∈ d.names d.cwd, x ∈ d'.names d'.cwd := by
      intro x hx
      obtain ⟨new, hn, _⟩ := hf.names d.cwd
      rw [hf.cwd, hn]
      exact List.mem_append_left _ hx
    cases m' with
    | none =>
      exfalso
      cases m with
      | none => exact hmm rfl
      | some m => exact hm' m (hsub m hm.1) hm.2.1
    | some x =>
      have hnx : d.node (d.cwd ++ [x]) = none := by
        by_contra hne
        have hx := (hw.listed _ _).2 hne
        refine hmm (firstConfig_unique hm ⟨hx, hm'.2.1, fun y hy hyc => hm'.2.2 y (hsub y hy) hyc⟩)
      have hload : ∃ e, loaded tl.codec x (configContent d' x) = .error e := by
        by_cases hq : ∃ j ∈ js, d.cwd ++ [x] = j.place
        · obtain ⟨j, hj, hq⟩ := hq
          obtain ⟨s, hs⟩ := (hdo j hj).goes
          have hxs : x = s ++ b!".go" := by
            rw [← hs]; exact List.singleton_inj.1 (List.append_inj' hq rfl).2
          unfold loaded
          cases configContent d' x with
          | error => exact ⟨_, rfl⟩
          | ok content =>
            simp only
            rw [if_neg, if_neg]
            · exact ⟨_, rfl⟩
            · rw [hxs]; intro h; have := congrArg List.reverse h; simp at this
            · rw [hxs]; intro h; have := congrArg List.reverse h; simp at this
        · by_cases hd : ∃ j ∈ js, (d.cwd ++ [x]) <+: j.dir
          · obtain ⟨j, hj, hjd⟩ := hd
            have : configContent d' x = .error () := by
              unfold configContent
              rw [hf.cwd, ho.dirs j hj _ hjd]
            rw [this]; exact ⟨_, rfl⟩
          · exfalso
            have := ho.other (d.cwd ++ [x]) fun j hj => ⟨fun h => hd ⟨j, hj, h⟩, fun h => hq ⟨j, hj, h⟩⟩
            rw [hnx] at this
            exact (hf.wf.listed _ _).1 hm'.1 (by rw [hf.cwd]; exact this)
      obtain ⟨e, he⟩ := hload
      rw [cmd_run tl n hf.wf hp' hm']
      simp only [he]
      refine ⟨trivial, Or.inr ⟨⟨x, fun h => hmm (firstConfig_unique hm h), hm'⟩, e, rfl⟩⟩

end

/-! ### C88: after `init` -/

theorem config_go : ConfigLike b!"cddlc.json" ∧ FileName b!"cddlc.json" ∧ ¬ IsSource b!"cddlc.json" :=
  ⟨⟨b!"json", rfl⟩, by unfold FileName; decide, by decide⟩

/-- `init` where there is no `cddlc.json`. -/
theorem run_init {d : Disk} (hw : d.WF) (json : Bytes) (hn : d.node (d.cwd ++ [b!"cddlc.json"]) = none) :
    d.run (initWith json) = (d.put (d.cwd ++ [b!"cddlc.json"]) (.file json), .done none) := by
  have hfn := config_go.2.1
  unfold initWith
  rw [run_getwd]
  simp only
  have hp : joinPath (47 :: joinSlash d.cwd) b!"cddlc.json" ≠ [] := joinPath_ne hfn
  have hat : d.at_ (joinPath (47 :: joinSlash d.cwd) b!"cddlc.json") = d.cwd ++ [b!"cddlc.json"] := by
    rw [at_join _ (List.cons_ne_nil _ _) hfn, at_cwd hw]
  generalize joinPath (47 :: joinSlash d.cwd) b!"cddlc.json" = p at hp hat
  rw [run_stat, ans_stat_none hp (by rw [hat]; exact hn)]
  · simp only
    rw [run_openAppend]
    · simp only
      have hc : d.content p = [] := by unfold Disk.content; rw [hat, hn]
      rw [hc, run_write (c0 := []) _ hp]
      · rw [at_of_cwd (put_cwd ..), hat, put_put]; rfl
      · rw [at_of_cwd (put_cwd ..), put_node, if_pos rfl]
    · unfold Disk.opens
      rw [if_neg hp, hat, hn]
      simp only
      rw [if_pos]
      exact ⟨by simp, by simpa using hw.here⟩
  · rw [hat]
    rintro ⟨r, hr, c, hc⟩
    rcases List.prefix_concat_iff.1 hr with rfl | h1
    · rw [hn] at hc; cases hc
    · rcases hw.prefix h1 (by rw [hw.here]; simp) with rfl | h2
      · rw [hw.here] at hc; cases hc
      · rw [h2] at hc; cases hc

/-- The disk after `init`. -/
theorem init_disk {d : Disk} (hw : d.WF) (json : Bytes) (hn : d.node (d.cwd ++ [b!"cddlc.json"]) = none) :
    (d.put (d.cwd ++ [b!"cddlc.json"]) (.file json)).WF ∧
    (∀ x, x ∈ (d.put (d.cwd ++ [b!"cddlc.json"]) (.file json)).names d.cwd ↔ x = b!"cddlc.json" ∨ x ∈ d.names d.cwd) := by
  refine ⟨put_wf hw config_go.2.1 hw.here (Or.inr (by rw [hn]; simp)), fun x => ?_⟩
  rw [put_names, if_pos ⟨rfl, fun h => (hw.listed _ _).1 h hn⟩]
  simp [or_comm]

/-- **C88**: `init` makes `cddlc.json` the configuration that is used, unless there is a name beginning
with `cddlc.` before it. In particular, a `cddlc.yaml` is not read any more. -/
theorem C88_used {codec : Codec} {d : Disk} (hw : d.WF) (hj : ReadsConfigs codec)
    (hn : d.node (d.cwd ++ [b!"cddlc.json"]) = none)
    (hfirst : ∀ x ∈ d.names d.cwd, ConfigLike x → Precedes b!"cddlc.json" x) :
    ∃ d', d.run initCmd = (d', .done none) ∧ d'.WF ∧ Configured codec d' defaultConfig := by
  let json := configText defaultConfig
  have hj := C91_default.2 codec hj
  obtain ⟨h1, h2⟩ := init_disk hw json hn
  refine ⟨_, run_init hw json hn, h1, Or.inr ⟨json, Or.inl ⟨⟨?_, config_go.1, fun x hx hc => ?_⟩, ?_, hj⟩⟩⟩
  · rw [put_cwd, h2]; exact Or.inl rfl
  · rw [put_cwd, h2] at hx
    rcases hx with rfl | hx
    · exact Or.inl ⟨[], by simp⟩
    · exact hfirst x hx hc
  · rw [put_cwd, put_node, if_pos rfl]

/-- A configuration in YAML is hidden by `init`: it was used before, and after it the default is. -/
theorem C88_hidden {codec : Codec} {d : Disk} (hw : d.WF) (hj : ReadsConfigs codec)
    (hy : FirstConfig d (some b!"cddlc.yaml")) :
    ∃ d', d.run initCmd = (d', .done none) ∧ FirstConfig d' (some b!"cddlc.json") ∧
      ∀ c, Configured codec d' c → c = defaultConfig := by
  let json := configText defaultConfig
  have hj := C91_default.2 codec hj
  have hfirst : ∀ x ∈ d.names d.cwd, ConfigLike x → Precedes b!"cddlc.json" x := fun x hx hc =>
    (bytesLe_iff _ _).1 (bytesLe_trans _ _ _ (by decide) ((bytesLe_iff _ _).2 (hy.2.2 x hx hc)))
  have hn : d.node (d.cwd ++ [b!"cddlc.json"]) = none := by
    by_contra h
    have := hy.2.2 _ ((hw.listed _ _).2 h) config_go.1
    exact absurd ((bytesLe_iff _ _).2 this) (by decide)
  obtain ⟨h1, h2⟩ := init_disk hw json hn
  have hd : FirstConfig (d.put (d.cwd ++ [b!"cddlc.json"]) (.file json)) (some b!"cddlc.json") := by
    refine ⟨?_, config_go.1, fun x hx hc => ?_⟩
    · rw [put_cwd, h2]; exact Or.inl rfl
    · rw [put_cwd, h2] at hx
      rcases hx with rfl | hx
      · exact Or.inl ⟨[], by simp⟩
      · exact hfirst x hx hc
  refine ⟨_, run_init hw json hn, hd, fun c hc => ?_⟩
  rcases hc with ⟨h3, rfl⟩ | ⟨content, ⟨_, h4, h5⟩ | ⟨h3, _⟩⟩
  · rfl
  · rw [put_cwd, put_node, if_pos rfl] at h4
    cases h4
    rw [hj] at h5; cases h5; rfl
  · exact absurd (firstConfig_unique hd h3) (by decide)

section
variable [Unicode] (tl : Tool) (n : Nat)

theorem init_job {d : Disk} {json name : Bytes} {j : Job}
    (h : IsJob tl n d defaultBuildConfig name j) :
    IsJob tl n (d.put (d.cwd ++ [b!"cddlc.json"]) (.file json)) defaultBuildConfig name j := by
  have hsrc : d.at_ b!"." = d.cwd := by
    show (List.foldl Disk.go d.cwd.reverse [b!"."]).reverse = _
    simp [Disk.go]
  have hout : d.at_ b!"dist/" = d.cwd ++ [b!"dist"] := by
    show (List.foldl Disk.go d.cwd.reverse [b!"dist", []]).reverse = _
    simp [Disk.go]
  obtain ⟨stem, src, body, rfl, h1, h2, h3, h4, h5, h6⟩ := h
  have hat : ∀ p, (d.put (d.cwd ++ [b!"cddlc.json"]) (.file json)).at_ p = d.at_ p := at_of_cwd rfl
  have hdir : j.dir = d.cwd ++ [b!"dist"] := by rw [h4, ← hout]; rfl
  refine ⟨stem, src, body, rfl, ?_, h2, h3, by rw [h4, hat], fun r hr => ?_, ?_⟩
  · rw [hat, put_node, if_neg]
    · exact h1
    · rw [show defaultBuildConfig.sourceDir = b!"." from rfl, hsrc]
      intro he
      have := List.singleton_inj.1 (List.append_inj' he rfl).2
      have := congrArg List.reverse this
      simp at this
  · rw [put_node, if_neg]
    · exact h5 r hr
    · rintro rfl
      rw [hdir] at hr
      have := (List.prefix_of_prefix_length_le hr (List.prefix_refl _) (by simp)).eq_of_length (by simp)
      simp at this
  · rw [put_node, if_neg]
    · exact h6
    · rw [hdir]
      intro he
      have := congrArg List.length he
      simp at this

/-- **C88**: where there is no configuration, `generate` after `init` succeeds as without it and writes
the same files. -/
theorem C88_init_generate {d : Disk} (hw : d.WF) (hp : PlainCwd d)
    (hj : ReadsConfigs tl.codec) {js : List Job} (hc : FirstConfig d none)
    (hr : Ready tl n d defaultConfig js) :
    ∃ d1 d2 d', d.run initCmd = (d1, .done none) ∧ d1.run (generateCmd tl n) = (d2, .done none) ∧
      d.run (generateCmd tl n) = (d', .done none) ∧
      d2.node (d.cwd ++ [b!"cddlc.json"]) = some (.file (configText defaultConfig)) ∧
      ∀ q, q ≠ d.cwd ++ [b!"cddlc.json"] → d2.node q = d'.node q := by
  have hn : d.node (d.cwd ++ [b!"cddlc.json"]) = none := by
    by_contra h
    exact hc _ ((hw.listed _ _).2 h) config_go.1
  let json := configText defaultConfig
  obtain ⟨d1, h1, h2, h3⟩ := C88_used hw hj hn fun x hx h => absurd h (hc x hx)
  have h1 := (run_init hw json hn).symm.trans h1
  have hd1 : d1 = d.put (d.cwd ++ [b!"cddlc.json"]) (.file json) := by cases h1; rfl
  have hsrc : d.at_ b!"." = d.cwd := by
    show (List.foldl Disk.go d.cwd.reverse [b!"."]).reverse = _
    simp [Disk.go]
  have hr1 : Ready tl n d1 defaultConfig js := by
    obtain ⟨jss, g1, rfl⟩ := hr
    refine ⟨jss, ?_, rfl⟩
    obtain ⟨js, jss', g2, g3, rfl⟩ := List.forall₂_cons_left_iff.1 g1
    obtain rfl := List.forall₂_nil_left_iff.1 g3
    refine .cons ?_ .nil
    obtain ⟨b, hb, k1, k2, k3⟩ := g2
    cases hb
    subst hd1
    have hat : ∀ p, (d.put (d.cwd ++ [b!"cddlc.json"]) (.file json)).at_ p = d.at_ p := at_of_cwd rfl
    refine ⟨_, rfl, k1, ?_, ?_⟩
    · rw [hat, put_node, if_neg]
      · exact k2
      · rintro he; rw [he, hn] at k2; cases k2
    · have hl : sources ((d.put (d.cwd ++ [b!"cddlc.json"]) (.file json)).list (d.at_ defaultBuildConfig.sourceDir)) =
          sources (d.list (d.at_ defaultBuildConfig.sourceDir)) := by
        unfold sources Disk.list
        rw [sort_filter, sort_filter, put_names]
        split
        · rw [List.filter_append]
          have : [b!"cddlc.json"].filter (fun n => decide (IsSource n)) = [] := by decide
          rw [this, List.append_nil]
        · rfl
      rw [hat, hl]
      exact k3.imp fun _ _ h => init_job tl n h
  obtain ⟨d', e1, o1⟩ := C86_generates tl n hw hp (Or.inl ⟨hc, rfl⟩) hr
  have hp1 : PlainCwd d1 := by rw [hd1]; exact hp
  obtain ⟨d2, e2, o2⟩ := C86_generates tl n h2 hp1 h3 hr1
  refine ⟨d1, d2, d', hd1 ▸ run_init hw json hn, e2, e1, ?_, fun q hq => ?_⟩
  · rw [o2.other, hd1, put_node, if_pos rfl]
    intro j hj
    have hdo := ready_doable tl n hw hr j hj
    refine ⟨fun hpre => ?_, fun he => ?_⟩
    · rcases (ready_doable tl n h2 hr1 j hj).can _ hpre with h | ⟨h, _⟩ <;>
      · rw [hd1, put_node, if_pos rfl] at h; cases h
    · obtain ⟨s, hs⟩ := hdo.goes
      have := List.singleton_inj.1 (List.append_inj' he rfl).2
      rw [hs] at this
      have := congrArg List.reverse this
      simp at this
  · by_cases hq1 : ∃ j ∈ js, q = j.place
    · obtain ⟨j, hj, rfl⟩ := hq1
      obtain ⟨js1, k, js2, e, g1, g2⟩ := last_job hj
      rw [← g1, o2.last js1 k js2 e g2, o1.last js1 k js2 e g2]
    · by_cases hd : ∃ j ∈ js, q <+: j.dir
      · obtain ⟨j, hj, hjd⟩ := hd
        rw [o2.dirs j hj q hjd, o1.dirs j hj q hjd]
      · have hno : ∀ j ∈ js, ¬ q <+: j.dir ∧ q ≠ j.place :=
          fun j hj => ⟨fun h => hd ⟨j, hj, h⟩, fun h => hq1 ⟨j, hj, h⟩⟩
        rw [o2.other q hno, o1.other q hno, hd1, put_node, if_neg hq]

end

/-! ### A disk -/

/-- A disk with a few entries. -/
def smallDisk (cwd : List Bytes) (l : List (List Bytes × Entry)) : Disk :=
  { cwd, node := fun q => l.lookup q
    names := fun q => l.filterMap fun (k, _) => if k.dropLast = q then k.getLast? else none }

theorem lookup_ne {l : List (List Bytes × Entry)} {q : List Bytes} : l.lookup q ≠ none ↔ ∃ e, (q, e) ∈ l := by
  induction l with
  | nil => simp
  | cons a l ih =>
    obtain ⟨k, e⟩ := a
    rw [List.lookup_cons]
    by_cases h : q = k
    · subst h; simp
    · have : (q == k) = false := by simpa using h
      rw [this]
      simp only [h, List.mem_cons, Prod.mk.injEq, false_and, false_or]
      exact ih

theorem smallDisk_wf {cwd : List Bytes} {l : List (List Bytes × Entry)} (h1 : l.lookup [] = some .dir)
    (h2 : ∀ a ∈ l, a.1 = [] ∨ l.lookup a.1.dropLast = some .dir)
    (h3 : ∀ a ∈ l, ∀ x ∈ a.1, (47 : UInt8) ∉ x ∧ x ≠ [] ∧ x ≠ b!"." ∧ x ≠ b!"..")
    (h4 : l.lookup cwd = some .dir) : (smallDisk cwd l).WF := by
  have hl : ∀ q x, x ∈ (smallDisk cwd l).names q ↔ l.lookup (q ++ [x]) ≠ none := by
    intro q x
    rw [lookup_ne]
    show x ∈ List.filterMap _ l ↔ _
    rw [List.mem_filterMap]
    constructor
    · rintro ⟨⟨k, e⟩, hm, hk⟩
      simp only at hk
      split at hk
      · rename_i hd
        obtain ⟨ys, rfl⟩ := List.getLast?_eq_some_iff.1 hk
        rw [List.dropLast_concat] at hd
        exact ⟨e, by rw [← hd]; exact hm⟩
      · cases hk
    · rintro ⟨e, hm⟩
      exact ⟨(q ++ [x], e), hm, by simp⟩
  refine ⟨h1, fun q x hx => ?_, hl, fun q x hx => ?_, h4⟩
  · obtain ⟨e, hm⟩ := lookup_ne.1 hx
    rcases h2 _ hm with h | h
    · simp at h
    · rw [List.dropLast_concat] at h; exact h
  · obtain ⟨e, hm⟩ := lookup_ne.1 ((hl q x).1 hx)
    exact h3 _ hm x (by simp)

/-- A source in the working directory, and no configuration. -/
def demoDisk : Disk := smallDisk [b!"w"]
  [([], .dir), ([b!"w"], .dir), ([b!"w", b!"a.cddl"], .file b!"a = int"), ([b!"w", b!"x"], .file [])]

def demoJob : Job := ⟨[b!"w", b!"dist"], b!"a.go", demoTool.header⟩

theorem demoDisk_plain : demoDisk.WF ∧ PlainCwd demoDisk := by
  refine ⟨smallDisk_wf (by decide) (by decide) (by decide +kernel) (by decide), ?_⟩
  unfold PlainCwd; decide

theorem prefix_two {r : List Bytes} {x y : Bytes} (h : r <+: [x, y]) : r = [] ∨ r = [x] ∨ r = [x, y] := by
  obtain ⟨t, h⟩ := h
  match r, h with
  | [], _ => exact Or.inl rfl
  | [a], h => simp at h; exact Or.inr (Or.inl (by rw [h.1]))
  | [a, b], h => simp at h; exact Or.inr (Or.inr (by rw [h.1, h.2.1]))
  | a :: b :: c :: r, h => simp at h

theorem demo_first : FirstConfig demoDisk none := by
  have : demoDisk.names demoDisk.cwd = [b!"a.cddl", b!"x"] := by decide
  intro x hx
  rw [this] at hx
  rintro ⟨s, rfl⟩
  simp at hx

theorem demo_ready : letI := asciiOnly; Ready demoTool 30 demoDisk defaultConfig [demoJob] := by
  let := asciiOnly
  refine ⟨[[demoJob]], .cons ⟨_, rfl, by decide, by decide, ?_⟩ .nil, rfl⟩
  have : sources (demoDisk.list (demoDisk.at_ defaultBuildConfig.sourceDir)) = [b!"a.cddl"] := by
    have h1 : demoDisk.names (demoDisk.at_ defaultBuildConfig.sourceDir) = [b!"a.cddl", b!"x"] := by decide
    unfold Disk.list
    rw [h1, demo_sort]; decide
  rw [this]
  refine .cons ⟨b!"a", b!"a = int", some [], rfl, by decide, demo_code demoTool rfl rfl [], by decide, ?_, ?_, by decide⟩ .nil
  · have : demoDisk.at_ defaultBuildConfig.outDir = [b!"w", b!"dist"] := by decide
    rw [this]; simp [demoJob]
  · intro r hr
    rcases prefix_two hr with rfl | rfl | rfl
    · exact Or.inl (by decide)
    · exact Or.inl (by decide)
    · refine Or.inr ⟨by decide, fun b x h => ?_⟩
      have : x = b!"dist" := (List.singleton_inj.1 (List.append_inj' (s₁ := [b!"w"]) (t₁ := [b!"dist"]) h rfl).2).symm
      subst this
      refine ⟨?_, by decide⟩
      rintro ⟨s, h⟩
      have := congrArg List.reverse h
      simp at this

/-- One source: its output is made, in a new directory. -/
example : letI := asciiOnly
    ∃ d', demoDisk.run (generateCmd demoTool 30) = (d', .done none) ∧
      d'.node [b!"w", b!"dist", b!"a.go"] = some (.file demoTool.header) ∧
      d'.node [b!"w", b!"a.cddl"] = some (.file b!"a = int") := by
  let := asciiOnly
  obtain ⟨d', h1, h2⟩ := C86_generates demoTool 30 demoDisk_plain.1 demoDisk_plain.2 (Or.inl ⟨demo_first, rfl⟩) demo_ready
  refine ⟨d', h1, h2.last [] demoJob [] rfl (by simp), ?_⟩
  rw [h2.other]
  · decide
  · intro j hj
    rw [List.mem_singleton.1 hj]
    decide

/-- A second time, and after `init`. -/
example : letI := asciiOnly
    ∃ d', demoDisk.run (generateCmd demoTool 30) = (d', .done none) ∧ (d'.run (generateCmd demoTool 30)).1 = d' :=
  let := asciiOnly
  let ⟨d', h1, h2, _⟩ := C87_again demoTool 30 demoDisk_plain.1 demoDisk_plain.2 (Or.inl ⟨demo_first, rfl⟩) demo_ready
  ⟨d', h1, h2⟩

example : letI := asciiOnly
    ∃ d1 d2, demoDisk.run initCmd = (d1, .done none) ∧
      d1.run (generateCmd { demoTool with codec := strictCodec } 30) = (d2, .done none) :=
  let := asciiOnly
  let ⟨d1, d2, _, h1, h2, _⟩ := C88_init_generate { demoTool with codec := strictCodec } 30 demoDisk_plain.1 demoDisk_plain.2
    strict_reads demo_first demo_ready
  ⟨d1, d2, h1, h2⟩

/-- A configuration in YAML before `init`. -/
example : ∃ d', (smallDisk [] [([], .dir), ([b!"cddlc.yaml"], .file [])]).run initCmd = (d', .done none) ∧
    FirstConfig d' (some b!"cddlc.json") := by
  have hw : (smallDisk [] [([], .dir), ([b!"cddlc.yaml"], .file [])]).WF :=
    smallDisk_wf (by decide) (by decide) (by decide +kernel) (by decide)
  have hn : (smallDisk [] [([], .dir), ([b!"cddlc.yaml"], .file [])]).names [] = [b!"cddlc.yaml"] := by decide
  obtain ⟨d', h1, h2, _⟩ := C88_hidden hw strict_reads ⟨by decide, ⟨b!"yaml", rfl⟩, fun x hx _ => by
    have hx : x ∈ (smallDisk [] [([], .dir), ([b!"cddlc.yaml"], .file [])]).names [] := hx
    rw [hn] at hx
    rw [List.mem_singleton.1 hx]
    exact Or.inl ⟨[], rfl⟩⟩
  exact ⟨d', h1, h2⟩

/-! ### A second run that fails -/

/-- A configuration with sources in `s` and outputs in the working directory. -/
def flatConfig : Config := { version := b!"1", plugins := [], builds := [some ⟨[], b!"s", b!"."⟩] }

def flatDisk : Disk := smallDisk [b!"w"]
  [([], .dir), ([b!"w"], .dir), ([b!"w", b!"cddlc.json"], .file []), ([b!"w", b!"s"], .dir),
    ([b!"w", b!"s", b!"cddlc.cddl"], .file b!"a = int")]

def flatTool : Tool := { demoTool with codec := constCodec flatConfig }

theorem flat_names : flatDisk.names flatDisk.cwd = [b!"cddlc.json", b!"s"] := by decide

/-- **C87**, second part: there is a disk on which `generate` succeeds, and every later `generate` fails. Here
the code of the source `cddlc.cddl` is written to `cddlc.go` in the working directory, which is then taken
for a configuration file. -/
theorem C87_fails : letI := asciiOnly
    ∃ (tl : Tool) (d d' : Disk) (e : ConfigErr), d.WF ∧ d.run (generateCmd tl 30) = (d', .done none) ∧
      d'.run (generateCmd tl 30) = (d', .done (some (.config e))) := by
  let := asciiOnly
  have hw : flatDisk.WF := smallDisk_wf (by decide) (by decide) (by decide +kernel) (by decide)
  have hp : PlainCwd flatDisk := by unfold PlainCwd; decide
  have hfirst : FirstConfig flatDisk (some b!"cddlc.json") := by
    refine ⟨by rw [flat_names]; simp, config_go.1, fun x hx hc => ?_⟩
    rw [flat_names] at hx
    simp only [List.mem_cons, List.not_mem_nil, or_false] at hx
    rcases hx with rfl | rfl
    · exact Or.inl ⟨[], rfl⟩
    · obtain ⟨s, hs⟩ := hc; simp at hs
  let j : Job := ⟨[b!"w"], b!"cddlc.go", flatTool.header⟩
  have hr : Ready flatTool 30 flatDisk flatConfig [j] := by
    refine ⟨[[j]], .cons ⟨_, rfl, by decide, by decide, ?_⟩ .nil, rfl⟩
    have : sources (flatDisk.list (flatDisk.at_ b!"s")) = [b!"cddlc.cddl"] := by
      have h1 : flatDisk.names (flatDisk.at_ b!"s") = [b!"cddlc.cddl"] := by decide
      have h2 : [b!"cddlc.cddl"].mergeSort bytesLe = [b!"cddlc.cddl"] := by decide_cbv
      unfold Disk.list
      rw [h1, h2]; decide
    rw [this]
    refine .cons ⟨b!"cddlc", b!"a = int", some [], rfl, by decide, demo_code flatTool rfl rfl [], by decide, ?_, ?_, by decide⟩ .nil
    · have : flatDisk.at_ b!"." = [b!"w"] := by decide
      rw [this]; simp [j]
    · intro r hr
      obtain ⟨t, hr⟩ := hr
      match r, hr with
      | [], _ => exact Or.inl (by decide)
      | [a], h =>
        simp [j] at h
        obtain ⟨rfl, _⟩ := h
        exact Or.inl (by decide)
      | a :: b :: r, h => simp [j] at h
  have hc : Configured flatTool.codec flatDisk flatConfig :=
    Or.inr ⟨[], Or.inl ⟨hfirst, by decide, rfl⟩⟩
  obtain ⟨d', h1, h2⟩ := C86_generates flatTool 30 hw hp hc hr
  obtain ⟨d'', h3, h4, h5⟩ := C87_again flatTool 30 hw hp hc hr
  rw [h1] at h3
  cases h3
  rcases h5 with ⟨h5, _⟩ | ⟨_, e, h5⟩
  · exfalso
    have hf := (h5 _).1 hfirst
    have hgo : b!"cddlc.go" ∈ d'.names d'.cwd := by
      rw [h2.wf.listed, h2.cwd, show flatDisk.cwd ++ [b!"cddlc.go"] = j.place from rfl, h2.last [] j [] rfl (by simp)]
      simp
    exact absurd ((bytesLe_iff _ _).2 (hf.2.2 _ hgo ⟨b!"go", rfl⟩)) (by decide)
  · exact ⟨flatTool, flatDisk, d', e, hw, h1, by rw [← h5]; exact Prod.ext h4 rfl⟩

end Cddlc
