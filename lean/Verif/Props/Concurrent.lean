import Verif.Lemmas.Concurrent

/-! Several runs of `generate` at the same time (C102). -/

namespace Cddlc
open Spec

section
variable [Unicode] (tl : Tool) (n : Nat)

omit [Unicode] in
/-- The configuration found first stays the same while the files of a run are made. -/
theorem mid_first {js : List Job} {d d1 e : Disk} (hf1 : Frame d d1)
    (ho : Outcome js d d1) {m : Option Bytes} (h : FirstConfig d m) (h1 : FirstConfig d1 m) (he : Mid js d e) : FirstConfig e m := by
  have hup : ∀ x ∈ e.names e.cwd, x ∈ d1.names d1.cwd := by
    intro x hx
    rw [he.frame.wf.listed, he.frame.cwd] at hx
    rw [hf1.wf.listed, hf1.cwd]
    by_cases hq : ∃ j ∈ js, d.cwd ++ [x] = j.place
    · obtain ⟨j, hj, hq⟩ := hq
      obtain ⟨js1, k, js2, e, g1, g2⟩ := last_job hj
      rw [hq, ← g1, ho.last js1 k js2 e g2]; simp
    · by_cases hd : ∃ j ∈ js, (d.cwd ++ [x]) <+: j.dir
      · obtain ⟨j, hj, hjd⟩ := hd
        rw [ho.dirs j hj _ hjd]; simp
      · have := fun j hj => (⟨fun h => hd ⟨j, hj, h⟩, fun h => hq ⟨j, hj, h⟩⟩ : ¬ (d.cwd ++ [x]) <+: j.dir ∧ d.cwd ++ [x] ≠ j.place)
        rw [ho.other _ this, ← he.other _ this]
        exact hx
  have hdown : ∀ x ∈ d.names d.cwd, x ∈ e.names e.cwd := by
    intro x hx
    obtain ⟨new, hn, _⟩ := he.frame.names d.cwd
    rw [he.frame.cwd, hn]
    exact List.mem_append_left _ hx
  cases m with
  | none => exact fun x hx => h1 x (hup x hx)
  | some m => exact ⟨hdown m h.1, h.2.1, fun x hx hc => h1.2.2 x (hup x hx) hc⟩

/-- **C102**: suppose that `generate` would succeed on a disk twice, one run after the other, as in C86
and C87. Then any number of such runs at the same time, started when they like and with their calls in
any order, all succeed: at any time each of them has ended without an error or is about to make a call. When
all have ended, all files and directories are exactly as one run alone would have left them. -/
theorem C102_concurrent {ι : Type} [Nonempty ι] {d d1 : Disk} (hw : d.WF) (hp : PlainCwd d) {c : Config} {js : List Job}
    (hc : Configured tl.codec d c) (hr : Ready tl n d c js) (h1 : d.run (generateCmd tl n) = (d1, .done none))
    (h2 : (d1.run (generateCmd tl n)).2 = .done none) {m : Machine ι (Option GenErr)}
    (hm : (Machine.start d fun _ => generateCmd tl n).Steps m) :
    (∀ i, m.prog i = .ret none ∨ ∃ o k, m.prog i = .op o k) ∧
    ((∀ i, m.prog i = .ret none) → m.disk.cwd = d1.cwd ∧ m.disk.node = d1.node ∧ m.disk.WF) := by
  have hdo := ready_doable tl n hw hr
  have hf := puts_frame hw hdo
  have ho := puts_outcome hw hdo
  have hd1 : d1 = puts js d := by
    have : d.run (generateCmd tl n) = (puts js d, .done none) := by
      rw [run_configured tl n hw hp hc]
      obtain ⟨jss, h1, rfl⟩ := hr
      exact run_builds tl n hw h1 (.refl hw)
    rw [h1] at this
    exact (Prod.mk.inj this).1
  have hsame : ∀ m, FirstConfig d m ↔ FirstConfig d1 m := by
    obtain ⟨d1', g1, _, g2⟩ := C87_again tl n hw hp hc hr
    rw [h1] at g1
    cases g1
    rcases g2 with ⟨g2, _⟩ | ⟨_, e, g2⟩
    · exact g2
    · rw [h2] at g2; cases g2
  rw [← hd1] at hf ho
  have hbuilds : ∃ ass, List.Forall₂ JobActs js ass ∧ ∀ D F, Does js d D F (generateBuilds tl n c.builds) ass.flatten := by
    obtain ⟨jss, g1, rfl⟩ := hr
    exact does_builds tl n hdo g1 fun j hj => hj
  obtain ⟨ass, hass, hdoes⟩ := hbuilds
  have hcmd : Does js d (fun _ => False) (fun _ => False) (generateCmd tl n) ass.flatten := by
    unfold generateCmd
    refine .peek trivial fun e hg _ => ?_
    show Does js d _ _ ((loadConfigFromDir tl.codec (47 :: joinSlash e.cwd)).bind _) _
    rw [hg.frame.cwd]
    have hkeep : ∀ x content, (x = b!"cddlc.json" ∨ x = b!"cddlc.yaml") → d.node (d.cwd ++ [x]) = some (.file content) →
        ∀ e, Mid js d e → e.node (d.cwd ++ [x]) = some (.file content) := by
      intro x content hx hn e he
      refine he.frame.files _ _ hn ?_
      rintro ⟨b, s, heq⟩
      have hs := List.singleton_inj.1 (List.append_inj' heq rfl).2
      rcases hx with rfl | rfl <;>
      · have := congrArg List.reverse hs
        simp at this
    rcases hc with ⟨g1, rfl⟩ | ⟨content, ⟨g1, g2, g3⟩ | ⟨g1, g2, g3⟩⟩
    · refine does_config tl hp (m := none) (content := []) (fun e he => mid_first hf ho g1 ((hsame _).1 g1) he) (by simp) ?_
      exact hdoes _ _
    · refine does_config tl hp (fun e he => mid_first hf ho g1 ((hsame _).1 g1) he) (content := content)
        (fun x hx e he => ?_) ?_
      · cases hx; exact hkeep _ _ (Or.inl rfl) g2 e he
      · simp only [loaded, if_true, g3, Except.mapError]
        exact hdoes _ _
    · refine does_config tl hp (fun e he => mid_first hf ho g1 ((hsame _).1 g1) he) (content := content)
        (fun x hx e he => ?_) ?_
      · cases hx; exact hkeep _ _ (Or.inr rfl) g2 e he
      · simp only [loaded, if_true, g3, Except.mapError]
        exact hdoes _ _
  have hinv : ∃ D F as, Inv js d m D F as := by
    generalize hs : Machine.start d (fun _ : ι => generateCmd tl n) = m0 at hm
    induction hm with
    | refl =>
      subst hs
      have hfull : ∀ q c, LastContent js q c → Full q c ass.flatten := fun q c hl => jobs_full hass hl
      exact ⟨fun _ _ => False, fun _ _ => False, fun _ => ass.flatten, ⟨.refl hw, fun _ _ => rfl⟩,
        fun _ => ⟨fun _ h => h.elim, fun _ h => h.elim⟩, fun _ => hcmd, fun _ q c hl => Or.inl (hfull q c hl),
        fun q c hl => Or.inl ⟨Classical.arbitrary ι, hfull q c hl⟩⟩
    | step _ hstep ih =>
      obtain ⟨D, F, as, h⟩ := ih
      exact inv_step hdo h hstep
  obtain ⟨D, F, as, h⟩ := hinv
  refine ⟨fun i => ?_, fun he => ?_⟩
  · have := h.does i
    generalize as i = asi at this
    generalize m.prog i = p at this
    cases this with
    | done => exact Or.inl rfl
    | look => exact Or.inr ⟨_, _, rfl⟩
    | mkdir => exact Or.inr ⟨_, _, rfl⟩
    | trunc => exact Or.inr ⟨_, _, rfl⟩
    | write => exact Or.inr ⟨_, _, rfl⟩
  · have ho' := inv_end h he
    exact ⟨ho'.cwd.trans ho.cwd.symm, outcome_node ho' ho, ho'.wf⟩

omit [Unicode] in
theorem steps_trans {ι α : Type} {a b c : Machine ι α} (h1 : a.Steps b) (h2 : b.Steps c) : a.Steps c := by
  induction h2 with
  | refl => exact h1
  | step _ hs ih => exact .step ih hs

omit [Unicode] in
/-- One program may go on alone until it makes no more calls. -/
theorem finish_one {ι α : Type} (p : Prog α) (m : Machine ι α) (i : ι) (h : m.prog i = p) :
    ∃ m', m.Steps m' ∧ (∀ j, j ≠ i → m'.prog j = m.prog j) ∧ ∀ o k, m'.prog i ≠ .op o k := by
  induction p generalizing m with
  | op o k ih =>
    obtain ⟨m', h1, h2, h3⟩ := ih (m.disk.ans o) (m.call i o k) (if_pos rfl)
    refine ⟨m', steps_trans (.step .refl (.call h)) h1, fun j hj => (h2 j hj).trans (if_neg hj), h3⟩
  | _ => exact ⟨m, .refl, fun _ _ => rfl, fun o k hk => by rw [h] at hk; cases hk⟩

omit [Unicode] in
theorem finish_all {ι α : Type} {all : List ι} (hall : ∀ i, i ∈ all) (m : Machine ι α) : ∃ m', m.Steps m' ∧ ∀ i o k, m'.prog i ≠ .op o k := by
  have key : ∀ l : List ι, ∃ m', m.Steps m' ∧ ∀ i ∈ l, ∀ o k, m'.prog i ≠ .op o k := by
    intro l
    induction l with
    | nil => exact ⟨m, .refl, by simp⟩
    | cons i l ih =>
      obtain ⟨m1, h1, h2⟩ := ih
      obtain ⟨m2, h3, h4, h5⟩ := finish_one _ m1 i rfl
      refine ⟨m2, steps_trans h1 h3, fun j hj => ?_⟩
      by_cases hji : j = i
      · rw [hji]; exact h5
      · rw [h4 j hji]; exact h2 j ((List.mem_cons.1 hj).resolve_left hji)
  obtain ⟨m', h1, h2⟩ := key all
  exact ⟨m', h1, fun i => h2 i (hall i)⟩

/-- **C102**, continued: finitely many runs can always come to an end together. -/
theorem C102_ends {ι : Type} [Nonempty ι] {all : List ι} (hall : ∀ i, i ∈ all) {d d1 : Disk} (hw : d.WF) (hp : PlainCwd d) {c : Config} {js : List Job}
    (hc : Configured tl.codec d c) (hr : Ready tl n d c js) (h1 : d.run (generateCmd tl n) = (d1, .done none))
    (h2 : (d1.run (generateCmd tl n)).2 = .done none) {m : Machine ι (Option GenErr)}
    (hm : (Machine.start d fun _ => generateCmd tl n).Steps m) :
    ∃ m', m.Steps m' ∧ ∀ i, m'.prog i = .ret none := by
  obtain ⟨m', h3, h4⟩ := finish_all hall m
  refine ⟨m', h3, fun i => ?_⟩
  rcases (C102_concurrent tl n hw hp hc hr h1 h2 (steps_trans hm h3)).1 i with h | ⟨o, k, h⟩
  · exact h
  · exact absurd h (h4 i o k)

end

/-- Three runs on the disk of C86. -/
example : letI := asciiOnly
    ∀ m, (Machine.start demoDisk fun _ : Fin 3 => generateCmd demoTool 30).Steps m → (∀ i, m.prog i = .ret none) →
      m.disk.node [b!"w", b!"dist", b!"a.go"] = some (.file demoTool.header) := by
  let := asciiOnly
  intro m hm he
  obtain ⟨d1, h1, h2⟩ := C86_generates demoTool 30 demoDisk_plain.1 demoDisk_plain.2 (Or.inl ⟨demo_first, rfl⟩) demo_ready
  have h3 : (d1.run (generateCmd demoTool 30)).2 = .done none := by
    obtain ⟨d1', g1, _, g2⟩ := C87_again demoTool 30 demoDisk_plain.1 demoDisk_plain.2 (Or.inl ⟨demo_first, rfl⟩) demo_ready
    rw [h1] at g1
    cases g1
    rcases g2 with ⟨_, g2⟩ | ⟨⟨x, _, g2⟩, _⟩
    · exact g2
    · exfalso
      have hx := g2.1
      rw [h2.wf.listed, h2.cwd] at hx
      by_cases hd : x = b!"dist"
      · obtain ⟨s, hs⟩ := g2.2.1
        rw [hd] at hs
        have := congrArg List.length hs
        simp at this
      · rw [h2.other] at hx
        · exact demo_first x ((demoDisk_plain.1.listed _ _).2 hx) g2.2.1
        · intro j hj
          rw [List.mem_singleton.1 hj]
          refine ⟨fun hpre => ?_, fun heq => ?_⟩
          · rcases prefix_two hpre with h | h | h
            · cases h
            · simp [demoDisk, smallDisk] at h
            · exact hd (by simpa [demoDisk, smallDisk] using h)
          · simp [demoDisk, smallDisk, Job.place, demoJob] at heq
  rw [(((C102_concurrent demoTool 30 demoDisk_plain.1 demoDisk_plain.2 (Or.inl ⟨demo_first, rfl⟩) demo_ready h1 h3) hm).2 he).2.1]
  exact h2.last [] demoJob [] rfl (by simp)

/-! ### Runs with different command lines -/

/-- A program goes on alone, without writing. -/
inductive Goes {α : Type} : Disk → Prog α → Disk → Prog α → Prop
  | refl {d p} : Goes d p d p
  | op {d o k d' p'} : Looks o → Goes d (k (d.ans o)) d' p' → Goes d (.op o k) d' p'

theorem goes_machine {ι α : Type} {d d' : Disk} {p p' : Prog α} (h : Goes d p d' p') (m : Machine ι α) (i : ι) (hd : m.disk = d)
    (hi : m.prog i = p) : ∃ m', m.Steps m' ∧ m'.disk = d' ∧ m'.prog i = p' ∧ m'.pos = m.pos ∧ ∀ j, j ≠ i → m'.prog j = m.prog j := by
  induction h generalizing m with
  | refl => exact ⟨m, .refl, hd, hi, rfl, fun _ _ => rfl⟩
  | op hl _ ih =>
    rename_i o k _ _ _
    have e : (m.call i o k).disk = m.disk ∧ (m.call i o k).pos = m.pos := by
      show m.diskAfter i o = m.disk ∧ m.posAfter i o = m.pos
      cases o <;> first | exact ⟨rfl, rfl⟩ | cases hl
    obtain ⟨m', h1, h2, h3, h4, h5⟩ := ih (m.call i o k) (e.1.trans hd) (by rw [← hd]; exact if_pos rfl)
    exact ⟨m', steps_trans (.step .refl (.call hi)) h1, h2, h3, h4.trans e.2, fun j hj => (h5 j hj).trans (if_neg hj)⟩

/-- A source and an empty directory for its output. -/
def mixDisk : Disk := smallDisk [b!"w"]
  [([], .dir), ([b!"w"], .dir), ([b!"w", b!"a.cddl"], .file b!"a = int"), ([b!"w", b!"dist"], .dir)]

def mixPlace : List Bytes := [b!"w", b!"dist"] ++ [b!"a.go"]

/-- The disk with some content of the output. -/
def mixed (c : Bytes) : Disk := mixDisk.put mixPlace (.file c)

def genTool : Tool := { demoTool with args := [b!"gen"] }

theorem mix_sort : [b!"a.cddl", b!"dist"].mergeSort bytesLe = [b!"a.cddl", b!"dist"] := by decide_cbv

/-- Up to the opening of the output. -/
theorem mix_goes (tl : Tool) {d : Disk} (h0 : d.cwd = [b!"w"]) (h1 : d.names [b!"w"] = [b!"a.cddl", b!"dist"])
    (h2 : d.node [b!"w"] = some .dir) (h3 : d.node [b!"w", b!"a.cddl"] = some (.file b!"a = int"))
    (h4 : d.node [b!"w", b!"dist"] = some .dir) : letI := asciiOnly
    ∃ k, Goes d (generateCmd tl 30) d (.op (.openTrunc b!"dist/a.go") k) ∧
      k (.ok ()) = ((generateOpen tl 30 [] b!"a = int" b!"dist/a.go").bind fun r =>
        match r with
        | some e => .ret (some e)
        | none => generateFiles tl 30 defaultBuildConfig [b!"dist"]).bind fun r =>
        match r with
        | some e => .ret (some e)
        | none => .ret none := by
  let := asciiOnly
  have hat : d.at_ b!"/w" = [b!"w"] := by unfold Disk.at_; rw [h0]; decide
  have hdot : d.at_ b!"." = [b!"w"] := by unfold Disk.at_; rw [h0]; decide
  have hdist : d.at_ b!"dist/" = [b!"w", b!"dist"] := by unfold Disk.at_; rw [h0]; decide
  have hsrc : d.at_ b!"a.cddl" = [b!"w", b!"a.cddl"] := by unfold Disk.at_; rw [h0]; decide
  refine ⟨?_, .op trivial ?_, ?_⟩
  rotate_left
  · show Goes d ((loadConfigFromDir tl.codec (47 :: joinSlash d.cwd)).bind _) d _
    rw [h0]
    refine .op (o := .names b!"/w") trivial ?_
    have : d.ans (.names b!"/w") = [b!"a.cddl", b!"dist"] := by
      show (if d.get _ = some .dir then _ else _) = _
      rw [get_ne (by decide), hat, if_pos h2, h1]
    rw [this]
    simp only [mix_sort]
    refine .op (o := .stat b!".") trivial ?_
    rw [ans_stat_dir (by decide) (by rw [hdot]; exact h2)]
    refine .op (o := .readDir b!".") trivial ?_
    rw [ans_readDir (by decide) (by rw [hdot]; exact h2)]
    have : d.list (d.at_ b!".") = [b!"a.cddl", b!"dist"] := by unfold Disk.list; rw [hdot, h1, mix_sort]
    rw [this]
    refine .op (o := .stat b!"dist/") trivial ?_
    rw [ans_stat_dir (by decide) (by rw [hdist]; exact h4)]
    refine .op (o := .readFile b!"a.cddl") trivial ?_
    rw [ans_readFile (by decide) (by rw [hsrc]; exact h3)]
    exact .refl
  · rfl

/-- After the output is open. -/
theorem open_tail [Unicode] {tl : Tool} {n : Nat} {pkg src out body : Bytes} (hc : CodeOf tl n pkg src (some body)) :
    ∃ k1 k2, generateOpen tl n pkg src out = .op (.write out tl.header) k1 ∧ k1 (.ok ()) = .op (.write out body) k2 ∧
      ∀ r, k2 r = .ret none := by
  obtain ⟨res, rules, g, h1, h2, h3, h4, h5⟩ := hc
  refine ⟨fun w => match w with
    | .error _ => .ret (some .write)
    | .ok _ => (Prog.of (tl.print (g.string tl.resets).file)).bind fun body =>
      match body with
      | none => .ret none
      | some body => .op (.write out body) fun _ => .ret none, fun _ => .ret none, ?_, ?_, fun _ => rfl⟩
  · unfold generateOpen
    rw [h1]
    simp only [Prog.of, Prog.bind, h3, h2, h4, List.length_nil, Nat.lt_irrefl, gt_iff_lt, if_false]
    congr
  · simp only [h5, Prog.of, Prog.bind]

theorem bind_tail {p : Prog (Option GenErr)} {o1 o2 : Op} {k1 : o1.Ans → Prog (Option GenErr)} {k2 : o2.Ans → Prog (Option GenErr)}
    {a : o1.Ans} (h1 : p = .op o1 k1) (h2 : k1 a = .op o2 k2) (h3 : ∀ r, k2 r = .ret none)
    {f : Option GenErr → Prog (Option GenErr)} (hf : f none = .ret none) :
    ∃ k1 k2, p.bind f = .op o1 k1 ∧ k1 a = .op o2 k2 ∧ ∀ r, k2 r = .ret none := by
  refine ⟨fun x => (k1 x).bind f, fun r => (k2 r).bind f, by rw [h1]; rfl, by dsimp only; rw [h2]; rfl, fun r => ?_⟩
  dsimp only
  rw [h3]
  exact hf

theorem mix_tail (tl : Tool) (hl : tl.lib = demoLib) (hpr : tl.print = demoTool.print) {p : Prog (Option GenErr)} : letI := asciiOnly
    p = (((generateOpen tl 30 [] b!"a = int" b!"dist/a.go").bind fun r =>
        match r with
        | some e => .ret (some e)
        | none => generateFiles tl 30 defaultBuildConfig [b!"dist"]).bind fun r =>
        match r with
        | some e => .ret (some e)
        | none => .ret none) →
    ∃ k1 k2, p = .op (.write b!"dist/a.go" tl.header) k1 ∧ k1 (.ok ()) = .op (.write b!"dist/a.go" []) k2 ∧
      ∀ r, k2 r = .ret none := by
  let := asciiOnly
  intro hp
  obtain ⟨k1, k2, h1, h2, h3⟩ := open_tail (out := b!"dist/a.go") (demo_code tl hl hpr [])
  have hf : generateFiles tl 30 defaultBuildConfig [b!"dist"] = .ret none := by
    unfold generateFiles
    rw [if_pos (by decide)]
    rfl
  obtain ⟨k1, k2, h1, h2, h3⟩ := bind_tail (f := fun r => match r with
    | some e => .ret (some e)
    | none => generateFiles tl 30 defaultBuildConfig [b!"dist"]) h1 h2 h3 hf
  obtain ⟨k1, k2, h1, h2, h3⟩ := bind_tail (f := fun r => match r with
    | some e => .ret (some e)
    | none => .ret none) h1 h2 h3 rfl
  exact ⟨k1, k2, hp.trans h1, h2, h3⟩

section
variable {m : Machine Bool (Option GenErr)} {i : Bool}

theorem mix_at {d : Disk} (h : d.cwd = [b!"w"]) : d.at_ b!"dist/a.go" = mixPlace := by unfold Disk.at_; rw [h]; decide

theorem mix_open {d : Disk} {k} (hd : m.disk = d) (hi : m.prog i = .op (.openTrunc b!"dist/a.go") k)
    (h0 : d = mixDisk ∨ ∃ c, d = mixed c) :
    ∃ m', m.Steps m' ∧ m'.disk = mixed [] ∧ m'.prog i = k (.ok ()) ∧ m'.pos i mixPlace = some 0 ∧
      ∀ j, j ≠ i → m'.prog j = m.prog j ∧ m'.pos j = m.pos j := by
  have hcwd : m.disk.cwd = [b!"w"] := by rcases h0 with h | ⟨c, h⟩ <;> rw [hd, h] <;> rfl
  have hat := mix_at hcwd
  have hans : m.disk.ans (.openTrunc b!"dist/a.go") = .ok () := by
    show m.disk.opens _ = _
    unfold Disk.opens
    rw [if_neg (by decide), hat]
    rcases h0 with h | ⟨c, h⟩
    · rw [hd, h]
      have : mixDisk.node mixPlace = none := by decide
      rw [this]
      simp only
      exact if_pos ⟨by decide, by decide⟩
    · rw [hd, h]
      have : (mixed c).node mixPlace = some (.file c) := by unfold mixed; rw [put_node, if_pos rfl]
      rw [this]
  refine ⟨_, .step .refl (.call hi), ?_, ?_, ?_, fun j hj => ⟨if_neg hj, ?_⟩⟩
  · show m.disk.after (.openTrunc b!"dist/a.go") = _
    unfold Disk.after
    rw [hans]
    simp only
    rw [hat]
    rcases h0 with h | ⟨c, h⟩ <;> rw [hd, h]
    · rfl
    · exact put_put ..
  · exact (if_pos rfl).trans (by rw [hans])
  · show m.posAfter i (.openTrunc b!"dist/a.go") i mixPlace = _
    unfold Machine.posAfter
    rw [hans]
    simp only
    unfold Machine.move
    rw [if_pos ⟨rfl, hat.symm⟩]
  · show m.posAfter i (.openTrunc b!"dist/a.go") j = _
    unfold Machine.posAfter
    rw [hans]
    funext q
    simp only
    unfold Machine.move
    rw [if_neg fun h => hj h.1]

theorem mix_write {c b : Bytes} {x : Nat} {k} (hd : m.disk = mixed c) (hi : m.prog i = .op (.write b!"dist/a.go" b) k)
    (hp : m.pos i mixPlace = some x) :
    ∃ m', m.Steps m' ∧ m'.disk = mixed (writeAt c x b) ∧ m'.prog i = k (.ok ()) ∧ m'.pos i mixPlace = some (x + b.length) ∧
      ∀ j, j ≠ i → m'.prog j = m.prog j ∧ m'.pos j = m.pos j := by
  have hat : m.disk.at_ b!"dist/a.go" = mixPlace := mix_at (by rw [hd]; rfl)
  have hn : m.disk.node mixPlace = some (.file c) := by rw [hd]; unfold mixed; rw [put_node, if_pos rfl]
  have hans : m.disk.ans (.write b!"dist/a.go" b) = .ok () := by
    show (match m.disk.get _ with | some (.file _) => _ | _ => _) = _
    rw [get_ne (by decide), hat, hn]
  have hcont : m.disk.content b!"dist/a.go" = c := by
    unfold Disk.content
    rw [hat, hn]
  refine ⟨_, .step .refl (.call hi), ?_, ?_, ?_, fun j hj => ⟨if_neg hj, ?_⟩⟩
  · show m.diskAfter i (.write b!"dist/a.go" b) = _
    unfold Machine.diskAfter
    rw [hans]
    simp only
    rw [hcont, hat, hp, hd]
    exact put_put ..
  · exact (if_pos rfl).trans (by rw [hans])
  · show m.posAfter i (.write b!"dist/a.go" b) i mixPlace = _
    unfold Machine.posAfter
    rw [hans]
    simp only
    unfold Machine.move
    rw [if_pos ⟨rfl, hat.symm⟩, hat, hp]
    rfl
  · show m.posAfter i (.write b!"dist/a.go" b) j = _
    unfold Machine.posAfter
    rw [hans]
    funext q
    simp only
    unfold Machine.move
    rw [if_neg fun h => hj h.1]

end

set_option maxRecDepth 100000 in
/-- **C102**, limit: the header has the command line in it, so runs with different command lines may mix. Here
`cddlc generate` and `cddlc gen` run at the same time and both succeed, and the output is neither that of
the one nor that of the other. -/
theorem C102_mixed : letI := asciiOnly
    ∃ (m : Machine Bool (Option GenErr)) (c : Bytes),
      (Machine.start mixDisk fun b => generateCmd (if b then genTool else demoTool) 30).Steps m ∧
      (∀ i, m.prog i = .ret none) ∧ m.disk.node mixPlace = some (.file c) ∧ c ≠ demoTool.header ∧ c ≠ genTool.header := by
  let := asciiOnly
  let m0 : Machine Bool (Option GenErr) := Machine.start mixDisk fun b => generateCmd (if b then genTool else demoTool) 30
  have e1 : ∀ c, (mixed c).names [b!"w"] = [b!"a.cddl", b!"dist"] := by
    intro c
    unfold mixed mixPlace
    rw [put_names, if_neg]
    · decide
    · rintro ⟨h, _⟩; cases h
  have e2 : ∀ c q, q ≠ mixPlace → (mixed c).node q = mixDisk.node q := by
    intro c q hq
    unfold mixed
    rw [put_node, if_neg hq]
  -- the first run opens the output
  obtain ⟨k, g1, g2⟩ := mix_goes demoTool (d := mixDisk) rfl (by decide) (by decide) (by decide) (by decide)
  obtain ⟨m1, s1, a1, a2, a3, a4⟩ := goes_machine g1 m0 false rfl rfl
  obtain ⟨m2, s2, b1, b2, b3, b4⟩ := mix_open a1 a2 (Or.inl rfl)
  rw [g2] at b2
  obtain ⟨k1, k2, t1, t2, t3⟩ := mix_tail demoTool rfl rfl b2
  -- the second run opens it too
  obtain ⟨k', g1', g2'⟩ := mix_goes genTool (d := mixed []) rfl (e1 _) (by rw [e2 _ _ (by decide)]; decide)
    (by rw [e2 _ _ (by decide)]; decide) (by rw [e2 _ _ (by decide)]; decide)
  have hstart : m2.prog true = generateCmd genTool 30 := ((b4 true (by decide)).1).trans (a4 true (by decide))
  obtain ⟨m3, s3, c1, c2, c3, c4⟩ := goes_machine g1' m2 true b1 hstart
  obtain ⟨m4, s4, d1, d2, d3, d4⟩ := mix_open c1 c2 (Or.inr ⟨_, rfl⟩)
  rw [g2'] at d2
  obtain ⟨k1', k2', t1', t2', t3'⟩ := mix_tail genTool rfl rfl d2
  -- the first run writes
  have hp4 : m4.prog false = .op (.write b!"dist/a.go" demoTool.header) k1 := by
    rw [(d4 false (by decide)).1, c4 false (by decide), t1]
  have hx4 : m4.pos false mixPlace = some 0 := by rw [(d4 false (by decide)).2, c3, b3]
  obtain ⟨m5, s5, f1, f2, f3, f4⟩ := mix_write d1 hp4 hx4
  rw [t2] at f2
  obtain ⟨m6, s6, h1, h2, h3, h4⟩ := mix_write f1 f2 f3
  rw [t3] at h2
  -- the second run writes
  have hp6 : m6.prog true = .op (.write b!"dist/a.go" genTool.header) k1' := by
    rw [(h4 true (by decide)).1, (f4 true (by decide)).1, t1']
  have hx6 : m6.pos true mixPlace = some 0 := by rw [(h4 true (by decide)).2, (f4 true (by decide)).2, d3]
  obtain ⟨m7, s7, i1, i2, i3, i4⟩ := mix_write h1 hp6 hx6
  rw [t2'] at i2
  obtain ⟨m8, s8, j1, j2, j3, j4⟩ := mix_write i1 i2 i3
  rw [t3'] at j2
  refine ⟨m8, _, steps_trans s1 (steps_trans s2 (steps_trans s3 (steps_trans s4 (steps_trans s5 (steps_trans s6
    (steps_trans s7 s8)))))), fun i => ?_, by rw [j1]; unfold mixed; rw [put_node, if_pos rfl], by decide_cbv, by decide_cbv⟩
  cases i with
  | true => exact j2
  | false => rw [(j4 false (by decide)).1, (i4 false (by decide)).1, h2]

end Cddlc
