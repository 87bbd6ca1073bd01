import Verif.Lemmas.Disk

/-! The command `generate` run alone on a disk. -/

namespace Cddlc
open Spec

/-! ### Calls -/

section
variable {α : Type} {d : Disk}

theorem run_op (o : Op) (k : o.Ans → Prog α) : d.run (.op o k) = (d.after o).run (k (d.ans o)) := rfl

theorem run_of {a : α} {o : Out α} (h : o = .ok a) : d.run (Prog.of o) = (d, .done a) := by subst h; rfl

theorem get_ne {p : Bytes} (h : p ≠ []) : d.get p = d.node (d.at_ p) := if_neg h

theorem run_stat {p : Bytes} (k : Except StatErr Bool → Prog α) :
    d.run (.op (.stat p) k) = d.run (k (d.ans (.stat p))) := rfl

theorem run_names {p : Bytes} (k : List Bytes → Prog α) :
    d.run (.op (.names p) k) = d.run (k (d.ans (.names p))) := rfl

theorem run_getwd (k : Except Unit Bytes → Prog α) :
    d.run (.op .getwd k) = d.run (k (.ok (47 :: joinSlash d.cwd))) := rfl

theorem run_readDir {p : Bytes} (k : Except Unit (List Bytes) → Prog α) :
    d.run (.op (.readDir p) k) = d.run (k (d.ans (.readDir p))) := rfl

theorem run_readFile {p : Bytes} (k : Except Unit Bytes → Prog α) :
    d.run (.op (.readFile p) k) = d.run (k (d.ans (.readFile p))) := rfl

theorem run_mkdirAll {p : Bytes} (k : Except Unit Unit → Prog α) (h : d.ans (.mkdirAll p) = .ok ()) :
    d.run (.op (.mkdirAll p) k) = (d.makeDirs [] (d.at_ p)).run (k (.ok ())) := by
  rw [run_op, h]; unfold Disk.after; rw [h]

theorem run_openTrunc {p : Bytes} (k : Except Unit Unit → Prog α) (h : d.opens p = .ok ()) :
    d.run (.op (.openTrunc p) k) = (d.put (d.at_ p) (.file [])).run (k (.ok ())) := by
  have h' : d.ans (.openTrunc p) = .ok () := h
  rw [run_op, h']; unfold Disk.after; rw [h']

theorem run_openAppend {p : Bytes} (k : Except Unit Unit → Prog α) (h : d.opens p = .ok ()) :
    d.run (.op (.openAppend p) k) = (d.put (d.at_ p) (.file (d.content p))).run (k (.ok ())) := by
  have h' : d.ans (.openAppend p) = .ok () := h
  rw [run_op, h']; unfold Disk.after; rw [h']

theorem run_write {p c c0 : Bytes} (k : Except Unit Unit → Prog α) (hp : p ≠ []) (h : d.node (d.at_ p) = some (.file c0)) :
    d.run (.op (.write p c) k) = (d.put (d.at_ p) (.file (c0 ++ c))).run (k (.ok ())) := by
  have h' : d.ans (.write p c) = .ok () := by
    show (match d.get p with | some (.file _) => _ | _ => _) = _
    rw [get_ne hp, h]
  rw [run_op, h']
  have hc : d.content p = c0 := by unfold Disk.content; rw [h]
  unfold Disk.after; rw [h']; show (d.put (d.at_ p) (.file (d.content p ++ c))).run _ = _; rw [hc]

theorem ans_readFile {p c : Bytes} (hp : p ≠ []) (h : d.node (d.at_ p) = some (.file c)) :
    d.ans (.readFile p) = .ok c := by
  show (match d.get p with | some (.file c) => _ | _ => _) = _
  rw [get_ne hp, h]

theorem ans_readDir {p : Bytes} (hp : p ≠ []) (h : d.node (d.at_ p) = some .dir) :
    d.ans (.readDir p) = .ok (d.list (d.at_ p)) := by
  show (if d.get p = some .dir then _ else _) = _
  rw [get_ne hp, if_pos h]

theorem ans_stat_dir {p : Bytes} (hp : p ≠ []) (h : d.node (d.at_ p) = some .dir) : d.ans (.stat p) = .ok true := by
  show (match d.get p with | some .dir => _ | some (.file _) => _ | none => _) = _
  rw [get_ne hp, h]

theorem ans_stat_none {p : Bytes} (hp : p ≠ []) (h : d.node (d.at_ p) = none) (hb : ¬ d.Blocked (d.at_ p)) :
    d.ans (.stat p) = .error .notExist := by
  show (match d.get p with | some .dir => _ | some (.file _) => _ | none => _) = _
  rw [get_ne hp, h]
  simp only
  rw [if_neg fun h => hb h.2]

end

/-! ### Places -/

/-- The parts of the places that paths lead to are names. -/
theorem at_plain {d : Disk} (h : d.WF) (p : Bytes) : ∀ x ∈ d.at_ p, FileName x := by
  have key : ∀ (xs w : List Bytes), (∀ x ∈ xs, (47 : UInt8) ∉ x) → (∀ x ∈ w, FileName x) →
      ∀ x ∈ xs.foldl Disk.go w, FileName x := by
    intro xs
    induction xs with
    | nil => exact fun w _ hw => hw
    | cons y ys ih =>
      intro w hx hw
      refine ih _ (fun x hxx => hx x (List.mem_cons_of_mem _ hxx)) ?_
      unfold Disk.go
      split
      · exact hw
      · rename_i h1
        split
        · exact fun x hxx => hw x (List.mem_of_mem_tail hxx)
        · rename_i h2
          intro x hxx
          rcases List.mem_cons.1 hxx with rfl | hxx
          · exact ⟨hx _ (List.mem_cons_self ..), (not_or.1 h1).1, (not_or.1 h1).2, h2⟩
          · exact hw x hxx
  intro x hx
  unfold Disk.at_ at hx
  rw [List.mem_reverse] at hx
  refine key _ _ (fun y hy => splitSlash_plain y hy) ?_ x hx
  split
  · simp
  · intro y hy
    exact h.place (by rw [h.here]; simp) y (List.mem_reverse.1 hy)

/-- A name with an extension is a name. -/
theorem fileName_ext {s x : Bytes} (hs : (47 : UInt8) ∉ s) (hx : (47 : UInt8) ∉ x) (hl : 2 ≤ x.length) : FileName (s ++ 46 :: x) := by
  refine ⟨by simp [hs, hx], by simp, ?_, ?_⟩ <;>
  · intro h
    have := congrArg List.length h
    simp at this
    omega

/-- Places whose last part ends in `.go`. -/
def GoEnd (q : List Bytes) : Prop := ∃ b s, q = b ++ [s ++ b!".go"]

theorem go_not_source {s : Bytes} : ¬ IsSource (s ++ b!".go") := by
  rintro ⟨t, h⟩
  have := congrArg List.reverse h
  simp at this

/-- What `generate` leaves alone. -/
structure Frame (d0 d : Disk) : Prop where
  wf : d.WF
  cwd : d.cwd = d0.cwd
  dirs : ∀ q, d0.node q = some .dir → d.node q = some .dir
  newDir : ∀ q, d.node q = some .dir → d0.node q = some .dir ∨
    d0.node q = none ∧ ∀ b x, q = b ++ [x] → ¬ (∃ s, x = s ++ b!".go") ∧ ¬ IsSource x
  newFile : ∀ q c, d.node q = some (.file c) → d0.node q = some (.file c) ∨ GoEnd q
  files : ∀ q c, d0.node q = some (.file c) → ¬ GoEnd q → d.node q = some (.file c)
  names : ∀ q, ∃ new, d.names q = d0.names q ++ new ∧ ∀ x ∈ new, ¬ IsSource x

theorem Frame.refl {d : Disk} (h : d.WF) : Frame d d :=
  ⟨h, rfl, fun _ h => h, fun _ h => Or.inl h, fun _ _ h => Or.inl h, fun _ _ h _ => h, fun q => ⟨[], by simp⟩⟩

theorem Spec.CanMake.frame {d0 d : Disk} (hf : Frame d0 d) {q : List Bytes} (h : CanMake d0 q) : CanMake d q := by
  intro r hr
  rcases h r hr with h1 | ⟨h1, h2⟩
  · exact Or.inl (hf.dirs r h1)
  · cases hn : d.node r with
    | none => exact Or.inr ⟨rfl, h2⟩
    | some e =>
      cases e with
      | dir => exact Or.inl rfl
      | file c =>
        exfalso
        rcases hf.newFile r c hn with h3 | ⟨b, s, h3⟩
        · rw [h1] at h3; cases h3
        · exact (h2 b _ h3).1 ⟨s, rfl⟩

theorem Spec.CanMake.not_blocked {d : Disk} {q : List Bytes} (h : CanMake d q) : ¬ d.Blocked q := by
  rintro ⟨r, hr, c, hc⟩
  rcases h r hr with h1 | ⟨h1, _⟩ <;> rw [h1] at hc <;> cases hc

/-- Directories made where they can be made. -/
theorem makeDirs_can {d : Disk} (hw : d.WF) {q : List Bytes} (hq : ∀ x ∈ q, FileName x) (h : CanMake d q) :
    Frame d (d.makeDirs [] q) ∧ (∀ r, r <+: q → (d.makeDirs [] q).node r = some .dir) ∧
    (∀ r, d.node r ≠ none → (d.makeDirs [] q).node r = d.node r) ∧
    ∀ r, ¬ r <+: q → (d.makeDirs [] q).node r = d.node r := by
  obtain ⟨h1, h2, h3⟩ := makeDirs_spec hw [] q hw.root hq fun r hr c hc =>
    h.not_blocked ⟨r, hr, c, by simpa using hc⟩
  have hnode : ∀ r, (d.makeDirs [] q).node r = d.node r ∨ d.node r = none ∧ r <+: q ∧ (d.makeDirs [] q).node r = some .dir := by
    intro r
    rw [h2]
    split
    · rename_i hh
      obtain ⟨r', hr', rfl⟩ := hh.2
      exact Or.inr ⟨hh.1, hr', rfl⟩
    · exact Or.inl rfl
  have hfun : ∀ r, d.node r ≠ none → (d.makeDirs [] q).node r = d.node r := by
    intro r hr
    rcases hnode r with h | h
    · exact h
    · exact absurd h.1 hr
  refine ⟨⟨h1, makeDirs_cwd .., fun r hr => ?_, fun r hr => ?_, fun r c hr => ?_, fun r c hr _ => ?_, fun r => ?_⟩,
    fun r hr => ?_, hfun, fun r hr => ?_⟩
  · rw [hfun r (by rw [hr]; simp), hr]
  · rcases hnode r with h' | ⟨h', h'', _⟩
    · rw [h'] at hr; exact Or.inl hr
    · rcases h r h'' with h4 | h4
      · exact Or.inl h4
      · exact Or.inr h4
  · rcases hnode r with h' | ⟨_, _, h'⟩
    · rw [h'] at hr; exact Or.inl hr
    · rw [h'] at hr; cases hr
  · rw [hfun r (by rw [hr]; simp), hr]
  · obtain ⟨new, hn, hall⟩ := h3 r
    refine ⟨new, hn, fun x hx => ?_⟩
    obtain ⟨hx1, r', hr', he⟩ := hall x hx
    rw [List.nil_append] at he
    rcases h (r ++ [x]) (he ▸ hr') with h4 | h4
    · rw [h4] at hx1; cases hx1
    · exact (h4.2 r x rfl).2
  · rcases hnode r with h' | h'
    · rw [h']
      rcases h r hr with h4 | h4
      · exact h4
      · rw [h2, if_pos ⟨h4.1, r, hr, rfl⟩] at h'
        rw [← h']
    · exact h'.2.2
  · rcases hnode r with h' | h'
    · exact h'
    · exact absurd h'.2.1 hr

theorem Frame.trans {d0 d1 d2 : Disk} (h1 : Frame d0 d1) (h2 : Frame d1 d2) : Frame d0 d2 := by
  refine ⟨h2.wf, h2.cwd.trans h1.cwd, fun q h => h2.dirs q (h1.dirs q h), fun q h => ?_, fun q c h => ?_,
    fun q c h hg => h2.files q c (h1.files q c h hg) hg, fun q => ?_⟩
  · rcases h2.newDir q h with h | ⟨h, h'⟩
    · exact h1.newDir q h
    · cases hn : d0.node q with
      | none => exact Or.inr ⟨rfl, h'⟩
      | some e =>
        cases e with
        | dir => exact Or.inl rfl
        | file c =>
          exfalso
          by_cases hg : GoEnd q
          · obtain ⟨b, s, hg⟩ := hg
            exact (h' b _ hg).1 ⟨s, rfl⟩
          · rw [h1.files q c hn hg] at h; cases h
  · rcases h2.newFile q c h with h | h
    · exact h1.newFile q c h
    · exact Or.inr h
  · obtain ⟨n1, e1, a1⟩ := h1.names q
    obtain ⟨n2, e2, a2⟩ := h2.names q
    refine ⟨n1 ++ n2, by rw [e2, e1, List.append_assoc], fun x hx => ?_⟩
    rcases List.mem_append.1 hx with hx | hx
    · exact a1 x hx
    · exact a2 x hx

/-- A job that can be done. -/
structure Doable (d : Disk) (j : Job) : Prop where
  plain : ∀ x ∈ j.dir, FileName x
  name : FileName j.name
  can : CanMake d j.dir
  goes : ∃ s, j.name = s ++ b!".go"
  free : d.node (j.dir ++ [j.name]) ≠ some .dir

theorem Doable.frame {d0 d : Disk} (hf : Frame d0 d) {j : Job} (h : Doable d0 j) : Doable d j := by
  refine ⟨h.plain, h.name, h.can.frame hf, h.goes, fun hd => ?_⟩
  rcases hf.newDir _ hd with h1 | ⟨_, h1⟩
  · exact h.free h1
  · exact (h1 _ _ rfl).1 h.goes

theorem not_prefix (q : List Bytes) (x : Bytes) : ¬ (q ++ [x]) <+: q := by
  intro h
  have := h.length_le
  rw [List.length_append, List.length_singleton] at this
  omega

/-- A job done. -/
theorem job_frame {d : Disk} (hw : d.WF) {j : Job} (h : Doable d j) : Frame d (j.put d) := by
  obtain ⟨h1, h2, h3, h4⟩ := makeDirs_can hw h.plain h.can
  refine h1.trans ?_
  have hfree : (d.makeDirs [] j.dir).node (j.dir ++ [j.name]) ≠ some .dir := by
    rw [h4 _ (not_prefix _ _)]; exact h.free
  unfold Job.put
  generalize d.makeDirs [] j.dir = d1 at h1 h2 hfree
  have hgo : GoEnd (j.dir ++ [j.name]) := by
    obtain ⟨s, hs⟩ := h.goes
    exact ⟨j.dir, s, by rw [hs]⟩
  refine ⟨put_wf h1.wf h.name (h2 _ (List.prefix_refl _)) (Or.inr hfree), rfl, fun q hq => ?_, fun q hq => ?_, fun q c hq => ?_,
    fun q c hq hg => ?_, fun q => ?_⟩
  · rw [put_node, if_neg]
    · exact hq
    · rintro rfl; exact hfree hq
  · rw [put_node] at hq
    split at hq
    · cases hq
    · exact Or.inl hq
  · rw [put_node] at hq
    split at hq
    · rename_i h; rw [h]; exact Or.inr hgo
    · exact Or.inl hq
  · rw [put_node, if_neg]
    · exact hq
    · rintro rfl; exact hg hgo
  · rw [put_names]
    split
    · refine ⟨[j.name], rfl, fun x hx => ?_⟩
      rw [List.mem_singleton.1 hx]
      obtain ⟨s, hs⟩ := h.goes
      rw [hs]; exact go_not_source
    · exact ⟨[], by simp⟩

theorem job_node {d : Disk} (hw : d.WF) {j : Job} (h : Doable d j) :
    (j.put d).node (j.dir ++ [j.name]) = some (.file j.content) ∧
    (∀ r, r <+: j.dir → (j.put d).node r = some .dir) ∧
    ∀ r, ¬ r <+: j.dir → r ≠ j.dir ++ [j.name] → (j.put d).node r = d.node r := by
  obtain ⟨h1, h2, h3, h4⟩ := makeDirs_can hw h.plain h.can
  unfold Job.put
  refine ⟨by rw [put_node, if_pos rfl], fun r hr => ?_, fun r hr hn => ?_⟩
  · rw [put_node, if_neg]
    · exact h2 r hr
    · rintro rfl; exact not_prefix _ _ hr
  · rw [put_node, if_neg hn, h4 r hr]

theorem puts_frame {d : Disk} (hw : d.WF) {js : List Job} (h : ∀ j ∈ js, Doable d j) : Frame d (puts js d) := by
  induction js generalizing d with
  | nil => exact .refl hw
  | cons j js ih =>
    have h1 := job_frame hw (h j (List.mem_cons_self ..))
    exact h1.trans (ih h1.wf fun j' hj => (h j' (List.mem_cons_of_mem _ hj)).frame h1)

theorem puts_append (js js' : List Job) (d : Disk) : puts (js ++ js') d = puts js' (puts js d) :=
  List.foldl_append ..

/-! ### Lists of names -/

theorem bytesLe_antisymm (a b : Bytes) (h1 : bytesLe a b = true) (h2 : bytesLe b a = true) : a = b := by
  induction a generalizing b with
  | nil => cases b with
    | nil => rfl
    | cons => cases h2
  | cons x s ih =>
    cases b with
    | nil => cases h1
    | cons y t =>
      unfold bytesLe at h1 h2
      simp only [UInt8.lt_iff_toNat_lt] at h1 h2
      by_cases hl : x.toNat < y.toNat
      · rw [if_neg (by omega), if_pos hl] at h2; cases h2
      · by_cases hl' : y.toNat < x.toNat
        · rw [if_neg hl, if_pos hl'] at h1; cases h1
        · rw [if_neg hl, if_neg hl'] at h1
          rw [if_neg hl', if_neg hl] at h2
          have : x = y := UInt8.toNat_inj.1 (by omega)
          rw [this, ih t h1 h2]

/-- Sorting and choosing may be done in any order. -/
theorem sort_filter (l : List Bytes) (p : Bytes → Bool) :
    (l.mergeSort bytesLe).filter p = (l.filter p).mergeSort bytesLe := by
  have hs := (List.pairwise_mergeSort bytesLe_trans bytesLe_total l).filter p
  have ht := List.pairwise_mergeSort bytesLe_trans bytesLe_total (l.filter p)
  refine List.Perm.eq_of_pairwise (le := fun a b => bytesLe a b = true) ?_ hs ht ?_
  · intro a b _ _ h1 h2; exact bytesLe_antisymm a b h1 h2
  · exact ((List.mergeSort_perm l bytesLe).filter p).trans (List.mergeSort_perm _ bytesLe).symm

theorem sources_frame {d0 d : Disk} (hf : Frame d0 d) (q : List Bytes) : sources (d.list q) = sources (d0.list q) := by
  unfold sources Disk.list
  obtain ⟨new, hn, hall⟩ := hf.names q
  rw [sort_filter, sort_filter, hn, List.filter_append]
  have : new.filter (fun n => decide (IsSource n)) = [] := by
    rw [List.filter_eq_nil_iff]
    intro x hx
    simpa using hall x hx
  rw [this, List.append_nil]

/-! ### The command -/

theorem run_ensureDir {d : Disk} (hw : d.WF) {p : Bytes} (hp : p ≠ []) (h : CanMake d (d.at_ p)) :
    d.run (ensureDir p) = (d.makeDirs [] (d.at_ p), .done none) := by
  unfold ensureDir
  rw [run_stat]
  rcases h _ (List.prefix_refl _) with h1 | ⟨h1, _⟩
  · rw [ans_stat_dir hp h1, makeDirs_same]
    · rfl
    · intro r hr
      rw [List.nil_append]
      rcases hw.prefix hr (by rw [h1]; simp) with rfl | h2
      · rw [h1]; simp
      · rw [h2]; simp
  · rw [ans_stat_none hp h1 h.not_blocked]
    simp only
    rw [run_mkdirAll]
    · rfl
    · classical
      show (if p = [] ∨ d.Blocked (d.at_ p) then _ else _) = _
      rw [if_neg (by rintro (h2 | h2); exacts [hp h2, h.not_blocked h2])]

section
variable [Unicode] (tl : Tool) (n : Nat)

theorem run_generateOpen {d : Disk} {b : List Bytes} {x pkg src out : Bytes} {body : Option Bytes} (ho : out ≠ [])
    (hat : d.at_ out = b ++ [x]) (hn : d.node (b ++ [x]) = some (.file [])) (hc : CodeOf tl n pkg src body) :
    d.run (generateOpen tl n pkg src out) = (d.put (b ++ [x]) (.file (tl.header ++ body.getD [])), .done none) := by
  obtain ⟨res, rules, g, h1, h2, h3, h4, h5⟩ := hc
  unfold generateOpen
  rw [h1]
  simp only [Prog.of, Prog.bind, h3, h2, h4, List.length_nil, Nat.lt_irrefl, gt_iff_lt, if_false]
  rw [run_write (c0 := []) _ ho (by rw [hat]; exact hn), hat]
  simp only [h5, Prog.bind]
  cases body with
  | none => simp [Disk.run]
  | some body =>
    simp only [Option.getD_some]
    rw [run_write (c0 := tl.header) _ ho]
    · show (_, _) = _
      rw [at_of_cwd (put_cwd ..), hat, put_put]
    · rw [at_of_cwd (put_cwd ..), hat, put_node, if_pos rfl]; rfl

theorem run_generateFile {d : Disk} {b : List Bytes} {x pkg path src out : Bytes} {body : Option Bytes} (hp : path ≠ [])
    (hsrc : d.node (d.at_ path) = some (.file src)) (ho : out ≠ []) (hat : d.at_ out = b ++ [x])
    (hb : d.node b = some .dir) (hx : d.node (b ++ [x]) ≠ some .dir) (hc : CodeOf tl n pkg src body) :
    d.run (generateFile tl n pkg path out) = (d.put (b ++ [x]) (.file (tl.header ++ body.getD [])), .done none) := by
  unfold generateFile
  rw [run_readFile, ans_readFile hp hsrc]
  simp only
  rw [run_openTrunc, hat]
  · simp only
    rw [run_generateOpen tl n (b := b) (x := x) ho (by rw [at_of_cwd (put_cwd ..), hat]) (by rw [put_node, if_pos rfl]) hc,
      put_put]
  · unfold Disk.opens
    rw [if_neg ho, hat]
    cases hn : d.node (b ++ [x]) with
    | none =>
      simp only
      rw [if_pos]
      exact ⟨by simp, by simpa using hb⟩
    | some e =>
      cases e with
      | dir => exact absurd hn hx
      | file c => rfl

theorem isJob_doable {d : Disk} (hw : d.WF) {b : BuildConfig} {name : Bytes} {j : Job} (hn : FileName name)
    (h : IsJob tl n d b name j) : Doable d j := by
  obtain ⟨stem, src, body, rfl, _, _, _, rfl, h1, h2⟩ := h
  refine ⟨at_plain hw _, ?_, h1, ⟨stem, rfl⟩, h2⟩
  refine fileName_ext (x := b!"go") (fun hs => hn.1 (List.mem_append_left _ hs)) (by decide) (by decide)

theorem run_files {d0 : Disk} (hw : d0.WF) {b : BuildConfig} (hsd : b.sourceDir ≠ []) (names : List Bytes)
    (hnames : ∀ x ∈ names, FileName x) {js : List Job} (hj : List.Forall₂ (IsJob tl n d0 b) (sources names) js)
    {d : Disk} (hf : Frame d0 d) : d.run (generateFiles tl n b names) = (puts js d, .done none) := by
  induction names generalizing js d with
  | nil =>
    cases hj
    rfl
  | cons name rest ih =>
    have hname := hnames name (List.mem_cons_self ..)
    have hs := source_iff hname.1
    have ih := fun {js} h {d} => @ih (fun x hx => hnames x (List.mem_cons_of_mem _ hx)) js h d
    unfold generateFiles
    by_cases hsrc : IsSource name
    · have : sources (name :: rest) = name :: sources rest := by
        unfold sources
        rw [List.filter_cons, if_pos (by simpa using hsrc)]
      rw [this] at hj
      cases hj with
      | cons h1 h2 =>
        rename_i j js
        have hdo := (isJob_doable tl n hw hname h1).frame hf
        obtain ⟨stem, src, body, rfl, hnode, hcode, hod, hjj, _⟩ := h1
        have hgn : FileName (stem ++ b!".go") := by have := hdo.name; rw [hjj] at this; exact this
        rw [if_neg (not_not.2 (hs.2 hsrc)), run_bind]
        have hatd : d.at_ b.outDir = j.dir := by rw [hjj, at_of_cwd hf.cwd]
        rw [run_ensureDir hf.wf hod (by rw [hatd]; exact hdo.can), hatd]
        simp only
        rw [run_bind]
        obtain ⟨g1, g2, g3, g4⟩ := makeDirs_can hf.wf hdo.plain hdo.can
        have hcwd1 : (d.makeDirs [] j.dir).cwd = d0.cwd := (makeDirs_cwd ..).trans hf.cwd
        have hout : outPath b (stem ++ b!".cddl") = joinPath b.outDir (stem ++ b!".go") := by unfold outPath; rw [trim_append]
        have hsnode : d.node (d0.at_ b.sourceDir ++ [stem ++ b!".cddl"]) = some (.file src) := by
          refine hf.files _ _ hnode ?_
          rintro ⟨b', s, he⟩
          have := (List.append_inj' he rfl).2
          exact go_not_source (s := s) (by rw [← List.singleton_inj.1 this]; exact ⟨stem, rfl⟩)
        rw [run_generateFile (b := j.dir) (x := j.name) (src := src) (body := body)]
        · simp only
          have hstep : (d.makeDirs [] j.dir).put (j.dir ++ [j.name]) (.file (tl.header ++ body.getD [])) = j.put d := by
            unfold Job.put; rw [hjj]
          rw [hstep, ih h2 (hf.trans (job_frame hf.wf hdo))]
          rfl
        · exact joinPath_ne hname
        · rw [at_join _ hsd hname, at_of_cwd hcwd1, g3 _ (by rw [hsnode]; simp), hsnode]
        · rw [hout]; exact joinPath_ne hgn
        · rw [hout, at_join _ hod hgn, at_of_cwd hcwd1, hjj]
        · exact g2 _ (List.prefix_refl _)
        · rw [g4 _ (not_prefix _ _)]; exact hdo.free
        · exact hcode
    · have : sources (name :: rest) = sources rest := by
        unfold sources
        rw [List.filter_cons, if_neg (by simpa using hsrc)]
      rw [if_pos (fun h => hsrc (hs.1 h))]
      exact ih (this ▸ hj) hf

omit [Unicode] in
theorem list_plain {d : Disk} (hw : d.WF) (q : List Bytes) : ∀ x ∈ d.list q, FileName x := by
  intro x hx
  exact hw.plain q x (List.mem_mergeSort.1 hx)

theorem buildReady_doable {d : Disk} (hw : d.WF) {build : Option BuildConfig} {js : List Job}
    (h : BuildReady tl n d build js) : ∀ j ∈ js, Doable d j := by
  obtain ⟨b, _, _, _, h4⟩ := h
  have hn : ∀ x ∈ sources (d.list (d.at_ b.sourceDir)), FileName x := fun x hx =>
    list_plain hw _ x (List.mem_filter.1 hx).1
  revert hn
  generalize sources (d.list (d.at_ b.sourceDir)) = ns at h4
  induction h4 with
  | nil => simp
  | cons h1 _ ih =>
    intro hn j hj
    rcases List.mem_cons.1 hj with rfl | hj
    · exact isJob_doable tl n hw (hn _ (List.mem_cons_self ..)) h1
    · exact ih (fun x hx => hn x (List.mem_cons_of_mem _ hx)) j hj

theorem run_build {d0 : Disk} (hw : d0.WF) {build : Option BuildConfig} {js : List Job} (h : BuildReady tl n d0 build js)
    {d : Disk} (hf : Frame d0 d) : d.run (generateBuild tl n build) = (puts js d, .done none) := by
  obtain ⟨b, rfl, hsd, hdir, hj⟩ := h
  unfold generateBuild
  have hd : d.node (d.at_ b.sourceDir) = some .dir := by rw [at_of_cwd hf.cwd]; exact hf.dirs _ hdir
  simp only
  rw [run_stat, ans_stat_dir hsd hd]
  simp only [Bool.not_true, Bool.false_eq_true, if_false]
  rw [run_readDir, ans_readDir hsd hd]
  simp only
  refine run_files tl n hw hsd _ (list_plain hf.wf _) ?_ hf
  rw [sources_frame hf, at_of_cwd hf.cwd]
  exact hj

theorem run_builds {d0 : Disk} (hw : d0.WF) {builds : List (Option BuildConfig)} {jss : List (List Job)}
    (h : List.Forall₂ (BuildReady tl n d0) builds jss) {d : Disk} (hf : Frame d0 d) :
    d.run (generateBuilds tl n builds) = (puts jss.flatten d, .done none) := by
  induction h generalizing d with
  | nil => rfl
  | cons h1 _ ih =>
    unfold generateBuilds
    rw [run_bind, run_build tl n hw h1 hf]
    simp only
    rw [ih (hf.trans (puts_frame hf.wf fun j hj => (buildReady_doable tl n hw h1 j hj).frame hf)), List.flatten_cons, puts_append]

theorem ready_doable {d : Disk} (hw : d.WF) {c : Config} {js : List Job} (h : Ready tl n d c js) : ∀ j ∈ js, Doable d j := by
  obtain ⟨jss, h1, rfl⟩ := h
  generalize c.builds = bs at h1
  induction h1 with
  | nil => simp
  | cons h1 _ ih =>
    intro j hj
    rcases List.mem_append.1 hj with hj | hj
    · exact buildReady_doable tl n hw h1 j hj
    · exact ih j hj

end

end Cddlc
