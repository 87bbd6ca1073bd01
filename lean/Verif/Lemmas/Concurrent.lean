import Verif.Spec.Concurrent
import Verif.Props.Disk

/-! Several runs of `generate` at the same time. -/

namespace Cddlc
open Spec

/-! ### Writes at positions -/

/-- A piece of `c` written at its position in a file that begins like `c`. -/
theorem writeAt_piece {c old b rest : Bytes} {k k' : Nat} (hk : k ≤ c.length) (hb : b ++ rest = c.drop k)
    (hk' : k' ≤ old.length) (hl : old.length ≤ c.length) (ht : old.take k' = c.take k') :
    rest = c.drop (k + b.length) ∧ k + b.length ≤ c.length ∧
    old.length ≤ (writeAt old k b).length ∧ k + b.length ≤ (writeAt old k b).length ∧
    (writeAt old k b).length ≤ c.length ∧
    (writeAt old k b).take k' = c.take k' ∧
    (k' = k → (writeAt old k b).take (k + b.length) = c.take (k + b.length)) := by
  have hlen : (b ++ rest).length = (c.drop k).length := by rw [hb]
  rw [List.length_append, List.length_drop] at hlen
  have hrest : rest = c.drop (k + b.length) := by
    rw [← List.drop_drop, ← hb, List.drop_left]
  have hwl : (writeAt old k b).length = max old.length (k + b.length) := by
    unfold writeAt
    simp only [List.length_append, List.length_take, List.length_replicate, List.length_drop]
    omega
  have hget : ∀ x, x < k' ∨ k ≤ x ∧ x < k + b.length → (writeAt old k b)[x]? = c[x]? := by
    intro x hx
    by_cases hin : k ≤ x ∧ x < k + b.length
    · have h1 : (writeAt old k b)[x]? = b[x - k]? := by
        unfold writeAt
        rw [List.append_assoc, List.getElem?_append_right (by simp; omega), List.getElem?_append_left]
        · congr 1; simp; omega
        · simp; omega
      have h2 : c[x]? = (c.drop k)[x - k]? := by
        rw [List.getElem?_drop]; congr 1; omega
      rw [h1, h2, ← hb, List.getElem?_append_left (by omega)]
    · have hx' : x < k' := by omega
      have h3 : old[x]? = c[x]? := by
        have := congrArg (·[x]?) ht
        simpa [List.getElem?_take, hx'] using this
      rw [← h3]
      by_cases hxk : x < k
      · unfold writeAt
        rw [List.append_assoc, List.append_assoc, List.getElem?_append_left (by simp; omega), List.getElem?_take, if_pos hxk]
      · unfold writeAt
        rw [List.getElem?_append_right (by simp; omega), List.getElem?_drop]
        congr 1
        simp
        omega
  have htake : ∀ y, (∀ x, x < y → x < k' ∨ k ≤ x ∧ x < k + b.length) → (writeAt old k b).take y = c.take y := by
    intro y hy
    apply List.ext_getElem?
    intro x
    rw [List.getElem?_take, List.getElem?_take]
    split
    · exact hget x (hy x ‹_›)
    · rfl
  refine ⟨hrest, by omega, by omega, by omega, by omega, htake k' fun x hx => Or.inl hx, fun he => htake _ fun x hx => by omega⟩

/-! ### What is left to do -/

/-- The calls that matter to the content of files. -/
inductive FAct where
  | trunc (q : List Bytes)
  | write (q : List Bytes) (c : Bytes)

/-- All that is still to be written to a place. -/
def written (q : List Bytes) : List FAct → Bytes
  | [] => []
  | .trunc _ :: as => written q as
  | .write r c :: as => if r = q then c ++ written q as else written q as

/-- The file is not emptied again. -/
def NoTrunc (q : List Bytes) (as : List FAct) : Prop := ∀ a ∈ as, a ≠ .trunc q

/-- The file is emptied once more, and then this is written. -/
def Full (q : List Bytes) (c : Bytes) (as : List FAct) : Prop :=
  ∃ as1 as2, as = as1 ++ .trunc q :: as2 ∧ NoTrunc q as2 ∧ written q as2 = c

/-- The file is emptied once more, or the rest is written at the position reached. -/
def Stage (q : List Bytes) (c : Bytes) (pos : Option Nat) (as : List FAct) : Prop :=
  Full q c as ∨ (NoTrunc q as ∧ ∃ k, pos = some k ∧ k ≤ c.length ∧ written q as = c.drop k)

theorem Full.tail {q : List Bytes} {c : Bytes} {a : FAct} {as : List FAct} (h : Full q c (a :: as)) (ha : a ≠ .trunc q) :
    Full q c as := by
  obtain ⟨as1, as2, h1, h2, h3⟩ := h
  cases as1 with
  | nil => exact absurd (List.cons.inj h1).1 ha
  | cons b as1 => exact ⟨as1, as2, (List.cons.inj h1).2, h2, h3⟩

theorem Full.trunc {q : List Bytes} {c : Bytes} {as : List FAct} (h : Full q c (.trunc q :: as)) :
    Full q c as ∨ (NoTrunc q as ∧ written q as = c) := by
  obtain ⟨as1, as2, h1, h2, h3⟩ := h
  cases as1 with
  | nil => rw [List.nil_append] at h1; cases h1; exact Or.inr ⟨h2, h3⟩
  | cons b as1 => exact Or.inl ⟨as1, as2, (List.cons.inj h1).2, h2, h3⟩

theorem Full.not_noTrunc {q : List Bytes} {c : Bytes} {as : List FAct} (h : Full q c as) : ¬ NoTrunc q as := by
  obtain ⟨as1, as2, rfl, _⟩ := h
  exact fun hn => hn (.trunc q) (by simp) rfl

theorem Stage.other {q : List Bytes} {c : Bytes} {pos : Option Nat} {a : FAct} {as : List FAct} (h : Stage q c pos (a :: as))
    (h1 : a ≠ .trunc q) (h2 : ∀ b, a ≠ .write q b) : Stage q c pos as := by
  rcases h with h | ⟨hn, k, hk, hl, hw⟩
  · exact Or.inl (h.tail h1)
  · refine Or.inr ⟨fun b hb => hn b (List.mem_cons_of_mem _ hb), k, hk, hl, ?_⟩
    rw [← hw]
    cases a with
    | trunc r => rfl
    | write r b =>
      show _ = if r = q then _ else _
      rw [if_neg]
      rintro rfl
      exact h2 b rfl

/-- The actions of one job. -/
def JobActs (j : Job) (as : List FAct) : Prop :=
  ∃ cs : List Bytes, as = .trunc j.place :: cs.map (.write j.place) ∧ cs.flatten = j.content

theorem written_append (q : List Bytes) (as bs : List FAct) : written q (as ++ bs) = written q as ++ written q bs := by
  induction as with
  | nil => rfl
  | cons a as ih =>
    cases a with
    | trunc => exact ih
    | write r c =>
      show (if r = q then c ++ written q (as ++ bs) else written q (as ++ bs)) = (if r = q then _ else _) ++ _
      split
      · rw [ih, List.append_assoc]
      · exact ih

theorem written_writes (q : List Bytes) (cs : List Bytes) : written q (cs.map (.write q)) = cs.flatten := by
  induction cs with
  | nil => rfl
  | cons c cs ih =>
    show (if q = q then _ else _) = _
    rw [if_pos rfl, ih, List.flatten_cons]

theorem jobActs_other {j : Job} {as : List FAct} (h : JobActs j as) {q : List Bytes} (hq : j.place ≠ q) :
    NoTrunc q as ∧ written q as = [] := by
  obtain ⟨cs, rfl, hcs⟩ := h
  clear hcs
  constructor
  · intro a ha
    rcases List.mem_cons.1 ha with rfl | ha
    · intro h; exact hq (FAct.trunc.inj h)
    · obtain ⟨c, _, rfl⟩ := List.mem_map.1 ha
      intro h; cases h
  · show written q (cs.map _) = []
    induction cs with
    | nil => rfl
    | cons c cs ih =>
      show (if j.place = q then _ else _) = _
      rw [if_neg hq]; exact ih

/-- The content that the last job for a place gives it. -/
def LastContent (js : List Job) (q : List Bytes) (c : Bytes) : Prop :=
  ∃ js1 j js2, js = js1 ++ j :: js2 ∧ j.place = q ∧ j.content = c ∧ ∀ k ∈ js2, k.place ≠ q

theorem jobs_full {js : List Job} {ass : List (List FAct)} (h : List.Forall₂ JobActs js ass) {q : List Bytes} {c : Bytes}
    (hl : LastContent js q c) : Full q c ass.flatten := by
  obtain ⟨js1, j, js2, rfl, rfl, rfl, hlast⟩ := hl
  have h2 := (List.forall₂_drop_append _ _ _ h.flip).flip
  have h0 : ass = ass.take js1.length ++ ass.drop js1.length := (List.take_append_drop ..).symm
  generalize ass.take js1.length = ass1 at h0
  generalize ass.drop js1.length = ass' at h0 h2
  subst h0
  cases h2 with
  | cons h3 h4 =>
    rename_i as ass2
    obtain ⟨cs, rfl, hc⟩ := h3
    have key : NoTrunc j.place ass2.flatten ∧ written j.place ass2.flatten = [] := by
      clear h
      induction h4 with
      | nil => exact ⟨fun a ha => by simp at ha, rfl⟩
      | cons h5 _ ih =>
        obtain ⟨g1, g2⟩ := jobActs_other h5 (hlast _ (List.mem_cons_self ..))
        obtain ⟨g3, g4⟩ := ih fun k hk => hlast k (List.mem_cons_of_mem _ hk)
        refine ⟨fun a ha => ?_, by rw [List.flatten_cons, written_append, g2, g4]; rfl⟩
        rw [List.flatten_cons] at ha
        rcases List.mem_append.1 ha with ha | ha
        · exact g1 a ha
        · exact g3 a ha
    refine ⟨ass1.flatten, cs.map (.write j.place) ++ ass2.flatten, by simp, fun a ha => ?_, ?_⟩
    · rcases List.mem_append.1 ha with ha | ha
      · obtain ⟨c, _, rfl⟩ := List.mem_map.1 ha
        intro h; cases h
      · exact key.1 a ha
    · rw [written_append, key.2, List.append_nil, written_writes, hc]

/-! ### Disks in between -/

/-- What the disk may be while jobs are done. -/
structure Mid (js : List Job) (d0 d : Disk) : Prop where
  frame : Frame d0 d
  other : ∀ q, (∀ j ∈ js, ¬ q <+: j.dir ∧ q ≠ j.place) → d.node q = d0.node q

theorem put_frame {d : Disk} (hw : d.WF) {b : List Bytes} {x c : Bytes} (hx : FileName x) (hb : d.node b = some .dir)
    (hs : ∃ s, x = s ++ b!".go") (hfree : d.node (b ++ [x]) ≠ some .dir) : Frame d (d.put (b ++ [x]) (.file c)) := by
  have hgo : GoEnd (b ++ [x]) := by
    obtain ⟨s, hs⟩ := hs
    exact ⟨b, s, by rw [hs]⟩
  refine ⟨put_wf hw hx hb (Or.inr hfree), rfl, fun q hq => ?_, fun q hq => ?_, fun q c hq => ?_,
    fun q c hq hg => ?_, fun q => ?_⟩
  · rw [put_node, if_neg]
    · exact hq
    · rintro rfl; exact hfree hq
  · rw [put_node] at hq
    split at hq
    · cases hq
    · exact Or.inl hq
  · rw [put_node] at hq
    split at hq
    · rename_i h; rw [h]; exact Or.inr hgo
    · exact Or.inl hq
  · rw [put_node, if_neg]
    · exact hq
    · rintro rfl; exact hg hgo
  · rw [put_names]
    split
    · refine ⟨[x], rfl, fun y hy => ?_⟩
      rw [List.mem_singleton.1 hy]
      obtain ⟨s, hs⟩ := hs
      rw [hs]; exact go_not_source
    · exact ⟨[], by simp⟩

section
variable {js : List Job} {d0 d : Disk}

theorem Mid.put (hg : Mid js d0 d) {j : Job} (hj : j ∈ js) (hdo : Doable d0 j) (hb : d.node j.dir = some .dir) (c : Bytes) :
    Mid js d0 (d.put j.place (.file c)) := by
  have hdo' := hdo.frame hg.frame
  refine ⟨hg.frame.trans (put_frame hg.frame.wf hdo'.name hb hdo'.goes hdo'.free), fun q hq => ?_⟩
  rw [put_node, if_neg (hq j hj).2]
  exact hg.other q hq

theorem Mid.dirs (hg : Mid js d0 d) {j : Job} (hj : j ∈ js) (hdo : Doable d0 j) {r : List Bytes} (hr : r <+: j.dir) :
    Mid js d0 (d.makeDirs [] r) ∧ (∀ q, q <+: r → (d.makeDirs [] r).node q = some .dir) ∧
    (∀ q, d.node q ≠ none → (d.makeDirs [] r).node q = d.node q) := by
  have hdo' := hdo.frame hg.frame
  have hcan : CanMake d r := fun q hq => hdo'.can q (hq.trans hr)
  obtain ⟨h1, h2, h3, h4⟩ := makeDirs_can hg.frame.wf (fun x hx => hdo.plain x (hr.subset hx)) hcan
  refine ⟨⟨hg.frame.trans h1, fun q hq => ?_⟩, h2, h3⟩
  rw [h4 q fun h => (hq j hj).1 (h.trans hr)]
  exact hg.other q hq

end

/-! ### What one program does -/

/-- What a program knows of the disk: some directories and some files exist. -/
def Knows (D F : List Bytes → Prop) (d : Disk) : Prop :=
  (∀ q, D q → d.node q = some .dir) ∧ ∀ q, F q → ∃ c, d.node q = some (.file c)

/-- Calls that do not change the disk. -/
def Looks : Op → Prop
  | .mkdirAll _ | .openTrunc _ | .openAppend _ | .write _ _ => False
  | _ => True

/-- The program ends without an error after these actions, whatever others make of the disk. -/
inductive Does (js : List Job) (d0 : Disk) : (D F : List Bytes → Prop) → Prog (Option GenErr) → List FAct → Prop
  | done {D F} : Does js d0 D F (.ret none) []
  | look {D F o k as} (D' : Disk → List Bytes → Prop) : Looks o →
      (∀ d, Mid js d0 d → Knows D F d → ∀ q, D' d q → d.node q = some .dir) →
      (∀ d, Mid js d0 d → Knows D F d → Does js d0 (fun q => D q ∨ D' d q) F (k (d.ans o)) as) →
      Does js d0 D F (.op o k) as
  | mkdir {D F p k as j} : p ≠ [] → j ∈ js → d0.at_ p = j.dir →
      Does js d0 (fun q => D q ∨ q <+: j.dir) F (k (.ok ())) as → Does js d0 D F (.op (.mkdirAll p) k) as
  | trunc {D F p k as j} : p ≠ [] → j ∈ js → d0.at_ p = j.place → D j.dir →
      Does js d0 D (fun q => F q ∨ q = j.place) (k (.ok ())) as →
      Does js d0 D F (.op (.openTrunc p) k) (.trunc j.place :: as)
  | write {D F p c k as j} : p ≠ [] → j ∈ js → d0.at_ p = j.place → D j.dir → F j.place → Does js d0 D F (k (.ok ())) as →
      Does js d0 D F (.op (.write p c) k) (.write j.place c :: as)

section
variable {js : List Job} {d0 : Disk}

theorem Does.mono {D F D' F' : List Bytes → Prop} {p : Prog (Option GenErr)} {as : List FAct} (h : Does js d0 D F p as)
    (hD : ∀ q, D q → D' q) (hF : ∀ q, F q → F' q) : Does js d0 D' F' p as := by
  induction h generalizing D' F' with
  | done => exact .done
  | look D1 ho h1 h2 ih =>
    have hk : ∀ d, Knows D' F' d → Knows _ _ d := fun d hk => ⟨fun q hq => hk.1 q (hD q hq), fun q hq => hk.2 q (hF q hq)⟩
    exact .look D1 ho (fun d hg hk' => h1 d hg (hk d hk')) fun d hg hk' =>
      ih d hg (hk d hk') (fun q hq => hq.imp (hD q) id) hF
  | mkdir h1 h2 h3 _ ih => exact .mkdir h1 h2 h3 (ih (fun q hq => hq.imp (hD q) id) hF)
  | trunc h1 h2 h3 h4 _ ih => exact .trunc h1 h2 h3 (hD _ h4) (ih hD fun q hq => hq.imp (hF q) id)
  | write h1 h2 h3 h4 h5 _ ih => exact .write h1 h2 h3 (hD _ h4) (hF _ h5) (ih hD hF)

/-- A look at the disk that only shows what is known. -/
theorem Does.peek {D F : List Bytes → Prop} {o : Op} {k : o.Ans → Prog (Option GenErr)} {as : List FAct} (ho : Looks o)
    (h : ∀ d, Mid js d0 d → Knows D F d → Does js d0 D F (k (d.ans o)) as) : Does js d0 D F (.op o k) as :=
  .look (fun _ _ => False) ho (fun _ _ _ _ h => h.elim) fun d hg hk => (h d hg hk).mono (fun _ hq => Or.inl hq) fun _ hq => hq

/-- One program after another. -/
theorem Does.bind {D F : List Bytes → Prop} {p : Prog (Option GenErr)} {f : Option GenErr → Prog (Option GenErr)} {as bs : List FAct}
    (h : Does js d0 D F p as) (hf : Does js d0 D F (f none) bs) : Does js d0 D F (p.bind f) (as ++ bs) := by
  induction h with
  | done => exact hf
  | look D1 ho h1 _ ih => exact .look D1 ho h1 fun d hg hk => ih d hg hk (hf.mono (fun _ hq => Or.inl hq) fun _ hq => hq)
  | mkdir h1 h2 h3 _ ih => exact .mkdir h1 h2 h3 (ih (hf.mono (fun _ hq => Or.inl hq) fun _ hq => hq))
  | trunc h1 h2 h3 h4 _ ih => exact .trunc h1 h2 h3 h4 (ih (hf.mono (fun _ hq => hq) fun _ hq => Or.inl hq))
  | write h1 h2 h3 h4 h5 _ ih => exact .write h1 h2 h3 h4 h5 (ih hf)

theorem does_ensureDir {D F : List Bytes → Prop} {p : Bytes} {f : Option GenErr → Prog (Option GenErr)} {as : List FAct} {j : Job}
    (hj : j ∈ js) (hdo : Doable d0 j) (hp : p ≠ []) (hat : d0.at_ p = j.dir)
    (h : Does js d0 (fun q => D q ∨ q <+: j.dir) F (f none) as) : Does js d0 D F ((ensureDir p).bind f) as := by
  unfold ensureDir
  refine .look (fun d q => d.node j.dir = some .dir ∧ q <+: j.dir) trivial (fun d hg _ q hq => ?_) fun d hg _ => ?_
  · rcases hg.frame.wf.prefix hq.2 (by rw [hq.1]; simp) with rfl | h2
    · exact hq.1
    · exact h2
  · have hatd : d.at_ p = j.dir := by rw [at_of_cwd hg.frame.cwd, hat]
    have hcan := (hdo.frame hg.frame).can
    rcases hcan _ (List.prefix_refl _) with h1 | ⟨h1, _⟩
    · rw [ans_stat_dir hp (by rw [hatd]; exact h1)]
      exact h.mono (fun q hq => hq.imp id fun hq => ⟨h1, hq⟩) fun _ hq => hq
    · rw [ans_stat_none hp (by rw [hatd]; exact h1) (by rw [hatd]; exact hcan.not_blocked)]
      exact .mkdir hp hj hat (h.mono (fun q hq => hq.imp Or.inl id) fun _ hq => hq)

end

section
variable [Unicode] (tl : Tool) (n : Nat) {js : List Job} {d0 : Disk}

theorem does_open {D F : List Bytes → Prop} {j : Job} {pkg src out : Bytes} {body : Option Bytes}
    (hj : j ∈ js) (ho : out ≠ []) (hat : d0.at_ out = j.place) (hD : D j.dir) (hF : F j.place) (hc : CodeOf tl n pkg src body) :
    Does js d0 D F (generateOpen tl n pkg src out)
      (.write j.place tl.header :: body.toList.map (.write j.place)) := by
  obtain ⟨res, rules, g, h1, h2, h3, h4, h5⟩ := hc
  unfold generateOpen
  rw [h1]
  simp only [Prog.of, Prog.bind, h3, h2, h4, List.length_nil, Nat.lt_irrefl, gt_iff_lt, if_false]
  refine .write ho hj hat hD hF ?_
  simp only [h5, Prog.bind]
  cases body with
  | none => exact .done
  | some body => exact .write ho hj hat hD hF .done

theorem does_file {D F : List Bytes → Prop} {j : Job} {pkg path src out : Bytes} {body : Option Bytes} (hp : path ≠ [])
    (hsrc : ∀ d, Mid js d0 d → d.node (d.at_ path) = some (.file src))
    (hj : j ∈ js) (ho : out ≠ []) (hat : d0.at_ out = j.place) (hD : D j.dir) (hc : CodeOf tl n pkg src body) :
    Does js d0 D F (generateFile tl n pkg path out)
      (.trunc j.place :: .write j.place tl.header :: body.toList.map (.write j.place)) := by
  unfold generateFile
  refine .peek trivial fun d hg _ => ?_
  rw [ans_readFile hp (hsrc d hg)]
  exact .trunc ho hj hat hD (does_open tl n hj ho hat hD (Or.inr rfl) hc)

/-- A job and its actions. -/
def IsJobActs (d : Disk) (b : BuildConfig) (name : Bytes) (x : Job × List FAct) : Prop :=
  ∃ stem src body, name = stem ++ b!".cddl" ∧ d.node (d.at_ b.sourceDir ++ [name]) = some (.file src) ∧
    CodeOf tl n b.package src body ∧ b.outDir ≠ [] ∧
    x.1 = ⟨d.at_ b.outDir, stem ++ b!".go", tl.header ++ body.getD []⟩ ∧
    x.2 = .trunc x.1.place :: .write x.1.place tl.header :: body.toList.map (.write x.1.place)

theorem isJob_acts {d : Disk} {b : BuildConfig} {name : Bytes} {j : Job} (h : IsJob tl n d b name j) :
    ∃ as, IsJobActs tl n d b name (j, as) ∧ JobActs j as := by
  obtain ⟨stem, src, body, rfl, h1, h2, h3, h4, _⟩ := h
  refine ⟨_, ⟨stem, src, body, rfl, h1, h2, h3, h4, rfl⟩, tl.header :: body.toList, rfl, ?_⟩
  subst h4
  cases body <;> simp

theorem jobs_acts {d : Disk} {b : BuildConfig} {names : List Bytes} {js : List Job} (h : List.Forall₂ (IsJob tl n d b) names js) :
    ∃ xs : List (Job × List FAct), List.Forall₂ (IsJobActs tl n d b) names xs ∧ xs.map Prod.fst = js ∧
      List.Forall₂ JobActs js (xs.map Prod.snd) := by
  induction h with
  | nil => exact ⟨[], .nil, rfl, .nil⟩
  | cons h1 _ ih =>
    obtain ⟨xs, g1, rfl, g3⟩ := ih
    obtain ⟨as, g4, g5⟩ := isJob_acts tl n h1
    exact ⟨(_, as) :: xs, .cons g4 g1, rfl, .cons g5 g3⟩

theorem does_files (hdo : ∀ j ∈ js, Doable d0 j) {b : BuildConfig} (hsd : b.sourceDir ≠ []) (names : List Bytes)
    (hnames : ∀ x ∈ names, FileName x) {xs : List (Job × List FAct)} (hsub : ∀ x ∈ xs, x.1 ∈ js)
    (h : List.Forall₂ (IsJobActs tl n d0 b) (sources names) xs) {D F : List Bytes → Prop} :
    Does js d0 D F (generateFiles tl n b names) (xs.map Prod.snd).flatten := by
  induction names generalizing xs D with
  | nil =>
    cases h
    exact .done
  | cons name rest ih =>
    have hname := hnames name (List.mem_cons_self ..)
    have hs := source_iff hname.1
    have ih := fun {xs} h h' {D} => @ih (fun x hx => hnames x (List.mem_cons_of_mem _ hx)) xs h h' D
    unfold generateFiles
    by_cases hsrc : IsSource name
    · have : sources (name :: rest) = name :: sources rest := by
        unfold sources
        rw [List.filter_cons, if_pos (by simpa using hsrc)]
      rw [this] at h
      cases h with
      | cons h1 h2 =>
        rename_i x xs
        obtain ⟨j, as⟩ := x
        have hj : j ∈ js := hsub _ (List.mem_cons_self ..)
        have hd := hdo j hj
        obtain ⟨stem, src, body, rfl, hnode, hcode, hod, hjj, has⟩ := h1
        simp only at hjj has
        have hgn : FileName (stem ++ b!".go") := by have := hd.name; rw [hjj] at this; exact this
        rw [if_neg (not_not.2 (hs.2 hsrc))]
        refine does_ensureDir hj hd hod (by rw [hjj]) ?_
        simp only
        have hout : outPath b (stem ++ b!".cddl") = joinPath b.outDir (stem ++ b!".go") := by unfold outPath; rw [trim_append]
        show Does js d0 _ F _ (as ++ (xs.map Prod.snd).flatten)
        refine Does.bind ?_ ?_
        · rw [has]
          refine does_file tl n (src := src) (joinPath_ne hname) (fun d hg => ?_) hj ?_ ?_ (Or.inr (List.prefix_refl _)) hcode
          · rw [at_join _ hsd hname, at_of_cwd hg.frame.cwd]
            refine hg.frame.files _ _ hnode ?_
            rintro ⟨b', s, he⟩
            have := (List.append_inj' he rfl).2
            exact go_not_source (s := s) (by rw [← List.singleton_inj.1 this]; exact ⟨stem, rfl⟩)
          · rw [hout]; exact joinPath_ne hgn
          · rw [hout, at_join _ hod hgn, hjj]; rfl
        · exact ih (fun x hx => hsub x (List.mem_cons_of_mem _ hx)) h2
    · have : sources (name :: rest) = sources rest := by
        unfold sources
        rw [List.filter_cons, if_neg (by simpa using hsrc)]
      rw [if_pos (fun h => hsrc (hs.1 h))]
      exact ih hsub (this ▸ h)

theorem does_build (hdo : ∀ j ∈ js, Doable d0 j) {build : Option BuildConfig} {js' : List Job} (h : BuildReady tl n d0 build js')
    (hsub : ∀ j ∈ js', j ∈ js) :
    ∃ ass, List.Forall₂ JobActs js' ass ∧ ∀ D F, Does js d0 D F (generateBuild tl n build) ass.flatten := by
  obtain ⟨b, rfl, hsd, hdir, hj⟩ := h
  obtain ⟨xs, h1, rfl, h3⟩ := jobs_acts tl n hj
  refine ⟨_, h3, fun D F => ?_⟩
  unfold generateBuild
  have hd : ∀ d, Mid js d0 d → d.node (d.at_ b.sourceDir) = some .dir := fun d hg => by
    rw [at_of_cwd hg.frame.cwd]; exact hg.frame.dirs _ hdir
  simp only
  refine .peek trivial fun d hg _ => ?_
  rw [ans_stat_dir hsd (hd d hg)]
  simp only [Bool.not_true, Bool.false_eq_true, if_false]
  refine .peek trivial fun d hg _ => ?_
  rw [ans_readDir hsd (hd d hg)]
  simp only
  refine does_files tl n hdo hsd _ (list_plain hg.frame.wf _) (fun x hx => hsub _ (List.mem_map_of_mem hx)) ?_
  rw [sources_frame hg.frame, at_of_cwd hg.frame.cwd]
  exact h1

theorem does_builds (hdo : ∀ j ∈ js, Doable d0 j) {builds : List (Option BuildConfig)} {jss : List (List Job)}
    (h : List.Forall₂ (BuildReady tl n d0) builds jss) (hsub : ∀ j ∈ jss.flatten, j ∈ js) :
    ∃ ass, List.Forall₂ JobActs jss.flatten ass ∧ ∀ D F, Does js d0 D F (generateBuilds tl n builds) ass.flatten := by
  induction h with
  | nil => exact ⟨[], .nil, fun _ _ => .done⟩
  | cons h1 _ ih =>
    obtain ⟨ass, g1, g2⟩ := ih fun j hj => hsub j (by rw [List.flatten_cons]; exact List.mem_append_right _ hj)
    obtain ⟨ass', g3, g4⟩ := does_build tl n hdo h1 fun j hj => hsub j (by rw [List.flatten_cons]; exact List.mem_append_left _ hj)
    refine ⟨ass' ++ ass, ?_, fun D F => ?_⟩
    · rw [List.flatten_cons]; exact List.rel_append g3 g1
    · unfold generateBuilds
      rw [List.flatten_append]
      exact (g4 D F).bind (g2 D F)

omit [Unicode] in
/-- Any number of looks at the configuration that find the same file. -/
theorem does_config (hp : PlainCwd d0) {m : Option Bytes} (hm : ∀ d, Mid js d0 d → FirstConfig d m)
    {content : Bytes} (hcont : ∀ x, m = some x → ∀ d, Mid js d0 d → d.node (d0.cwd ++ [x]) = some (.file content))
    {as : List FAct} {D F : List Bytes → Prop} {f : Except ConfigErr Config → Prog (Option GenErr)}
    (hf : Does js d0 D F (f (match m with | none => .error .none | some m => loaded tl.codec m (.ok content))) as) :
    Does js d0 D F ((loadConfigFromDir tl.codec (47 :: joinSlash d0.cwd)).bind f) as := by
  unfold loadConfigFromDir globConfig
  rw [plainCwd_meta hp]
  simp only [Prog.bind, Bool.false_eq_true, if_false]
  refine .peek trivial fun d hg _ => ?_
  have hw := hg.frame.wf
  have hm' := hm d hg
  have hns : d.ans (.names (47 :: joinSlash d0.cwd)) = d.names d.cwd := by
    show (if d.get _ = some .dir then _ else _) = _
    rw [← hg.frame.cwd, get_ne (List.cons_ne_nil _ _), at_cwd hw, if_pos hw.here]
  rw [hns]
  have hs := (List.pairwise_mergeSort bytesLe_trans bytesLe_total (d.names d.cwd)).filter fun n => decide (n.take 6 = b!"cddlc.")
  have hmem : ∀ n, n ∈ ((d.names d.cwd).mergeSort bytesLe).filter (fun n => decide (n.take 6 = b!"cddlc.")) ↔
      n ∈ d.names d.cwd ∧ ConfigLike n := by
    intro n
    rw [List.mem_filter, List.mem_mergeSort, decide_eq_true_iff, take6_iff]; rfl
  generalize ((d.names d.cwd).mergeSort bytesLe).filter (fun n => decide (n.take 6 = b!"cddlc.")) = l at hs hmem
  cases l with
  | nil =>
    have : FirstConfig d none := fun x hx hc => absurd ((hmem x).2 ⟨hx, hc⟩) (by simp)
    obtain rfl := firstConfig_unique hm' this
    exact hf
  | cons x l =>
    obtain ⟨h1, h2⟩ := (hmem x).1 (List.mem_cons_self ..)
    have : FirstConfig d (some x) := by
      refine ⟨h1, h2, fun y hy hc => ?_⟩
      rcases List.mem_cons.1 ((hmem y).2 ⟨hy, hc⟩) with rfl | h
      · exact Or.inl ⟨[], by simp⟩
      · exact (bytesLe_iff _ _).1 ((List.pairwise_cons.1 hs).1 y h)
    obtain rfl := firstConfig_unique hm' this
    simp only [List.map_cons]
    have hx : FileName x := hw.plain _ _ h1
    unfold loadConfig
    simp only [base_join _ hx, Prog.bind]
    refine .peek trivial fun d' hg' _ => ?_
    have hans : d'.ans (.readFile (joinPath (47 :: joinSlash d0.cwd) x)) = .ok content := by
      refine ans_readFile (joinPath_ne hx) ?_
      rw [at_join _ (List.cons_ne_nil _ _) hx, ← hg'.frame.cwd, at_cwd hg'.frame.wf, hg'.frame.cwd]
      exact hcont x rfl d' hg'
    rw [hans]
    simp only [loaded] at hf ⊢
    split
    · rename_i hj
      rw [if_pos hj] at hf
      cases hcc : tl.codec.json content <;> rw [hcc] at hf <;> exact hf
    · rename_i hj
      rw [if_neg hj] at hf
      split
      · rename_i hy
        rw [if_pos hy] at hf
        cases hcc : tl.codec.yaml content <;> rw [hcc] at hf <;> exact hf
      · rename_i hy
        rw [if_neg hy] at hf
        exact hf

end

/-! ### All programs together -/

section
variable {ι : Type} {js : List Job} {d0 : Disk}

/-- What is true of all programs and the disk at any time. -/
structure Inv (js : List Job) (d0 : Disk) (m : Machine ι (Option GenErr)) (D F : ι → List Bytes → Prop)
    (as : ι → List FAct) : Prop where
  mid : Mid js d0 m.disk
  knows : ∀ i, Knows (D i) (F i) m.disk
  does : ∀ i, Does js d0 (D i) (F i) (m.prog i) (as i)
  stage : ∀ i q c, LastContent js q c → Stage q c (m.pos i q) (as i)
  all : ∀ q c, LastContent js q c → (∃ i, Full q c (as i)) ∨
    ∃ i k old, m.pos i q = some k ∧ m.disk.node q = some (.file old) ∧ k ≤ old.length ∧ old.length ≤ c.length ∧
      old.take k = c.take k

theorem lastContent_job {q : List Bytes} {c : Bytes} (h : LastContent js q c) : ∃ j ∈ js, j.place = q := by
  obtain ⟨js1, j, js2, rfl, h1, _⟩ := h
  exact ⟨j, by simp, h1⟩

/-- What was known stays true. -/
theorem Knows.keep {D F : List Bytes → Prop} {d d' : Disk} (h : Knows D F d)
    (hd : ∀ q, d.node q = some .dir → d'.node q = some .dir)
    (hf : ∀ q c, d.node q = some (.file c) → ∃ c', d'.node q = some (.file c')) : Knows D F d' :=
  ⟨fun q hq => hd q (h.1 q hq), fun q hq => let ⟨c, hc⟩ := h.2 q hq; hf q c hc⟩

theorem node_put_keep {d : Disk} {q : List Bytes} {c : Bytes} (hq : d.node q ≠ some .dir) :
    (∀ r, d.node r = some .dir → (d.put q (.file c)).node r = some .dir) ∧
    ∀ r c0, d.node r = some (.file c0) → ∃ c', (d.put q (.file c)).node r = some (.file c') := by
  refine ⟨fun r hr => ?_, fun r c0 hr => ?_⟩
  · rw [put_node, if_neg]
    · exact hr
    · rintro rfl; exact hq hr
  · rw [put_node]
    split
    · exact ⟨_, rfl⟩
    · exact ⟨_, hr⟩

theorem after_looks {d : Disk} {o : Op} (h : Looks o) : d.after o = d := by
  unfold Disk.after
  cases o <;> first | rfl | cases h

theorem machine_looks {m : Machine ι (Option GenErr)} {i : ι} {o : Op} (h : Looks o) :
    m.diskAfter i o = m.disk ∧ m.posAfter i o = m.pos := by
  cases o <;> first | exact ⟨rfl, rfl⟩ | cases h

open Classical in
/-- One step of one program. -/
theorem inv_call (hdo : ∀ j ∈ js, Doable d0 j) {m : Machine ι (Option GenErr)} {D F : ι → List Bytes → Prop}
    {as : ι → List FAct} (h : Inv js d0 m D F as) {i : ι} {o : Op} {k : o.Ans → Prog (Option GenErr)} (hi : m.prog i = .op o k) :
    ∃ D' F' as', Inv js d0 (m.call i o k) D' F' as' := by
  have hdoes := h.does i
  rw [hi] at hdoes
  generalize hD : D i = Di at hdoes
  generalize hF : F i = Fi at hdoes
  generalize has : as i = asi at hdoes
  have hknows := h.knows i
  rw [hD, hF] at hknows
  have hplace : ∀ j ∈ js, m.disk.node j.place ≠ some .dir := fun j hj => ((hdo j hj).frame h.mid.frame).free
  cases hdoes with
  | look D1 ho h1 h2 =>
    obtain ⟨e1, e2⟩ := machine_looks (m := m) (i := i) ho
    refine ⟨fun j => if j = i then (fun q => Di q ∨ D1 m.disk q) else D j, F, as, ⟨?_, fun j => ?_, fun j => ?_, fun j q c hl => ?_, fun q c hl => ?_⟩⟩
    · show Mid _ _ (m.diskAfter i o); rw [e1]; exact h.mid
    · show Knows _ _ (m.diskAfter i o); rw [e1]
      split
      · rename_i hj; rw [hj, hF]
        exact ⟨fun q hq => hq.elim (hknows.1 q) (h1 _ h.mid hknows q), hknows.2⟩
      · exact h.knows j
    · show Does _ _ _ _ (if j = i then _ else _) _
      split
      · rename_i hj; rw [hj, hF, has]; exact h2 _ h.mid hknows
      · exact h.does j
    · show Stage _ _ (m.posAfter i o j q) _; rw [e2]; exact h.stage j q c hl
    · show _ ∨ ∃ i' k old, m.posAfter i o i' q = _ ∧ (m.diskAfter i o).node q = _ ∧ _
      rw [e1, e2]; exact h.all q c hl
  | mkdir hp hj hat h1 =>
    rename_i p k j
    have hatd : m.disk.at_ p = j.dir := by rw [at_of_cwd h.mid.frame.cwd, hat]
    have hans : m.disk.ans (.mkdirAll p) = .ok () := by
      show (if p = [] ∨ m.disk.Blocked (m.disk.at_ p) then _ else _) = _
      rw [if_neg]
      rintro (h2 | h2)
      · exact hp h2
      · rw [hatd] at h2
        exact ((hdo j hj).frame h.mid.frame).can.not_blocked h2
    have e1 : m.diskAfter i (.mkdirAll p) = m.disk.makeDirs [] j.dir := by
      show m.disk.after (.mkdirAll p) = _
      unfold Disk.after
      rw [hans, ← hatd]
    have e2 : m.posAfter i (.mkdirAll p) = m.pos := rfl
    obtain ⟨g1, g2, g3⟩ := h.mid.dirs hj (hdo j hj) (List.prefix_refl _)
    have hkeep : ∀ D F, Knows D F m.disk → Knows D F (m.disk.makeDirs [] j.dir) := fun D F hk =>
      hk.keep (fun q hq => by rw [g3 q (by rw [hq]; simp), hq]) fun q c hq => ⟨c, by rw [g3 q (by rw [hq]; simp), hq]⟩
    refine ⟨fun l => if l = i then (fun q => Di q ∨ q <+: j.dir) else D l, F, as, ⟨?_, fun l => ?_, fun l => ?_, fun l q c hl => ?_, fun q c hl => ?_⟩⟩
    · show Mid _ _ (m.diskAfter i (.mkdirAll p)); rw [e1]; exact g1
    · show Knows _ _ (m.diskAfter i (.mkdirAll p)); rw [e1]
      split
      · rename_i hl; rw [hl, hF]
        have := hkeep _ _ hknows
        exact ⟨fun q hq => hq.elim (this.1 q) (g2 q), this.2⟩
      · exact hkeep _ _ (h.knows l)
    · show Does _ _ _ _ (if l = i then _ else _) _
      split
      · rename_i hl; rw [hl, hF, has, hans]; exact h1
      · exact h.does l
    · exact h.stage l q c hl
    · show _ ∨ ∃ i' k old, m.posAfter i (.mkdirAll p) i' q = _ ∧ (m.diskAfter i (.mkdirAll p)).node q = _ ∧ _
      rw [e1, e2]
      rcases h.all q c hl with h3 | ⟨i', k, old, h3, h4, h5⟩
      · exact Or.inl h3
      · exact Or.inr ⟨i', k, old, h3, by rw [g3 q (by rw [h4]; simp), h4], h5⟩
  | trunc hp hj hat hdir h1 =>
    rename_i p k as' j
    have hatd : m.disk.at_ p = j.place := by rw [at_of_cwd h.mid.frame.cwd, hat]
    have hpar : m.disk.node j.dir = some .dir := hknows.1 _ hdir
    have hans : m.disk.ans (.openTrunc p) = .ok () := by
      show m.disk.opens p = _
      unfold Disk.opens
      rw [if_neg hp, hatd]
      cases hn : m.disk.node j.place with
      | none =>
        simp only
        rw [if_pos]
        exact ⟨by simp [Job.place], by simpa [Job.place] using hpar⟩
      | some e =>
        cases e with
        | dir => exact absurd hn (hplace j hj)
        | file c => rfl
    have e1 : m.diskAfter i (.openTrunc p) = m.disk.put j.place (.file []) := by
      show m.disk.after (.openTrunc p) = _
      unfold Disk.after
      rw [hans, ← hatd]
    have e2 : m.posAfter i (.openTrunc p) = m.move i j.place (some 0) := by
      unfold Machine.posAfter
      rw [hans, ← hatd]
    obtain ⟨k1, k2⟩ := node_put_keep (c := []) (hplace j hj)
    have hpos : ∀ l q, (l ≠ i ∨ q ≠ j.place) → m.move i j.place (some 0) l q = m.pos l q := by
      intro l q hlq
      unfold Machine.move
      rw [if_neg]
      rintro ⟨rfl, rfl⟩
      simp at hlq
    have hpos' : m.move i j.place (some 0) i j.place = some 0 := by
      unfold Machine.move
      rw [if_pos ⟨rfl, rfl⟩]
    have hstage : ∀ q c, LastContent js q c → Stage q c (m.move i j.place (some 0) i q) as' := by
      intro q c hl
      have hs := h.stage i q c hl
      rw [has] at hs
      by_cases hq : q = j.place
      · subst hq
        rw [hpos']
        rcases hs with hs | ⟨hs, _⟩
        · rcases hs.trunc with hs | ⟨g1, g2⟩
          · exact Or.inl hs
          · exact Or.inr ⟨g1, 0, rfl, Nat.zero_le _, by simpa using g2⟩
        · exact absurd rfl (hs _ (List.mem_cons_self ..))
      · rw [hpos i q (Or.inr hq)]
        refine hs.other (fun he => hq (FAct.trunc.inj he).symm) fun b he => by cases he
    refine ⟨D, fun l => if l = i then (fun q => Fi q ∨ q = j.place) else F l, fun l => if l = i then as' else as l,
      ⟨?_, fun l => ?_, fun l => ?_, fun l q c hl => ?_, fun q c hl => ?_⟩⟩
    · show Mid _ _ (m.diskAfter i (.openTrunc p)); rw [e1]; exact h.mid.put hj (hdo j hj) hpar _
    · show Knows _ _ (m.diskAfter i (.openTrunc p)); rw [e1]
      split
      · rename_i hl; rw [hl, hD]
        have := hknows.keep k1 k2
        refine ⟨this.1, fun q hq => hq.elim (this.2 q) fun hq => ?_⟩
        rw [hq, put_node, if_pos rfl]
        exact ⟨_, rfl⟩
      · exact (h.knows l).keep k1 k2
    · show Does _ _ _ _ (if l = i then _ else _) _
      split
      · rename_i hl; rw [hl, hD, hans]; exact h1
      · exact h.does l
    · show Stage _ _ (m.posAfter i (.openTrunc p) l q) _
      rw [e2]
      split
      · rename_i hli; rw [hli]; exact hstage q c hl
      · rename_i hli; rw [hpos l q (Or.inl hli)]; exact h.stage l q c hl
    · show _ ∨ ∃ i' k old, m.posAfter i (.openTrunc p) i' q = _ ∧ (m.diskAfter i (.openTrunc p)).node q = _ ∧ _
      rw [e1, e2]
      by_cases hq : q = j.place
      · subst hq
        rcases hstage _ c hl with g | ⟨g, k, gk, _⟩
        · exact Or.inl ⟨i, by simpa using g⟩
        · exact Or.inr ⟨i, 0, [], hpos', by rw [put_node, if_pos rfl], by simp⟩
      · rcases h.all q c hl with ⟨l, h3⟩ | ⟨i', k, old, h3, h4, h5⟩
        · refine Or.inl ⟨l, ?_⟩
          show Full q c (if l = i then as' else as l)
          split
          · rename_i hli
            rw [hli, has] at h3
            exact h3.tail fun he => hq (FAct.trunc.inj he).symm
          · exact h3
        · exact Or.inr ⟨i', k, old, by rw [hpos i' q (Or.inr hq)]; exact h3, by rw [put_node, if_neg hq]; exact h4, h5⟩
  | write hp hj hat hdir hfile h1 =>
    rename_i p b kont as' j
    have hatd : m.disk.at_ p = j.place := by rw [at_of_cwd h.mid.frame.cwd, hat]
    have hpar : m.disk.node j.dir = some .dir := hknows.1 _ hdir
    obtain ⟨old, hold⟩ := hknows.2 _ hfile
    have hans : m.disk.ans (.write p b) = .ok () := by
      show (match m.disk.get p with | some (.file _) => _ | _ => _) = _
      rw [get_ne hp, hatd, hold]
    have hcont : m.disk.content p = old := by
      unfold Disk.content
      rw [hatd, hold]
    have e1 : m.diskAfter i (.write p b) = m.disk.put j.place (.file (writeAt old ((m.pos i j.place).getD old.length) b)) := by
      unfold Machine.diskAfter
      rw [hans]
      simp only
      rw [hcont, hatd]
    have e2 : m.posAfter i (.write p b) = m.move i j.place ((m.pos i j.place).map (· + b.length)) := by
      unfold Machine.posAfter
      rw [hans, ← hatd]
    obtain ⟨k1, k2⟩ := node_put_keep (c := writeAt old ((m.pos i j.place).getD old.length) b) (hplace j hj)
    have hpos : ∀ k l q, (l ≠ i ∨ q ≠ j.place) → m.move i j.place k l q = m.pos l q := by
      intro k l q hlq
      unfold Machine.move
      rw [if_neg]
      rintro ⟨rfl, rfl⟩
      simp at hlq
    have hpos' : ∀ k, m.move i j.place k i j.place = k := by
      intro k
      unfold Machine.move
      rw [if_pos ⟨rfl, rfl⟩]
    have hwr : ∀ {q} {c}, NoTrunc q (.write q b :: as') → NoTrunc q as' ∧ (written q (.write q b :: as') = c → b ++ written q as' = c) := by
      intro q c hn
      refine ⟨fun a ha => hn a (List.mem_cons_of_mem _ ha), fun hw => ?_⟩
      rw [← hw]
      show _ = if q = q then _ else _
      rw [if_pos rfl]
    have hstage : ∀ q c, LastContent js q c → Stage q c (m.move i j.place ((m.pos i j.place).map (· + b.length)) i q) as' := by
      intro q c hl
      have hs := h.stage i q c hl
      rw [has] at hs
      by_cases hq : q = j.place
      · subst hq
        rw [hpos']
        rcases hs with hs | ⟨hs, k, hk, hkl, hw⟩
        · exact Or.inl (hs.tail fun he => by cases he)
        · obtain ⟨g1, g2⟩ := hwr (c := c.drop k) hs
          obtain ⟨g3, g4, _⟩ := writeAt_piece (old := []) (k' := 0) hkl (g2 hw) (Nat.zero_le _) (Nat.zero_le _) rfl
          exact Or.inr ⟨g1, k + b.length, by rw [hk]; rfl, g4, g3⟩
      · rw [hpos _ i q (Or.inr hq)]
        exact hs.other (fun he => by cases he) fun b' he => hq (FAct.write.inj he).1.symm
    refine ⟨D, F, fun l => if l = i then as' else as l,
      ⟨?_, fun l => ?_, fun l => ?_, fun l q c hl => ?_, fun q c hl => ?_⟩⟩
    · show Mid _ _ (m.diskAfter i (.write p b)); rw [e1]; exact h.mid.put hj (hdo j hj) hpar _
    · show Knows _ _ (m.diskAfter i (.write p b)); rw [e1]
      exact (h.knows l).keep k1 k2
    · show Does _ _ _ _ (if l = i then _ else _) _
      split
      · rename_i hl; rw [hl, hD, hF, hans]; exact h1
      · exact h.does l
    · show Stage _ _ (m.posAfter i (.write p b) l q) _
      rw [e2]
      split
      · rename_i hli; rw [hli]; exact hstage q c hl
      · rename_i hli; rw [hpos _ l q (Or.inl hli)]; exact h.stage l q c hl
    · show _ ∨ ∃ i' k old, m.posAfter i (.write p b) i' q = _ ∧ (m.diskAfter i (.write p b)).node q = _ ∧ _
      rw [e1, e2]
      have hfull : (∃ l, Full q c (as l)) → ∃ l, Full q c (if l = i then as' else as l) := by
        rintro ⟨l, h3⟩
        refine ⟨l, ?_⟩
        split
        · rename_i hli
          rw [hli, has] at h3
          exact h3.tail fun he => by cases he
        · exact h3
      by_cases hex : ∃ l, Full q c (as l)
      · exact Or.inl (hfull hex)
      rcases h.all q c hl with h3 | ⟨i', k', old', h3, h4, h5, h6, h7⟩
      · exact absurd h3 hex
      right
      by_cases hq : q = j.place
      · subst hq
        rw [hold] at h4
        cases h4
        have hs := h.stage i _ c hl
        rw [has] at hs
        rcases hs with hs | ⟨hs, k, hk, hkl, hw⟩
        · exact absurd ⟨i, by rw [has]; exact hs⟩ hex
        · obtain ⟨_, g2⟩ := hwr (c := c.drop k) hs
          obtain ⟨_, g4, g5, g6, g7, g8, g9⟩ := writeAt_piece hkl (g2 hw) h5 h6 h7
          rw [hk]
          simp only [Option.getD_some, Option.map_some]
          by_cases hii : i' = i
          · subst hii
            rw [hk] at h3
            cases h3
            exact ⟨i', k' + b.length, _, hpos' _, by rw [put_node, if_pos rfl], g6, g7, g9 rfl⟩
          · exact ⟨i', k', _, by rw [hpos _ _ _ (Or.inl hii)]; exact h3, by rw [put_node, if_pos rfl], Nat.le_trans h5 g5, g7, g8⟩
      · exact ⟨i', k', old', by rw [hpos _ i' q (Or.inr hq)]; exact h3, by rw [put_node, if_neg hq]; exact h4, h5, h6, h7⟩

theorem inv_step (hdo : ∀ j ∈ js, Doable d0 j) {m m' : Machine ι (Option GenErr)} {D F : ι → List Bytes → Prop}
    {as : ι → List FAct} (h : Inv js d0 m D F as) (hs : m.Step m') : ∃ D' F' as', Inv js d0 m' D' F' as' := by
  cases hs with
  | call hi => exact inv_call hdo h hi
  | someDirs hi hok hr =>
    rename_i i p k r
    have hdoes := h.does i
    rw [hi] at hdoes
    generalize as i = asi at hdoes
    cases hdoes with
    | look _ ho => cases ho
    | mkdir hp hj hat h1 =>
      rename_i j
      rw [at_of_cwd h.mid.frame.cwd, hat] at hr
      obtain ⟨g1, g2, g3⟩ := h.mid.dirs hj (hdo j hj) hr
      refine ⟨D, F, as, g1, fun l => (h.knows l).keep (fun q hq => ?_) fun q c hq => ⟨c, ?_⟩, h.does, h.stage, fun q c hl => ?_⟩
      · show (m.disk.makeDirs [] r).node q = _
        rw [g3 q (by rw [hq]; simp), hq]
      · show (m.disk.makeDirs [] r).node q = _
        rw [g3 q (by rw [hq]; simp), hq]
      · rcases h.all q c hl with h3 | ⟨i', k, old, h3, h4, h5⟩
        · exact Or.inl h3
        · refine Or.inr ⟨i', k, old, h3, ?_, h5⟩
          show (m.disk.makeDirs [] r).node q = _
          rw [g3 q (by rw [h4]; simp), h4]

/-- When all programs have ended. -/
theorem inv_end {m : Machine ι (Option GenErr)} {D F : ι → List Bytes → Prop}
    {as : ι → List FAct} (h : Inv js d0 m D F as) (he : ∀ i, m.prog i = .ret none) : Outcome js d0 m.disk := by
  have has : ∀ i, as i = [] := by
    intro i
    have := h.does i
    rw [he i] at this
    generalize as i = asi at this
    cases this
    rfl
  have hlast : ∀ q c, LastContent js q c → m.disk.node q = some (.file c) := by
    intro q c hl
    rcases h.all q c hl with ⟨i, h3⟩ | ⟨i, k, old, h3, h4, h5, h6, h7⟩
    · rw [has] at h3
      obtain ⟨as1, as2, h3, _⟩ := h3
      simp at h3
    · have hs := h.stage i q c hl
      rw [has] at hs
      rcases hs with ⟨as1, as2, hs, _⟩ | ⟨_, k', hk', hl', hw⟩
      · simp at hs
      · rw [h3] at hk'
        cases hk'
        have : c.length ≤ k := by
          have := congrArg List.length hw
          simp [written] at this
          omega
        rw [List.take_of_length_le (by omega), List.take_of_length_le this] at h7
        rw [h4, h7]
  refine ⟨h.mid.frame.cwd, h.mid.frame.wf, ?_, ?_, h.mid.other⟩
  · intro js1 j js2 hjs hj
    exact hlast _ _ ⟨js1, j, js2, hjs, rfl, rfl, hj⟩
  · intro j hj q hq
    obtain ⟨js1, k, js2, e, h1, h2⟩ := last_job hj
    have hn := hlast k.place k.content ⟨js1, k, js2, e, rfl, rfl, h2⟩
    rw [h1] at hn
    have hpar : m.disk.node j.dir = some .dir := h.mid.frame.wf.parent j.dir j.name (by rw [show j.dir ++ [j.name] = j.place from rfl, hn]; simp)
    rcases h.mid.frame.wf.prefix hq (by rw [hpar]; simp) with rfl | h2
    · exact hpar
    · exact h2

/-- Two disks after the same jobs are the same but for the order of names. -/
theorem outcome_node {d d' : Disk} (h : Outcome js d0 d) (h' : Outcome js d0 d') : d.node = d'.node := by
  funext q
  by_cases hq : ∃ j ∈ js, q = j.place
  · obtain ⟨j, hj, rfl⟩ := hq
    obtain ⟨js1, k, js2, e, h1, h2⟩ := last_job hj
    rw [← h1, h.last js1 k js2 e h2, h'.last js1 k js2 e h2]
  · by_cases hd : ∃ j ∈ js, q <+: j.dir
    · obtain ⟨j, hj, hjd⟩ := hd
      rw [h.dirs j hj q hjd, h'.dirs j hj q hjd]
    · have := fun j hj => (⟨fun h => hd ⟨j, hj, h⟩, fun h => hq ⟨j, hj, h⟩⟩ : ¬ q <+: j.dir ∧ q ≠ j.place)
      rw [h.other q this, h'.other q this]

end

end Cddlc
