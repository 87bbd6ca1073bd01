import Verif.Lemmas.Os
import Verif.Spec.Generate
import Verif.Props.Errors
import Mathlib.Data.List.Induction

/-! Runs of the command `generate`. -/

namespace Cddlc
open Spec

/-! ### Calls -/

/-- All calls of all runs of a program have a property. -/
inductive Calls {α : Type} (P : Op → Prop) : Prog α → Prop
  | ret {a} : Calls P (.ret a)
  | panic {w} : Calls P (.panic w)
  | hang : Calls P .hang
  | op {o k} : P o → (∀ a, Calls P (k a)) → Calls P (.op o k)

theorem Calls.bind {α β : Type} {P : Op → Prop} {p : Prog α} {f : α → Prog β} (hp : Calls P p)
    (hf : ∀ a, Calls P (f a)) : Calls P (p.bind f) := by
  induction hp with
  | ret => exact hf _
  | panic => exact .panic
  | hang => exact .hang
  | op h _ ih => exact .op h ih

theorem Calls.of {α : Type} {P : Op → Prop} (o : Out α) : Calls P (Prog.of o) := by
  cases o with
  | ok a => exact .ret
  | panic w => exact .panic
  | hang => exact .hang

theorem Calls.mono {α : Type} {P Q : Op → Prop} (hpq : ∀ o, P o → Q o) {p : Prog α} (hp : Calls P p) : Calls Q p := by
  induction hp with
  | ret => exact .ret
  | panic => exact .panic
  | hang => exact .hang
  | op h _ ih => exact .op (hpq _ h) ih

theorem calls_traces {α : Type} {P : Op → Prop} {p : Prog α} (hp : Calls P p) {t e} (h : Traces p t e) :
    ∀ ev ∈ t, P ev.1 := by
  induction h with
  | ret | panic | hang | cut => intro ev hev; cases hev
  | op a _ ih =>
    cases hp with
    | op h1 h2 =>
      intro ev hev
      rcases List.mem_cons.1 hev with rfl | hev
      · exact h1
      · exact ih (h2 _) ev hev

section
variable [Unicode] (tl : Tool) (n : Nat)

theorem generateOpen_calls (pkg src out : Bytes) :
    Calls (fun o => ∃ c, o = .write out c) (generateOpen tl n pkg src out) := by
  unfold generateOpen
  refine .bind (.of _) fun res => ?_
  split
  · exact .bind (.of _) fun _ => .ret
  · simp only
    refine .bind (.of _) fun _ => .op ⟨_, rfl⟩ fun w => ?_
    cases w with
    | error => exact .ret
    | ok =>
      refine .bind (.of _) fun body => ?_
      cases body with
      | none => exact .ret
      | some body => exact .op ⟨_, rfl⟩ fun _ => .ret

theorem generateFile_calls (pkg path out : Bytes) :
    Calls (fun o => o = .readFile path ∨ o = .openTrunc out ∨ ∃ c, o = .write out c) (generateFile tl n pkg path out) := by
  unfold generateFile
  refine .op (Or.inl rfl) fun r => ?_
  cases r with
  | error => exact .ret
  | ok src =>
    refine .op (Or.inr (Or.inl rfl)) fun r => ?_
    cases r with
    | error => exact .ret
    | ok => exact (generateOpen_calls tl n pkg src out).mono fun o h => Or.inr (Or.inr h)

omit [Unicode] in
theorem ensureDir_calls (dir : Bytes) : Calls (fun o => o = .stat dir ∨ o = .mkdirAll dir) (ensureDir dir) := by
  unfold ensureDir
  refine .op (Or.inl rfl) fun r => ?_
  rcases r with (_ | _) | _
  · refine .op (Or.inr rfl) fun r => ?_
    cases r <;> exact .ret
  · exact .ret
  · exact .ret

/-- The calls made for one source. -/
def FileCall (b : BuildConfig) (name : Bytes) (o : Op) : Prop :=
  o = .stat b.outDir ∨ o = .mkdirAll b.outDir ∨ o = .readFile (joinPath b.sourceDir name) ∨
    o = .openTrunc (outPath b name) ∨ ∃ c, o = .write (outPath b name) c

theorem generateFiles_calls (b : BuildConfig) (names : List Bytes) :
    Calls (fun o => ∃ name ∈ names, extPath name = b!".cddl" ∧ FileCall b name o) (generateFiles tl n b names) := by
  induction names with
  | nil => exact .ret
  | cons name rest ih =>
    have ih' := ih.mono (Q := fun o => ∃ name' ∈ name :: rest, extPath name' = b!".cddl" ∧ FileCall b name' o)
      fun o ⟨x, hx, h⟩ => ⟨x, List.mem_cons_of_mem _ hx, h⟩
    unfold generateFiles
    split
    · exact ih'
    · rename_i hx
      have hx : extPath name = b!".cddl" := Decidable.not_not.1 hx
      have hm : name ∈ name :: rest := List.mem_cons_self ..
      have he : Calls (fun o => ∃ name' ∈ name :: rest, extPath name' = b!".cddl" ∧ FileCall b name' o)
          (ensureDir b.outDir) := (ensureDir_calls _).mono fun o h => ⟨name, hm, hx, by
        rcases h with rfl | rfl
        · exact Or.inl rfl
        · exact Or.inr (Or.inl rfl)⟩
      refine .bind he fun r => ?_
      · cases r with
        | some e => exact .ret
        | none =>
          refine .bind ((generateFile_calls tl n _ _ _).mono fun o h => ⟨name, hm, hx, Or.inr (Or.inr h)⟩) fun r => ?_
          cases r with
          | some e => exact .ret
          | none => exact ih'

/-! ### One file -/

/-- The runs after the output is open. -/
inductive OpenRun (pkg src out : Bytes) : List Event → End (Option GenErr) → Prop
  | cut : OpenRun pkg src out [] .cut
  | parsePanic {w} : parseSource n src = .panic w → OpenRun pkg src out [] (.panic w)
  | parseHang : parseSource n src = .hang → OpenRun pkg src out [] .hang
  | parse {res} : parseSource n src = .ok res → res.errs ≠ [] → OpenRun pkg src out [] (.done (some .parse))
  | noTree {res} : parseSource n src = .ok res → res.errs = [] → res.cddl = none → OpenRun pkg src out [] (.panic .nilDeref)
  | visitPanic {res rules w} : parseSource n src = .ok res → res.errs = [] → res.cddl = some rules →
      (visit tl.lib (.cddl {} rules) (.new pkg)).2 = .panic w → OpenRun pkg src out [] (.panic w)
  | visitHang {res rules} : parseSource n src = .ok res → res.errs = [] → res.cddl = some rules →
      (visit tl.lib (.cddl {} rules) (.new pkg)).2 = .hang → OpenRun pkg src out [] .hang
  | writeFail {res rules g u e} : parseSource n src = .ok res → res.errs = [] → res.cddl = some rules →
      visit tl.lib (.cddl {} rules) (.new pkg) = (g, .ok ()) → (e = .done (some .write) ∨ e = .cut) →
      OpenRun pkg src out [⟨.write out tl.header, .error u⟩] e
  | printFail {res rules g u e} : parseSource n src = .ok res → res.errs = [] → res.cddl = some rules →
      visit tl.lib (.cddl {} rules) (.new pkg) = (g, .ok ()) →
      ((∃ w, tl.print (g.string tl.resets).file = .panic w ∧ e = .panic w) ∨
        (tl.print (g.string tl.resets).file = .hang ∧ e = .hang) ∨ e = .cut) →
      OpenRun pkg src out [⟨.write out tl.header, .ok u⟩] e
  | header {u} : CodeOf tl n pkg src none → OpenRun pkg src out [⟨.write out tl.header, .ok u⟩] (.done none)
  | body {u body a e} : CodeOf tl n pkg src (some body) → (e = .done none ∨ e = .cut) →
      OpenRun pkg src out [⟨.write out tl.header, .ok u⟩, ⟨.write out body, a⟩] e

omit [Unicode] in
/-- A run of a computation without calls, and something after it. -/
theorem traces_of_bind {α β : Type} {o : Out α} {f : α → Prog β} {t e} (h : Traces ((Prog.of o).bind f) t e) :
    (∃ a, o = .ok a ∧ Traces (f a) t e) ∨ (∃ w, o = .panic w ∧ t = [] ∧ (e = .panic w ∨ e = .cut)) ∨
      (o = .hang ∧ t = [] ∧ (e = .hang ∨ e = .cut)) := by
  cases o with
  | ok a => exact Or.inl ⟨a, rfl, h⟩
  | panic w => exact Or.inr (Or.inl ⟨w, rfl, runs_panic h⟩)
  | hang => exact Or.inr (Or.inr ⟨rfl, runs_hang h⟩)

theorem openRun {pkg src out : Bytes} {t e} (h : Traces (generateOpen tl n pkg src out) t e) :
    OpenRun tl n pkg src out t e := by
  unfold generateOpen at h
  rcases traces_of_bind h with ⟨res, hres, h⟩ | ⟨w, hw, rfl, rfl | rfl⟩ | ⟨hw, rfl, rfl | rfl⟩
  rotate_left
  · exact .parsePanic hw
  · exact .cut
  · exact .parseHang hw
  · exact .cut
  simp only at h
  split at h
  · rename_i hlen
    have hne : res.errs ≠ [] := by rintro hh; rw [hh] at hlen; simp at hlen
    rw [C33_rendered tl.text hres] at h
    obtain ⟨rfl, rfl | rfl⟩ := runs_ret h
    · exact .parse hres hne
    · exact .cut
  · rename_i hlen
    have hne : res.errs = [] := List.eq_nil_of_length_eq_zero (by omega)
    cases hc : res.cddl with
    | none =>
      simp only [hc] at h
      have : (visit tl.lib (Node.typedNil .cddl) (Generator.new pkg)).2 = .panic .nilDeref := by
        rw [visit]; rfl
      rw [this] at h
      obtain ⟨rfl, rfl | rfl⟩ := runs_panic h
      · exact .noTree hres hne hc
      · exact .cut
    | some rules =>
      simp only [hc] at h
      rcases traces_of_bind h with ⟨u, hu, h⟩ | ⟨w, hw, rfl, rfl | rfl⟩ | ⟨hw, rfl, rfl | rfl⟩
      rotate_left
      · exact .visitPanic hres hne hc hw
      · exact .cut
      · exact .visitHang hres hne hc hw
      · exact .cut
      have hv : visit tl.lib (.cddl {} rules) (.new pkg) = ((visit tl.lib (.cddl {} rules) (.new pkg)).1, .ok ()) := by
        rw [← hu]
      generalize (visit tl.lib (.cddl {} rules) (.new pkg)).1 = g at hv h
      rcases runs_op h with ⟨rfl, rfl⟩ | ⟨a, t', rfl, h'⟩
      · exact .cut
      rcases a with u | u
      · obtain ⟨rfl, he⟩ := runs_ret h'
        exact .writeFail hres hne hc hv he
      · rcases traces_of_bind h' with ⟨body, hb, h'⟩ | ⟨w, hw, rfl, he⟩ | ⟨hw, rfl, he⟩
        · have hcode : CodeOf tl n pkg src body := ⟨res, rules, g, hres, hc, hne, hv, hb⟩
          cases body with
          | none =>
            obtain ⟨rfl, rfl | rfl⟩ := runs_ret h'
            · exact .header hcode
            · exact .printFail hres hne hc hv (Or.inr (Or.inr rfl))
          | some body =>
            rcases runs_op h' with ⟨rfl, rfl⟩ | ⟨a, t', rfl, h''⟩
            · exact .printFail hres hne hc hv (Or.inr (Or.inr rfl))
            · obtain ⟨rfl, he⟩ := runs_ret h''
              exact .body hcode he
        · exact .printFail hres hne hc hv (he.elim (fun he => Or.inl ⟨w, hw, he⟩) fun he => Or.inr (Or.inr he))
        · exact .printFail hres hne hc hv (he.elim (fun he => Or.inr (Or.inl ⟨hw, he⟩)) fun he => Or.inr (Or.inr he))

/-- The runs of `generateFile`. -/
inductive GenRun (pkg path out : Bytes) : List Event → End (Option GenErr) → Prop
  | cut : GenRun pkg path out [] .cut
  | read {u e} : (e = .done (some .read) ∨ e = .cut) → GenRun pkg path out [⟨.readFile path, .error u⟩] e
  | readCut {src} : GenRun pkg path out [⟨.readFile path, .ok src⟩] .cut
  | openFail {src u e} : (e = .done (some .open) ∨ e = .cut) →
      GenRun pkg path out [⟨.readFile path, .ok src⟩, ⟨.openTrunc out, .error u⟩] e
  | opened {src u t e} : OpenRun tl n pkg src out t e →
      GenRun pkg path out (⟨.readFile path, .ok src⟩ :: ⟨.openTrunc out, .ok u⟩ :: t) e

theorem genRun {pkg path out : Bytes} {t e} (h : Traces (generateFile tl n pkg path out) t e) :
    GenRun tl n pkg path out t e := by
  unfold generateFile at h
  rcases runs_op h with ⟨rfl, rfl⟩ | ⟨a, t', rfl, h'⟩
  · exact .cut
  rcases a with u | src
  · obtain ⟨rfl, he⟩ := runs_ret h'
    exact .read he
  · rcases runs_op h' with ⟨rfl, rfl⟩ | ⟨a, t', rfl, h''⟩
    · exact .readCut
    rcases a with u | u
    · obtain ⟨rfl, he⟩ := runs_ret h''
      exact .openFail he
    · exact .opened (openRun tl n h'')

/-! ### Several files -/

omit [Unicode] in
theorem source_iff {name : Bytes} (hn : (47 : UInt8) ∉ name) : extPath name = b!".cddl" ↔ IsSource name :=
  ext_iff hn (by decide)

omit [Unicode] in
theorem outputOf_iff {b : BuildConfig} {name out : Bytes} (hs : IsSource name) : OutputOf b name out ↔ out = outPath b name := by
  obtain ⟨stem, rfl⟩ := hs
  constructor
  · rintro ⟨s, h1, rfl⟩
    obtain rfl := List.append_cancel_right h1
    unfold outPath; rw [trim_append]
  · rintro rfl
    exact ⟨stem, rfl, by unfold outPath; rw [trim_append]⟩

omit [Unicode] in
theorem effects_set {at_ : Bytes → Nat} {part : Nat} {e : Event} {t : List Event} {fs : Files Nat} :
    effects at_ part (e :: t) fs = effects at_ part t (effect at_ part e fs) := rfl

/-- What a complete run of `generateFile` leaves in the output. -/
theorem genRun_done {pkg path out : Bytes} {t} (h : GenRun tl n pkg path out t (.done none)) :
    ∃ src body, CodeOf tl n pkg src body ∧ (⟨.readFile path, .ok src⟩ : Event) ∈ t ∧
      ∀ (at_ : Bytes → Nat) (part : Nat) (fs : Files Nat), ¬ WriteFailed t →
        effects at_ part t fs (at_ out) = some (tl.header ++ body.getD []) := by
  cases h with
  | read h => rcases h with h | h <;> cases h
  | openFail h => rcases h with h | h <;> cases h
  | opened h =>
    rename_i src u t
    cases h with
    | writeFail _ _ _ _ h => rcases h with h | h <;> cases h
    | printFail _ _ _ _ h => rcases h with ⟨_, _, h⟩ | ⟨_, h⟩ | h <;> cases h
    | header hc =>
      refine ⟨src, none, hc, List.mem_cons_self .., fun at_ part fs _ => ?_⟩
      simp [effects, effect, Files.set]
    | body hc _ =>
      rename_i body a _
      refine ⟨src, _, hc, List.mem_cons_self .., fun at_ part fs hw => ?_⟩
      rcases a with a | a
      · exact absurd ⟨out, body, a, by simp⟩ hw
      · simp [effects, effect, Files.set]

omit [Unicode] in
theorem ensureDir_nothing {dir : Bytes} {t e} (h : Traces (ensureDir dir) t e) {ι : Type} [DecidableEq ι]
    (at_ : Bytes → ι) (part : Nat) (fs : Files ι) : effects at_ part t fs = fs := by
  funext i
  refine effects_other at_ part t fs i fun ev hev p hp => ?_
  rcases calls_traces (ensureDir_calls dir) h ev hev with h | h <;> rw [h] at hp <;> cases hp

omit [Unicode] in
theorem fileCall_changes {b : BuildConfig} {name : Bytes} (hs : IsSource name) {o : Op} (h : FileCall b name o) {p : Bytes}
    (hp : changes o = some p) : OutputOf b name p := by
  rw [outputOf_iff hs]
  rcases h with rfl | rfl | rfl | rfl | ⟨c, rfl⟩ <;> cases hp <;> rfl

omit [Unicode] in
theorem ends_ne {α β : Type} {e' : End α} {e : End β} (h : Ends e' e) {b : β} : e ≠ .done b := by
  cases h <;> nofun

theorem filesRun {b : BuildConfig} {names : List Bytes} (hn : ∀ x ∈ names, (47 : UInt8) ∉ x) {t e}
    (h : Traces (generateFiles tl n b names) t e) :
    ∃ done rest ts t', sources names = done ++ rest ∧ t = ts.flatten ++ t' ∧
      List.Forall₂ (FileDone tl n b) done ts ∧
      ((e = .done none ∧ rest = [] ∧ t' = []) ∨
       (e ≠ .done none ∧ ∀ ev ∈ t', ∃ name, rest.head? = some name ∧ FileCall b name ev.1)) := by
  induction names generalizing t with
  | nil =>
    obtain ⟨rfl, rfl | rfl⟩ := runs_ret h
    · exact ⟨[], [], [], [], rfl, rfl, .nil, Or.inl ⟨rfl, rfl, rfl⟩⟩
    · exact ⟨[], [], [], [], rfl, rfl, .nil, Or.inr ⟨nofun, nofun⟩⟩
  | cons name rest ih =>
    have hn1 : ∀ x ∈ rest, (47 : UInt8) ∉ x := fun x hx => hn x (List.mem_cons_of_mem _ hx)
    have hs := source_iff (hn name (List.mem_cons_self ..))
    unfold generateFiles at h
    split at h
    · rename_i hx
      have : sources (name :: rest) = sources rest := by
        unfold sources
        rw [List.filter_cons, if_neg]
        simp only [decide_eq_true_eq]
        exact fun hh => hx (hs.2 hh)
      rw [this]
      exact ih hn1 h
    · rename_i hx
      have hsrc : IsSource name := hs.1 (Decidable.not_not.1 hx)
      have hso : sources (name :: rest) = name :: sources rest := by
        unfold sources
        rw [List.filter_cons, if_pos (decide_eq_true hsrc)]
      rw [hso]
      have stop : ∀ t, (∀ ev ∈ t, FileCall b name ev.1) → e ≠ .done none →
          ∃ done rest' ts t', name :: sources rest = done ++ rest' ∧ t = ts.flatten ++ t' ∧
            List.Forall₂ (FileDone tl n b) done ts ∧
            ((e = .done none ∧ rest' = [] ∧ t' = []) ∨
             (e ≠ .done none ∧ ∀ ev ∈ t', ∃ name, rest'.head? = some name ∧ FileCall b name ev.1)) :=
        fun t ht he => ⟨[], _, [], t, rfl, rfl, .nil, Or.inr ⟨he, fun ev hev => ⟨name, rfl, ht ev hev⟩⟩⟩
      have hcalls : ∀ {t e}, Traces (ensureDir b.outDir) t e → ∀ ev ∈ t, FileCall b name ev.1 := by
        intro t e h ev hev
        rcases calls_traces (ensureDir_calls _) h ev hev with h | h
        · exact Or.inl h
        · exact Or.inr (Or.inl h)
      have fcalls : ∀ {t e}, Traces (generateFile tl n b.package (joinPath b.sourceDir name) (outPath b name)) t e →
          ∀ ev ∈ t, FileCall b name ev.1 :=
        fun h ev hev => Or.inr (Or.inr (calls_traces (generateFile_calls tl n _ _ _) h ev hev))
      rcases runs_bind h with ⟨t1, t2, r, rfl, h1, h2⟩ | ⟨e', h1, he⟩
      · rcases r with _ | r
        · rcases runs_bind h2 with ⟨t3, t4, r, rfl, h3, h4⟩ | ⟨e', h3, he⟩
          · rcases r with _ | r
            · obtain ⟨src, body, hc, hm, heff⟩ := genRun_done tl n (genRun tl n h3)
              have hd : FileDone tl n b name (t1 ++ t3) := by
                refine ⟨src, body, outPath b name, (outputOf_iff hsrc).2 rfl, hc, List.mem_append_right _ hm,
                  fun ev hev p hp => ?_, fun at_ part fs hw => ?_⟩
                · exact (outputOf_iff hsrc).1 (fileCall_changes hsrc
                    ((List.mem_append.1 hev).elim (hcalls h1 ev) (fcalls h3 ev)) hp)
                rw [effects_append, heff]
                rintro ⟨p, c, u, hh⟩
                exact hw ⟨p, c, u, List.mem_append_right _ hh⟩
              obtain ⟨done, rest', ts, t', e1, e2, e3, e4⟩ := ih hn1 h4
              refine ⟨name :: done, rest', (t1 ++ t3) :: ts, t', by rw [e1]; rfl, by rw [e2]; simp, .cons hd e3, e4⟩
            · obtain ⟨rfl, he⟩ := runs_ret h4
              rw [List.append_nil]
              refine stop _ (fun ev hev => (List.mem_append.1 hev).elim (hcalls h1 ev) (fcalls h3 ev)) ?_
              rcases he with rfl | rfl <;> nofun
          · exact stop _ (fun ev hev => (List.mem_append.1 hev).elim (hcalls h1 ev) (fcalls h3 ev)) (ends_ne he)
        · obtain ⟨rfl, he⟩ := runs_ret h2
          rw [List.append_nil]
          refine stop _ (hcalls h1) ?_
          rcases he with rfl | rfl <;> nofun
      · exact stop _ (hcalls h1) (ends_ne he)

/-- A build and the runs of its files. -/
theorem buildRun {build : Option BuildConfig} {t e} (hp : PlainNames t) (h : Traces (generateBuild tl n build) t e) :
    (e = .done none ∧ BuildDone tl n build t) ∨ (e ≠ .done none ∧ Stopped tl n (some build) t) := by
  unfold generateBuild at h
  cases build with
  | none =>
    obtain ⟨rfl, rfl | rfl⟩ := runs_panic h
    · exact Or.inr ⟨nofun, Or.inl nofun⟩
    · exact Or.inr ⟨nofun, Or.inl nofun⟩
  | some b =>
    rcases runs_op h with ⟨rfl, rfl⟩ | ⟨a, t1, rfl, h1⟩
    · exact Or.inr ⟨nofun, Or.inl nofun⟩
    have quiet1 : ∀ a, Quiet [⟨.stat b.sourceDir, a⟩] := by
      intro a ev hev; rw [List.mem_singleton.1 hev]; rfl
    rcases a with er | isDir
    · obtain ⟨rfl, rfl | rfl⟩ := runs_ret h1 <;> exact Or.inr ⟨nofun, Or.inl (quiet1 _)⟩
    · cases isDir with
      | false => obtain ⟨rfl, rfl | rfl⟩ := runs_ret h1 <;> exact Or.inr ⟨nofun, Or.inl (quiet1 _)⟩
      | true =>
        rcases runs_op h1 with ⟨rfl, rfl⟩ | ⟨a, t2, rfl, h2⟩
        · exact Or.inr ⟨nofun, Or.inl (quiet1 _)⟩
        rcases a with er | names
        · have hq : Quiet [⟨.stat b.sourceDir, .ok true⟩, ⟨.readDir b.sourceDir, .error er⟩] := by
            intro ev hev
            simp only [List.mem_cons, List.not_mem_nil, or_false] at hev
            rcases hev with rfl | rfl <;> rfl
          obtain ⟨rfl, rfl | rfl⟩ := runs_ret h2 <;> exact Or.inr ⟨nofun, Or.inl hq⟩
        · have hn : ∀ x ∈ names, (47 : UInt8) ∉ x :=
            hp b.sourceDir names (List.mem_cons_of_mem _ (List.mem_cons_self ..))
          obtain ⟨done, rest, ts, t', h3, rfl, h5, h6⟩ := filesRun tl n hn h2
          rcases h6 with ⟨rfl, rfl, rfl⟩ | ⟨he, h6⟩
          · rw [List.append_nil] at h3
            exact Or.inl ⟨rfl, b, names, ts, rfl, by simp, h3 ▸ h5⟩
          · refine Or.inr ⟨he, Or.inr ⟨b, names, done, rest, ts, t', rfl, rfl, h3, h5, fun ev hev p hp => ?_⟩⟩
            obtain ⟨name, hh, hf⟩ := h6 ev hev
            refine ⟨name, hh, fileCall_changes ?_ hf hp⟩
            have : name ∈ sources names := by
              rw [h3]; exact List.mem_append_right _ (List.mem_of_mem_head? hh)
            exact of_decide_eq_true (List.mem_filter.1 this).2

omit [Unicode] in
theorem plain_left {t1 t2 : List Event} (h : PlainNames (t1 ++ t2)) : PlainNames t1 :=
  fun d ns hd => h d ns (List.mem_append_left _ hd)

omit [Unicode] in
theorem plain_right {t1 t2 : List Event} (h : PlainNames (t1 ++ t2)) : PlainNames t2 :=
  fun d ns hd => h d ns (List.mem_append_right _ hd)

theorem buildsRun {builds : List (Option BuildConfig)} {t e} (hp : PlainNames t)
    (h : Traces (generateBuilds tl n builds) t e) :
    ∃ done rest ts t', builds = done ++ rest ∧ t = ts.flatten ++ t' ∧ List.Forall₂ (BuildDone tl n) done ts ∧
      ((e = .done none ∧ rest = [] ∧ t' = []) ∨ (e ≠ .done none ∧ Stopped tl n rest.head? t')) := by
  induction builds generalizing t with
  | nil =>
    obtain ⟨rfl, rfl | rfl⟩ := runs_ret h
    · exact ⟨[], [], [], [], rfl, rfl, .nil, Or.inl ⟨rfl, rfl, rfl⟩⟩
    · exact ⟨[], [], [], [], rfl, rfl, .nil, Or.inr ⟨nofun, Or.inl nofun⟩⟩
  | cons b builds ih =>
    rcases runs_bind h with ⟨t1, t2, r, rfl, h1, h2⟩ | ⟨e', h1, he⟩
    · rcases buildRun tl n (plain_left hp) h1 with ⟨hr, hd⟩ | ⟨hr, hd⟩
      · cases hr
        obtain ⟨done, rest, ts, t', rfl, rfl, h3, h4⟩ := ih (plain_right hp) h2
        exact ⟨b :: done, rest, t1 :: ts, t', rfl, by simp, .cons hd h3, h4⟩
      · cases r with
        | none => exact absurd rfl hr
        | some er =>
          obtain ⟨rfl, he⟩ := runs_ret h2
          rw [List.append_nil]
          refine ⟨[], b :: builds, [], t1, rfl, rfl, .nil, Or.inr ⟨?_, hd⟩⟩
          rcases he with rfl | rfl <;> nofun
    · refine ⟨[], b :: builds, [], t, rfl, rfl, .nil, Or.inr ⟨ends_ne he, ?_⟩⟩
      rcases buildRun tl n hp h1 with ⟨rfl, hd⟩ | ⟨hr, hd⟩
      · cases he
      · exact hd

omit [Unicode] in
theorem quiet_of_calls {α : Type} {P : Op → Prop} {p : Prog α} (hp : Calls P p) (hP : ∀ o, P o → changes o = none) {t e}
    (h : Traces p t e) : Quiet t := fun ev hev => hP _ (calls_traces hp h ev hev)

omit [Unicode] in
theorem loadConfig_calls (codec : Codec) (path : Bytes) : Calls (fun o => o = .readFile path) (loadConfig codec path) := by
  unfold loadConfig
  refine .op rfl fun r => ?_
  cases r with
  | error => exact .ret
  | ok c =>
    simp only
    split
    · split <;> exact .ret
    · split
      · split <;> exact .ret
      · exact .ret

omit [Unicode] in
theorem loadConfigFromDir_calls (codec : Codec) (dir : Bytes) :
    Calls (fun o => changes o = none ∧ (∀ d, o ≠ .mkdirAll d) ∧ (∀ d, o ≠ .readDir d) ∧ ∀ d, o ≠ .stat d) (loadConfigFromDir codec dir) := by
  unfold loadConfigFromDir globConfig
  refine .bind ?_ fun r => ?_
  · split
    · exact .op ⟨rfl, nofun, nofun, nofun⟩ fun _ => .ret
    · exact .op ⟨rfl, nofun, nofun, nofun⟩ fun _ => .ret
  · match r with
    | .error _ => exact .ret
    | .ok [] => exact .ret
    | .ok (f :: _) =>
      exact (loadConfig_calls codec f).mono fun o h => by rw [h]; exact ⟨rfl, nofun, nofun, nofun⟩

omit [Unicode] in
/-- A configuration that was loaded was decoded from a file that was read. -/
theorem loadConfig_used (codec : Codec) (path : Bytes) {t c} (h : Traces (loadConfig codec path) t (.done (.ok c))) :
    ∃ content, t = [⟨.readFile path, .ok content⟩] ∧ (codec.json content = .ok c ∨ codec.yaml content = .ok c) := by
  unfold loadConfig at h
  rcases runs_op h with ⟨_, h'⟩ | ⟨a, t', rfl, h'⟩
  · cases h'
  rcases a with u | content
  · obtain ⟨_, h | h⟩ := runs_ret h' <;> cases h
  · refine ⟨content, ?_⟩
    simp only at h'
    split at h'
    · split at h' <;> rename_i hj <;> obtain ⟨rfl, h | h⟩ := runs_ret h' <;> cases h
      exact ⟨rfl, Or.inl hj⟩
    · split at h'
      · split at h' <;> rename_i hj <;> obtain ⟨rfl, h | h⟩ := runs_ret h' <;> cases h
        exact ⟨rfl, Or.inr hj⟩
      · obtain ⟨_, h | h⟩ := runs_ret h' <;> cases h

omit [Unicode] in
theorem loadConfigFromDir_used (codec : Codec) (dir : Bytes) {t c}
    (h : Traces (loadConfigFromDir codec dir) t (.done (.ok c))) : UsedConfig codec t c := by
  unfold loadConfigFromDir at h
  rcases runs_bind h with ⟨t1, t2, r, rfl, h1, h2⟩ | ⟨e', _, he⟩
  · match r, h2 with
    | .error _, h2 => obtain ⟨_, h | h⟩ := runs_ret h2 <;> cases h
    | .ok [], h2 => obtain ⟨_, h | h⟩ := runs_ret h2 <;> cases h
    | .ok (f :: _), h2 =>
      obtain ⟨content, rfl, hc⟩ := loadConfig_used codec f h2
      exact Or.inr ⟨f, content, by simp, hc⟩
  · cases he

omit [Unicode] in
/-- Loading the configuration returns, or is cut. -/
theorem config_ends {codec : Codec} {dir : Bytes} {t e} (h : Traces (loadConfigFromDir codec dir) t e) :
    (∃ r, e = .done r) ∨ e = .cut := by
  have hret : ∀ {α : Type} {a : α} {t e}, Traces (.ret a) t e → (∃ r, e = .done r) ∨ e = .cut := by
    intro α a t e h
    obtain ⟨_, rfl | rfl⟩ := runs_ret h
    · exact Or.inl ⟨_, rfl⟩
    · exact Or.inr rfl
  unfold loadConfigFromDir at h
  rcases runs_bind h with ⟨t1, t2, r, rfl, h1, h2⟩ | ⟨e', h1, he⟩
  · match r, h2 with
    | .error _, h2 => exact hret h2
    | .ok [], h2 => exact hret h2
    | .ok (f :: _), h2 =>
      unfold loadConfig at h2
      rcases runs_op h2 with ⟨_, h'⟩ | ⟨a, t', rfl, h'⟩
      · exact Or.inr h'
      rcases a with u | content
      · exact hret h'
      · simp only at h'
        split at h'
        · split at h' <;> exact hret h'
        · split at h'
          · split at h' <;> exact hret h'
          · exact hret h'
  · have : (∃ r, e' = .done r) ∨ e' = .cut := by
      unfold globConfig at h1
      split at h1
      · rcases runs_op h1 with ⟨_, h'⟩ | ⟨a, t', rfl, h'⟩
        · exact Or.inr h'
        · exact hret h'
      · rcases runs_op h1 with ⟨_, h'⟩ | ⟨a, t', rfl, h'⟩
        · exact Or.inr h'
        · exact hret h'
    rcases this with ⟨r, rfl⟩ | rfl <;> cases he
    exact Or.inr rfl

omit [Unicode] in
/-- Loading the configuration does not panic. -/
theorem no_panic {codec : Codec} {dir : Bytes} {t w} (h : Traces (loadConfigFromDir codec dir) t (.panic w)) : False := by
  rcases config_ends h with ⟨_, h⟩ | h <;> cases h

/-- The command: first the configuration, without changing anything; then the builds. -/
theorem cmdRun {t e} (h : Traces (generateCmd tl n) t e) :
    ∃ pre t1, t = pre ++ t1 ∧
      (∀ ev ∈ pre, changes ev.1 = none ∧ (∀ d, ev.1 ≠ .mkdirAll d) ∧ (∀ d, ev.1 ≠ .readDir d) ∧ ∀ d, ev.1 ≠ .stat d) ∧
      ((e ≠ .done none ∧ (∀ w, e ≠ .panic w) ∧ t1 = []) ∨
        ∃ c, UsedConfig tl.codec pre c ∧ Traces (generateBuilds tl n c.builds) t1 e) := by
  unfold generateCmd at h
  rcases runs_op h with ⟨rfl, rfl⟩ | ⟨a, t1, rfl, h1⟩
  · exact ⟨[], [], rfl, nofun, Or.inl ⟨nofun, nofun, rfl⟩⟩
  have hg : ∀ (a : Op.getwd.Ans) t', (∀ ev ∈ t', changes ev.1 = none ∧ (∀ d, ev.1 ≠ .mkdirAll d) ∧ (∀ d, ev.1 ≠ .readDir d) ∧ ∀ d, ev.1 ≠ .stat d) →
      ∀ ev ∈ (⟨.getwd, a⟩ :: t' : List Event), changes ev.1 = none ∧ (∀ d, ev.1 ≠ .mkdirAll d) ∧ (∀ d, ev.1 ≠ .readDir d) ∧ ∀ d, ev.1 ≠ .stat d := by
    intro a t' ht ev hev
    rcases List.mem_cons.1 hev with rfl | hev
    · exact ⟨rfl, nofun, nofun, nofun⟩
    · exact ht ev hev
  rcases a with u | wd
  · obtain ⟨rfl, rfl | rfl⟩ := runs_ret h1
    · exact ⟨_, [], rfl, hg _ [] nofun, Or.inl ⟨nofun, nofun, rfl⟩⟩
    · exact ⟨_, [], rfl, hg _ [] nofun, Or.inl ⟨nofun, nofun, rfl⟩⟩
  · rcases runs_bind h1 with ⟨t2, t3, r, rfl, h2, h3⟩ | ⟨e', h2, he⟩
    · have hq := hg (.ok wd) t2 (calls_traces (loadConfigFromDir_calls tl.codec wd) h2)
      match r, h2, h3 with
      | .error .none, h2, h3 => exact ⟨_ :: t2, t3, rfl, hq, Or.inr ⟨defaultConfig, Or.inl rfl, h3⟩⟩
      | .error .glob, h2, h3 | .error .open, h2, h3 | .error .decode, h2, h3 | .error (.unknownBase _), h2, h3 =>
        obtain ⟨rfl, rfl | rfl⟩ := runs_ret h3
        · exact ⟨_ :: t2, [], rfl, hq, Or.inl ⟨nofun, nofun, rfl⟩⟩
        · exact ⟨_ :: t2, [], rfl, hq, Or.inl ⟨nofun, nofun, rfl⟩⟩
      | .ok c, h2, h3 =>
        refine ⟨_ :: t2, t3, rfl, hq, Or.inr ⟨c, ?_, h3⟩⟩
        rcases loadConfigFromDir_used _ _ h2 with h | ⟨p, ct, hm, h⟩
        · exact Or.inl h
        · exact Or.inr ⟨p, ct, List.mem_cons_of_mem _ hm, h⟩
    · have hq := hg (.ok wd) t1 (calls_traces (loadConfigFromDir_calls tl.codec wd) h2)
      refine ⟨_ :: t1, [], by simp, hq, Or.inl ⟨ends_ne he, fun w hw => ?_, rfl⟩⟩
      subst hw
      cases he
      exact no_panic h2

/-- The calls of one build that change something. -/
theorem buildCalls {build : Option BuildConfig} {t e} (hp : PlainNames t) (h : Traces (generateBuild tl n build) t e) :
    ∀ ev ∈ t, (∀ p, changes ev.1 = some p → ∃ b names name, build = some b ∧
        (⟨.readDir b.sourceDir, .ok names⟩ : Event) ∈ t ∧ name ∈ names ∧ OutputOf b name p) ∧
      (∀ d, ev.1 = .mkdirAll d → ∃ b, build = some b ∧ d = b.outDir) := by
  cases build with
  | none => obtain ⟨rfl, _⟩ := runs_panic h; nofun
  | some b =>
    rcases runs_op (o := .stat b.sourceDir) h with ⟨rfl, rfl⟩ | ⟨a, t1, rfl, h1⟩
    · nofun
    have nil : ∀ t' : List Event, (∀ ev ∈ t', (∀ p, changes ev.1 ≠ some p) ∧ ∀ d, ev.1 ≠ .mkdirAll d) →
        ∀ ev ∈ t', (∀ p, changes ev.1 = some p → ∃ b' names name, some b = some b' ∧
          (⟨.readDir b'.sourceDir, .ok names⟩ : Event) ∈ t' ∧ name ∈ names ∧ OutputOf b' name p) ∧
          (∀ d, ev.1 = .mkdirAll d → ∃ b', some b = some b' ∧ d = b'.outDir) :=
      fun t' ht ev hev => ⟨fun p hc => absurd hc ((ht ev hev).1 p), fun d hd => absurd hd ((ht ev hev).2 d)⟩
    have nil1 : ∀ ev ∈ ([⟨.stat b.sourceDir, a⟩] : List Event), (∀ p, changes ev.1 ≠ some p) ∧ ∀ d, ev.1 ≠ .mkdirAll d := by
      intro ev hev
      rw [List.mem_singleton.1 hev]
      exact ⟨nofun, nofun⟩
    rcases a with er | isDir
    · obtain ⟨rfl, _⟩ := runs_ret h1
      exact nil _ nil1
    cases isDir with
    | false => obtain ⟨rfl, _⟩ := runs_ret h1; exact nil _ nil1
    | true =>
      rcases runs_op (o := .readDir b.sourceDir) h1 with ⟨rfl, rfl⟩ | ⟨a, t2, rfl, h2⟩
      · exact nil _ nil1
      intro ev hev
      rcases List.mem_cons.1 hev with rfl | hev1
      · exact ⟨nofun, nofun⟩
      rcases List.mem_cons.1 hev1 with rfl | hev2
      · exact ⟨nofun, nofun⟩
      rcases a with er | names
      · obtain ⟨rfl, _⟩ := runs_ret h2
        cases hev2
      · obtain ⟨name, hn, hx, hf⟩ := calls_traces (generateFiles_calls tl n b names) h2 ev hev2
        have hs : IsSource name := (source_iff (hp b.sourceDir names (by simp) name hn)).1 hx
        refine ⟨fun p hc => ⟨b, names, name, rfl, by simp, hn, fileCall_changes hs hf hc⟩, fun d hd => ⟨b, rfl, ?_⟩⟩
        rcases hf with h | h | h | h | ⟨_, h⟩ <;> rw [h] at hd <;> cases hd
        rfl

/-- The calls of all builds that change something. -/
theorem buildsCalls {builds : List (Option BuildConfig)} {t e} (hp : PlainNames t)
    (h : Traces (generateBuilds tl n builds) t e) :
    ∀ ev ∈ t, (∀ p, changes ev.1 = some p → ∃ b names name, some b ∈ builds ∧
        (⟨.readDir b.sourceDir, .ok names⟩ : Event) ∈ t ∧ name ∈ names ∧ OutputOf b name p) ∧
      (∀ d, ev.1 = .mkdirAll d → ∃ b, some b ∈ builds ∧ d = b.outDir) := by
  induction builds generalizing t with
  | nil =>
    obtain ⟨rfl, _⟩ := runs_ret h
    nofun
  | cons build builds ih =>
    have one : ∀ {t e}, PlainNames t → Traces (generateBuild tl n build) t e → ∀ ev ∈ t,
        (∀ p, changes ev.1 = some p → ∃ b names name, some b ∈ build :: builds ∧
          (⟨.readDir b.sourceDir, .ok names⟩ : Event) ∈ t ∧ name ∈ names ∧ OutputOf b name p) ∧
        (∀ d, ev.1 = .mkdirAll d → ∃ b, some b ∈ build :: builds ∧ d = b.outDir) := by
      intro t e hp h ev hev
      obtain ⟨h1, h2⟩ := buildCalls tl n hp h ev hev
      refine ⟨fun p hc => ?_, fun d hd => ?_⟩
      · obtain ⟨b, names, name, rfl, h3⟩ := h1 p hc
        exact ⟨b, names, name, List.mem_cons_self .., h3⟩
      · obtain ⟨b, rfl, h3⟩ := h2 d hd
        exact ⟨b, List.mem_cons_self .., h3⟩
    rcases runs_bind h with ⟨t2, t3, r, rfl, h2, h3⟩ | ⟨e', h2, _⟩
    · intro ev hev
      rcases List.mem_append.1 hev with hev | hev
      · obtain ⟨h4, h5⟩ := one (plain_left hp) h2 ev hev
        refine ⟨fun p hc => ?_, h5⟩
        obtain ⟨b, names, name, h6, h7, h8⟩ := h4 p hc
        exact ⟨b, names, name, h6, List.mem_append_left _ h7, h8⟩
      · cases r with
        | some er => obtain ⟨rfl, _⟩ := runs_ret h3; cases hev
        | none =>
          obtain ⟨h4, h5⟩ := ih (plain_right hp) h3 ev hev
          refine ⟨fun p hc => ?_, fun d hd => ?_⟩
          · obtain ⟨b, names, name, h6, h7, h8⟩ := h4 p hc
            exact ⟨b, names, name, List.mem_cons_of_mem _ h6, List.mem_append_right _ h7, h8⟩
          · obtain ⟨b, h6, h7⟩ := h5 d hd
            exact ⟨b, List.mem_cons_of_mem _ h6, h7⟩
    · exact one hp h2

/-! ### All files -/

/-- A part of a run: it changes nothing, or it turns one source into its output. -/
def Part (builds : List (Option BuildConfig)) (s : List Event) : Prop :=
  Quiet s ∨ ∃ b name, some b ∈ builds ∧ FileDone tl n b name s

theorem parts {builds : List (Option BuildConfig)} {ts : List (List Event)} (h : List.Forall₂ (BuildDone tl n) builds ts) :
    ∃ segs : List (List Event), ts.flatten = segs.flatten ∧ (∀ s ∈ segs, Part tl n builds s) ∧
      (∀ b, some b ∈ builds → ∃ names, (⟨.readDir b.sourceDir, .ok names⟩ : Event) ∈ ts.flatten ∧
        ∀ name ∈ sources names, ∃ s ∈ segs, FileDone tl n b name s) ∧ none ∉ builds := by
  induction h with
  | nil => exact ⟨[], rfl, nofun, nofun, nofun⟩
  | cons hd _ ih =>
    obtain ⟨segs, h1, h2, h3, h4⟩ := ih
    obtain ⟨b, names, ts', rfl, rfl, hf⟩ := hd
    have hall : ∀ {xs ys}, List.Forall₂ (FileDone tl n b) xs ys → (∀ s ∈ ys, ∃ name, FileDone tl n b name s) ∧
        ∀ name ∈ xs, ∃ s ∈ ys, FileDone tl n b name s := by
      intro xs ys hf
      induction hf with
      | nil => exact ⟨nofun, nofun⟩
      | cons h _ ih =>
        refine ⟨fun s hs => ?_, fun name hn => ?_⟩
        · rcases List.mem_cons.1 hs with rfl | hs
          · exact ⟨_, h⟩
          · exact ih.1 s hs
        · rcases List.mem_cons.1 hn with rfl | hn
          · exact ⟨_, List.mem_cons_self .., h⟩
          · obtain ⟨s, hs, h⟩ := ih.2 name hn
            exact ⟨s, List.mem_cons_of_mem _ hs, h⟩
    obtain ⟨ha, hb⟩ := hall hf
    refine ⟨[⟨.stat b.sourceDir, .ok true⟩, ⟨.readDir b.sourceDir, .ok names⟩] :: (ts' ++ segs), by simp [h1],
      fun s hs => ?_, fun b' hb' => ?_, by simp [h4]⟩
    · rcases List.mem_cons.1 hs with rfl | hs
      · refine Or.inl fun ev hev => ?_
        simp only [List.mem_cons, List.not_mem_nil, or_false] at hev
        rcases hev with rfl | rfl <;> rfl
      · rcases List.mem_append.1 hs with hs | hs
        · obtain ⟨name, h⟩ := ha s hs
          exact Or.inr ⟨b, name, List.mem_cons_self .., h⟩
        · rcases h2 s hs with h | ⟨b', name, hb', h⟩
          · exact Or.inl h
          · exact Or.inr ⟨b', name, List.mem_cons_of_mem _ hb', h⟩
    · rcases List.mem_cons.1 hb' with hb' | hb'
      · cases hb'
        refine ⟨names, by simp, fun name hn => ?_⟩
        obtain ⟨s, hs, h⟩ := hb name hn
        exact ⟨s, List.mem_cons_of_mem _ (List.mem_append_left _ hs), h⟩
      · obtain ⟨ns, hm, h⟩ := h3 b' hb'
        refine ⟨ns, by simp [hm], fun name hn => ?_⟩
        obtain ⟨s, hs, h⟩ := h name hn
        exact ⟨s, List.mem_cons_of_mem _ (List.mem_append_right _ hs), h⟩

/-- The last one to write an output decides what it holds. -/
theorem last_writer {builds : List (Option BuildConfig)} (at_ : Bytes → Nat) (part : Nat) (segs : List (List Event))
    (hs : ∀ s ∈ segs, Part tl n builds s) (hw : ¬ WriteFailed segs.flatten) (fs : Files Nat) (i : Nat) :
    (effects at_ part segs.flatten fs i = fs i ∧
      ∀ b name s out, s ∈ segs → FileDone tl n b name s → OutputOf b name out → at_ out ≠ i) ∨
    ∃ b name src body out, some b ∈ builds ∧ OutputOf b name out ∧ at_ out = i ∧ CodeOf tl n b.package src body ∧
      (⟨.readFile (joinPath b.sourceDir name), .ok src⟩ : Event) ∈ segs.flatten ∧
      effects at_ part segs.flatten fs i = some (tl.header ++ body.getD []) := by
  induction segs using List.reverseRecOn with
  | nil => exact Or.inl ⟨rfl, nofun⟩
  | append_singleton segs s ih =>
    rw [List.flatten_append, List.flatten_cons, List.flatten_nil, List.append_nil] at hw ⊢
    have ih := ih (fun x hx => hs x (List.mem_append_left _ hx))
      (fun ⟨p, c, u, h⟩ => hw ⟨p, c, u, List.mem_append_left _ h⟩)
    have hws : ¬ WriteFailed s := fun ⟨p, c, u, h⟩ => hw ⟨p, c, u, List.mem_append_right _ h⟩
    rw [effects_append]
    have fd : ∀ b name out, FileDone tl n b name s → OutputOf b name out → at_ out = i →
        ∃ src body, CodeOf tl n b.package src body ∧
          (⟨.readFile (joinPath b.sourceDir name), .ok src⟩ : Event) ∈ s ∧
          ∀ fs, effects at_ part s fs i = some (tl.header ++ body.getD []) := by
      rintro b name out ⟨src, body, out', ho', hc, hr, _, he⟩ ho rfl
      obtain ⟨stem, rfl, rfl⟩ := ho
      obtain ⟨stem', h1, rfl⟩ := ho'
      obtain rfl := List.append_cancel_right h1
      exact ⟨src, body, hc, hr, fun fs => he at_ part fs hws⟩
    by_cases hq : ∀ ev ∈ s, ∀ p, changes ev.1 = some p → at_ p ≠ i
    · rw [effects_other at_ part s _ i hq]
      by_cases hex : ∃ b name out, FileDone tl n b name s ∧ OutputOf b name out ∧ at_ out = i
      · obtain ⟨b, name, out, h1, h2, h3⟩ := hex
        obtain ⟨src, body, hc, hr, he⟩ := fd b name out h1 h2 h3
        exfalso
        have h4 := he (fun _ => none)
        rw [effects_other at_ part s _ i hq] at h4
        cases h4
      · rcases ih with ⟨h1, h2⟩ | ⟨b, name, src, body, out, h1, h2, h3, h4, h5, h6⟩
        · refine Or.inl ⟨h1, fun b name s' out hs' hf ho => ?_⟩
          rcases List.mem_append.1 hs' with hs' | hs'
          · exact h2 b name s' out hs' hf ho
          · rw [List.mem_singleton.1 hs'] at hf
            exact fun ha => hex ⟨b, name, out, hf, ho, ha⟩
        · exact Or.inr ⟨b, name, src, body, out, h1, h2, h3, h4, List.mem_append_left _ h5, h6⟩
    · simp only [not_forall, not_not] at hq
      obtain ⟨ev, hev, p, hc, hi⟩ := hq
      rcases hs s (by simp) with hqs | ⟨b, name, hb, hf⟩
      · rw [hqs ev hev] at hc; cases hc
      · obtain ⟨src', body', out', ho', _, _, hch, _⟩ := id hf
        obtain rfl := hch ev hev p hc
        obtain ⟨src, body, hc, hr, he⟩ := fd b name p hf ho' hi
        exact Or.inr ⟨b, name, src, body, p, hb, ho', hi, hc, List.mem_append_right _ hr, he _⟩

/-! ### Panics -/

/-- Why a source makes the command panic. -/
def CrashingSource (pkg src : Bytes) : Prop :=
  (∃ w, parseSource n src = .panic w) ∨
  (∃ res, parseSource n src = .ok res ∧ res.errs = [] ∧ res.cddl = none) ∨
  ∃ res rules, parseSource n src = .ok res ∧ res.errs = [] ∧ res.cddl = some rules ∧
    ((visit tl.lib (.cddl {} rules) (.new pkg)).2.isPanic = true ∨
      ∃ g w, visit tl.lib (.cddl {} rules) (.new pkg) = (g, .ok ()) ∧ tl.print (g.string tl.resets).file = .panic w)

theorem file_panic {pkg path out : Bytes} {t w} (h : Traces (generateFile tl n pkg path out) t (.panic w)) :
    ∃ src, (⟨.readFile path, .ok src⟩ : Event) ∈ t ∧ CrashingSource tl n pkg src := by
  cases genRun tl n h with
  | read he => rcases he with he | he <;> cases he
  | openFail he => rcases he with he | he <;> cases he
  | opened ho =>
    rename_i src u t
    refine ⟨src, by simp, ?_⟩
    cases ho with
    | parsePanic hw => exact Or.inl ⟨_, hw⟩
    | noTree h1 h2 h3 => exact Or.inr (Or.inl ⟨_, h1, h2, h3⟩)
    | visitPanic h1 h2 h3 h4 => exact Or.inr (Or.inr ⟨_, _, h1, h2, h3, Or.inl (by rw [h4]; rfl)⟩)
    | writeFail _ _ _ _ he => rcases he with he | he <;> cases he
    | printFail h1 h2 h3 h4 he =>
      rcases he with ⟨w', hw, he⟩ | ⟨_, he⟩ | he <;> cases he
      exact Or.inr (Or.inr ⟨_, _, h1, h2, h3, Or.inr ⟨_, _, h4, hw⟩⟩)
    | body _ he => rcases he with he | he <;> cases he

omit [Unicode] in
theorem ensureDir_no_panic {dir : Bytes} {t w} (h : Traces (ensureDir dir) t (.panic w)) : False := by
  unfold ensureDir at h
  rcases runs_op h with ⟨_, h'⟩ | ⟨a, t', rfl, h'⟩
  · cases h'
  rcases a with (_ | _) | _
  · rcases runs_op h' with ⟨_, h''⟩ | ⟨a, t', rfl, h''⟩
    · cases h''
    · rcases a with a | a <;> obtain ⟨_, h | h⟩ := runs_ret h'' <;> cases h
  · obtain ⟨_, h | h⟩ := runs_ret h' <;> cases h
  · obtain ⟨_, h | h⟩ := runs_ret h' <;> cases h

theorem files_panic {b : BuildConfig} {names : List Bytes} {t w} (h : Traces (generateFiles tl n b names) t (.panic w)) :
    ∃ name ∈ names, ∃ src, (⟨.readFile (joinPath b.sourceDir name), .ok src⟩ : Event) ∈ t ∧
      CrashingSource tl n b.package src := by
  induction names generalizing t with
  | nil => obtain ⟨_, h | h⟩ := runs_ret h <;> cases h
  | cons name rest ih =>
    unfold generateFiles at h
    split at h
    · obtain ⟨x, hx, h⟩ := ih h
      exact ⟨x, List.mem_cons_of_mem _ hx, h⟩
    · rcases runs_bind h with ⟨t1, t2, r, rfl, h1, h2⟩ | ⟨e', h1, he⟩
      · rcases r with _ | r
        · rcases runs_bind h2 with ⟨t3, t4, r, rfl, h3, h4⟩ | ⟨e', h3, he⟩
          · rcases r with _ | r
            · obtain ⟨x, hx, src, hs, h⟩ := ih h4
              exact ⟨x, List.mem_cons_of_mem _ hx, src, List.mem_append_right _ (List.mem_append_right _ hs), h⟩
            · obtain ⟨_, h | h⟩ := runs_ret h4 <;> cases h
          · cases he
            obtain ⟨src, hs, h⟩ := file_panic tl n h3
            exact ⟨name, List.mem_cons_self .., src, List.mem_append_right _ hs, h⟩
        · obtain ⟨_, h | h⟩ := runs_ret h2 <;> cases h
      · cases he
        exact absurd h1 ensureDir_no_panic

theorem builds_panic {builds : List (Option BuildConfig)} {t w} (h : Traces (generateBuilds tl n builds) t (.panic w)) :
    none ∈ builds ∨ ∃ b, some b ∈ builds ∧ ∃ name src, (⟨.readFile (joinPath b.sourceDir name), .ok src⟩ : Event) ∈ t ∧
      CrashingSource tl n b.package src := by
  induction builds generalizing t with
  | nil => obtain ⟨_, h | h⟩ := runs_ret h <;> cases h
  | cons build builds ih =>
    rcases runs_bind h with ⟨t1, t2, r, rfl, h1, h2⟩ | ⟨e', h1, he⟩
    · rcases r with _ | r
      · rcases ih h2 with h | ⟨b, hb, name, src, hs, h⟩
        · exact Or.inl (List.mem_cons_of_mem _ h)
        · exact Or.inr ⟨b, List.mem_cons_of_mem _ hb, name, src, List.mem_append_right _ hs, h⟩
      · obtain ⟨_, h | h⟩ := runs_ret h2 <;> cases h
    · cases he
      cases build with
      | none => exact Or.inl (List.mem_cons_self ..)
      | some b =>
        refine Or.inr ⟨b, List.mem_cons_self .., ?_⟩
        unfold generateBuild at h1
        rcases runs_op h1 with ⟨_, h'⟩ | ⟨a, t', rfl, h'⟩
        · cases h'
        rcases a with er | isDir
        · obtain ⟨_, h | h⟩ := runs_ret h' <;> cases h
        cases isDir with
        | false => obtain ⟨_, h | h⟩ := runs_ret h' <;> cases h
        | true =>
          rcases runs_op h' with ⟨_, h''⟩ | ⟨a, t', rfl, h''⟩
          · cases h''
          rcases a with er | names
          · obtain ⟨_, h | h⟩ := runs_ret h'' <;> cases h
          · obtain ⟨name, _, src, hs, h⟩ := files_panic tl n h''
            exact ⟨name, src, List.mem_cons_of_mem _ (List.mem_cons_of_mem _ hs), h⟩

/-! ### Paths that are looked at -/

theorem generateBuilds_stats (builds : List (Option BuildConfig)) :
    Calls (fun o => ∀ p, o = .stat p → ∃ b, some b ∈ builds ∧ (p = b.sourceDir ∨ p = b.outDir))
      (generateBuilds tl n builds) := by
  induction builds with
  | nil => exact .ret
  | cons build builds ih =>
    have one : Calls (fun o => ∀ p, o = .stat p → ∃ b, some b ∈ build :: builds ∧ (p = b.sourceDir ∨ p = b.outDir))
        (generateBuild tl n build) := by
      unfold generateBuild
      cases build with
      | none => exact .panic
      | some b =>
        refine .op (fun p hp => ⟨b, List.mem_cons_self .., Or.inl (by cases hp; rfl)⟩) fun a => ?_
        rcases a with _ | isDir
        · exact .ret
        cases isDir with
        | false => exact .ret
        | true =>
          refine .op nofun fun a => ?_
          rcases a with _ | names
          · exact .ret
          refine (generateFiles_calls tl n b names).mono fun o h p hp => ⟨b, List.mem_cons_self .., Or.inr ?_⟩
          obtain ⟨name, _, _, h⟩ := h
          rcases h with h | h | h | h | ⟨_, h⟩ <;> rw [h] at hp <;> cases hp
          rfl
    refine .bind one fun r => ?_
    cases r with
    | some e => exact .ret
    | none =>
      refine ih.mono fun o h p hp => ?_
      obtain ⟨b, hb, h⟩ := h p hp
      exact ⟨b, List.mem_cons_of_mem _ hb, h⟩

end

/-! ### The header -/

theorem afterComment_plain {a : Bytes} (h : (42 : UInt8) ∉ a) (b : Bytes) : afterComment (a ++ b) = afterComment b := by
  induction a with
  | nil => rfl
  | cons c a ih =>
    simp only [List.mem_cons, not_or] at h
    show afterComment (c :: (a ++ b)) = _
    rw [afterComment, if_neg (fun hh => h.1 hh.1.symm), ih h.2]

theorem afterComment_none {a : Bytes} (h : ¬ (b!"*/") <:+: a) {b : Bytes} (hb : b.head? ≠ some 47) :
    afterComment (a ++ b) = afterComment b := by
  induction a with
  | nil => rfl
  | cons c a ih =>
    show afterComment (c :: (a ++ b)) = _
    rw [afterComment, if_neg, ih fun hh => h (hh.trans (List.infix_cons (List.infix_refl a)))]
    rintro ⟨rfl, h2⟩
    cases a with
    | nil => exact hb h2
    | cons d a =>
      simp only [List.cons_append, List.head?_cons, Option.some.injEq] at h2
      subst h2
      exact h ⟨[], a, rfl⟩

theorem afterComment_some {a : Bytes} (h : (b!"*/") <:+: a) (b : Bytes) :
    ∃ r, afterComment (a ++ b) = some (r ++ b) := by
  induction a with
  | nil => simp at h
  | cons c a ih =>
    show ∃ r, afterComment (c :: (a ++ b)) = _
    rw [afterComment]
    split
    · rename_i hc
      cases a with
      | nil =>
        rcases List.infix_cons_iff.1 h with ⟨s, hs⟩ | h
        · cases hs
        · simp at h
      | cons d a => exact ⟨a, rfl⟩
    · rename_i hc
      rcases List.infix_cons_iff.1 h with ⟨s, hs⟩ | h
      · exfalso
        cases hs
        exact hc ⟨rfl, rfl⟩
      · exact ih h

end Cddlc
