import Verif.Model.Generate
import Verif.Lemmas.Os
import Verif.Spec.World

/-! Properties of the command `init` (C53, C75). -/

namespace Cddlc
open Spec

/-- The runs of `init`. -/
inductive InitRun (json : Bytes) : List Event → End (Option InitErr) → Prop
  | cut0 : InitRun json [] .cut
  | getwd {u e} : e = .cut ∨ e = .done (some .getwd) → InitRun json [⟨.getwd, .error u⟩] e
  | cut1 {root} : InitRun json [⟨.getwd, .ok root⟩] .cut
  | exists {root d e} : e = .cut ∨ e = .done (some .exists) →
    InitRun json [⟨.getwd, .ok root⟩, ⟨.stat (joinPath root b!"cddlc.json"), .ok d⟩] e
  | stat {root e} : e = .cut ∨ e = .done (some .stat) →
    InitRun json [⟨.getwd, .ok root⟩, ⟨.stat (joinPath root b!"cddlc.json"), .error .other⟩] e
  | cut2 {root} : InitRun json [⟨.getwd, .ok root⟩, ⟨.stat (joinPath root b!"cddlc.json"), .error .notExist⟩] .cut
  | openFail {root u e} : e = .cut ∨ e = .done (some .open) →
    InitRun json [⟨.getwd, .ok root⟩, ⟨.stat (joinPath root b!"cddlc.json"), .error .notExist⟩,
      ⟨.openAppend (joinPath root b!"cddlc.json"), .error u⟩] e
  | cut3 {root u} : InitRun json [⟨.getwd, .ok root⟩, ⟨.stat (joinPath root b!"cddlc.json"), .error .notExist⟩,
      ⟨.openAppend (joinPath root b!"cddlc.json"), .ok u⟩] .cut
  | write {root u a e} : e = .cut ∨ e = .done (match a with | .error _ => some .write | .ok _ => none) →
    InitRun json [⟨.getwd, .ok root⟩, ⟨.stat (joinPath root b!"cddlc.json"), .error .notExist⟩,
      ⟨.openAppend (joinPath root b!"cddlc.json"), .ok u⟩, ⟨.write (joinPath root b!"cddlc.json") json, a⟩] e

theorem initRun {json : Bytes} {t e} (h : Traces (initWith json) t e) : InitRun json t e := by
  have hret : ∀ {a : Option InitErr} {t e}, Traces (.ret a) t e → t = [] ∧ (e = .cut ∨ e = .done a) := by
    intro a t e h
    obtain ⟨h1, h2⟩ := runs_ret h
    exact ⟨h1, h2.symm⟩
  unfold initWith at h
  rcases runs_op h with ⟨rfl, rfl⟩ | ⟨a, t1, rfl, h1⟩
  · exact .cut0
  rcases a with u | root
  · obtain ⟨rfl, he⟩ := hret h1
    exact .getwd he
  rcases runs_op (o := .stat (joinPath root b!"cddlc.json")) h1 with ⟨rfl, rfl⟩ | ⟨a, t2, rfl, h2⟩
  · exact .cut1
  rcases a with (_ | _) | d
  · rcases runs_op (o := .openAppend (joinPath root b!"cddlc.json")) h2 with ⟨rfl, rfl⟩ | ⟨a, t3, rfl, h3⟩
    · exact .cut2
    rcases a with u | u
    · obtain ⟨rfl, he⟩ := hret h3
      exact .openFail he
    rcases runs_op (o := .write (joinPath root b!"cddlc.json") json) h3 with ⟨rfl, rfl⟩ | ⟨a, t4, rfl, h4⟩
    · exact .cut3
    rcases a with v | v
    · obtain ⟨rfl, he⟩ := hret h4
      exact .write he
    · obtain ⟨rfl, he⟩ := hret h4
      exact .write he
  · obtain ⟨rfl, he⟩ := hret h2
    exact .stat he
  · obtain ⟨rfl, he⟩ := hret h2
    exact .exists he

/-- The calls of `init`: besides looking, it opens the configuration to add to it, and writes all of the
text. -/
theorem init_calls {json : Bytes} {t e} (h : Traces (initWith json) t e) : ∀ ev ∈ t, changes ev.1 ≠ none →
    ∃ root, (⟨.getwd, .ok root⟩ : Event) ∈ t ∧ (ev.1 = .openAppend (joinPath root b!"cddlc.json") ∨
      ev.1 = .write (joinPath root b!"cddlc.json") json) := by
  have key : ∀ root : Bytes, ∀ ev : Event, ev.1 = .openAppend (joinPath root b!"cddlc.json") ∨
      ev.1 = .write (joinPath root b!"cddlc.json") json ∨ changes ev.1 = none → (⟨.getwd, .ok root⟩ : Event) ∈ t →
      changes ev.1 ≠ none → ∃ root, (⟨.getwd, .ok root⟩ : Event) ∈ t ∧ (ev.1 = .openAppend (joinPath root b!"cddlc.json") ∨
        ev.1 = .write (joinPath root b!"cddlc.json") json) := by
    rintro root ev (h | h | h) hm hc
    · exact ⟨root, hm, Or.inl h⟩
    · exact ⟨root, hm, Or.inr h⟩
    · exact absurd h hc
  intro ev hev hc
  cases initRun h with
  | cut0 => cases hev
  | getwd => cases List.mem_singleton.1 hev; exact absurd rfl hc
  | @cut1 root => exact key root ev (by simp only [List.mem_cons, List.not_mem_nil, or_false] at hev; subst hev; simp [changes]) (by simp) hc
  | @«exists» root | @stat root | @cut2 root =>
    refine key root ev ?_ (by simp) hc
    simp only [List.mem_cons, List.not_mem_nil, or_false] at hev
    rcases hev with rfl | rfl <;> simp [changes]
  | @openFail root | @cut3 root =>
    refine key root ev ?_ (by simp) hc
    simp only [List.mem_cons, List.not_mem_nil, or_false] at hev
    rcases hev with rfl | rfl | rfl <;> simp [changes]
  | @write root =>
    refine key root ev ?_ (by simp) hc
    simp only [List.mem_cons, List.not_mem_nil, or_false] at hev
    rcases hev with rfl | rfl | rfl | rfl <;> simp [changes]

/-- A call that opens a file to add to it or writes to it keeps what is in the files. -/
theorem effect_prefix {ι : Type} [DecidableEq ι] (at_ : Bytes → ι) (part : Nat) (ev : Event) (fs : Files ι) (i : ι) (c : Bytes)
    (h : ∀ p, ev.1 ≠ .openTrunc p) (hc : fs i = some c) : ∃ s, effect at_ part ev fs i = some (c ++ s) := by
  obtain ⟨o, a⟩ := ev
  cases o with
  | openTrunc p => exact absurd rfl (h p)
  | openAppend p =>
    cases a with
    | error => exact ⟨[], by simpa [effect] using hc⟩
    | ok =>
      refine ⟨[], ?_⟩
      simp only [effect, Files.set, List.append_nil]
      split
      · rename_i hi; rw [← hi, hc]; rfl
      · exact hc
  | write p d =>
    cases a with
    | error | ok =>
      simp only [effect, Files.set]
      split
      · rename_i hi; rw [← hi, hc]; exact ⟨_, rfl⟩
      · exact ⟨[], by simpa using hc⟩
  | _ => exact ⟨[], by simpa [effect] using hc⟩

/-! ### C53 -/

/-- **C53**: whatever others do between the calls of `init`, each of its calls keeps the bytes that are in
any file at that moment, and only adds after them; and only to `cddlc.json` in the working directory. -/
theorem C53_only_adds {json : Bytes} {ι : Type} [DecidableEq ι] (at_ : Bytes → ι) (part : Nat) {h : List (Step ι)} {e}
    (ht : Traces (initWith json) (owns h) e) {before after : List (Step ι)} {ev : Event} (hs : h = before ++ .own ev :: after)
    (fs : Files ι) (i : ι) :
    (∀ c, history at_ part before fs i = some c → ∃ s, history at_ part (before ++ [.own ev]) fs i = some (c ++ s)) ∧
    (history at_ part (before ++ [.own ev]) fs i = history at_ part before fs i ∨
      ∃ root, (⟨.getwd, .ok root⟩ : Event) ∈ owns h ∧ i = at_ (joinPath root b!"cddlc.json")) := by
  have happ : ∀ (l : List (Step ι)) (fs : Files ι), history at_ part (l ++ [.own ev]) fs = effect at_ part ev (history at_ part l fs) := by
    intro l
    induction l with
    | nil => exact fun fs => rfl
    | cons a l ih =>
      cases a with
      | own e => exact fun fs => ih _
      | other f => exact fun fs => ih _
  have hmem : ∀ l : List (Step ι), .own ev ∈ l → ev ∈ owns l := by
    intro l hl
    induction l with
    | nil => cases hl
    | cons a l ih =>
      rcases List.mem_cons.1 hl with rfl | hl'
      · exact List.mem_cons_self ..
      · cases a with
        | own e => exact List.mem_cons_of_mem _ (ih hl')
        | other f => exact ih hl'
  have hev : ev ∈ owns h := hmem h (by rw [hs]; simp)
  rw [happ]
  have key := init_calls ht ev hev
  constructor
  · intro c hc
    refine effect_prefix at_ part ev _ i c (fun p hp => ?_) hc
    obtain ⟨root, _, h | h⟩ := key (by rw [hp]; exact Option.some_ne_none _)
    · rw [hp] at h; cases h
    · rw [hp] at h; cases h
  · by_cases hn : changes ev.1 = none
    · exact Or.inl (effect_other at_ part ev _ i fun p hp => by rw [hn] at hp; cases hp)
    · obtain ⟨root, hr, h⟩ := key hn
      by_cases hi : at_ (joinPath root b!"cddlc.json") = i
      · exact Or.inr ⟨root, hr, hi.symm⟩
      · refine Or.inl (effect_other at_ part ev _ i fun p hp => ?_)
        rcases h with h | h <;>
        · rw [h] at hp
          cases hp
          exact hi

/-- **C53**: if the configuration is there when it is looked for, or it cannot be told, nothing is opened
or written, and `init` fails. -/
theorem C53_exists {json : Bytes} {t e} (h : Traces (initWith json) t e) {p : Bytes} {a : Except StatErr Bool}
    (hs : (⟨.stat p, a⟩ : Event) ∈ t) (ha : a ≠ .error .notExist) :
    (∀ ev ∈ t, changes ev.1 = none) ∧ e ≠ .done none := by
  cases initRun h with
  | cut0 | getwd | cut1 => simp at hs
  | «exists» he | stat he =>
    constructor
    · intro ev hev
      simp only [List.mem_cons, List.not_mem_nil, or_false] at hev
      rcases hev with rfl | rfl <;> rfl
    · rcases he with rfl | rfl <;> nofun
  | cut2 | openFail | cut3 | write =>
    exfalso
    simp only [List.mem_cons, List.not_mem_nil, or_false, Sigma.mk.injEq, reduceCtorEq, false_and, or_false, false_or,
      Op.stat.injEq] at hs
    obtain ⟨rfl, hs⟩ := hs
    exact ha (eq_of_heq hs)

/-- Calls of processes that run together are calls of one of them. -/
theorem together_mem {ts u} (h : Together ts u) : ∀ ev ∈ u, ∃ t ∈ ts, ev ∈ t := by
  induction h with
  | done => nofun
  | @step pre e t post u _ ih =>
    intro ev hev
    rcases List.mem_cons.1 hev with rfl | hev
    · exact ⟨ev :: t, by simp, List.mem_cons_self ..⟩
    · obtain ⟨t', h1, h2⟩ := ih ev hev
      simp only [List.mem_append, List.mem_cons] at h1
      rcases h1 with h1 | rfl | h1
      · exact ⟨t', by simp [h1], h2⟩
      · exact ⟨e :: t', by simp, List.mem_cons_of_mem _ h2⟩
      · exact ⟨t', by simp [h1], h2⟩

/-- And all calls of each of them are made. -/
theorem together_all {ts u} (h : Together ts u) : ∀ t ∈ ts, ∀ ev ∈ t, ev ∈ u := by
  induction h with
  | done h => intro t ht ev hev; rw [h t ht] at hev; cases hev
  | @step pre e t post u _ ih =>
    intro t' ht' ev hev
    simp only [List.mem_append, List.mem_cons] at ht'
    rcases ht' with h1 | rfl | h1
    · exact List.mem_cons_of_mem _ (ih t' (by simp [h1]) ev hev)
    · rcases List.mem_cons.1 hev with rfl | hev
      · exact List.mem_cons_self ..
      · exact List.mem_cons_of_mem _ (ih t (by simp) ev hev)
    · exact List.mem_cons_of_mem _ (ih t' (by simp [h1]) ev hev)

/-- An `init` that succeeds has written the text. -/
theorem init_done {json : Bytes} {t} (h : Traces (initWith json) t (.done none)) :
    ∃ p v, (⟨.write p json, .ok v⟩ : Event) ∈ t := by
  generalize he : End.done none = e at h
  cases initRun h with
  | cut0 | cut1 | cut2 | cut3 => cases he
  | getwd h | «exists» h | stat h | openFail h => subst he; rcases h with h | h <;> cases h
  | @write root u a _ h =>
    subst he
    rcases a with v | v
    · rcases h with h | h <;> cases h
    · exact ⟨joinPath root b!"cddlc.json", v, by simp⟩

/-- **C53**: however many `init` run together in one directory, whatever they are told and whenever they
are killed: if no write fails, the configuration holds what it held before, and then the text some number
of times, at least once if one of them succeeds. -/
theorem C53_together {json root : Bytes} {ts u} (h : Together ts u) (ht : ∀ t ∈ ts, ∃ e, Traces (initWith json) t e)
    (hr : ∀ r, (⟨.getwd, .ok r⟩ : Event) ∈ u → r = root) (hw : ∀ p c v, (⟨.write p c, .error v⟩ : Event) ∉ u)
    (at_ : Bytes → Nat) (part : Nat) (fs : Files Nat) :
    ∃ k, (effects at_ part u fs (at_ (joinPath root b!"cddlc.json"))).getD [] =
        (fs (at_ (joinPath root b!"cddlc.json"))).getD [] ++ (List.replicate k json).flatten ∧
      ((∃ t ∈ ts, Traces (initWith json) t (.done none)) → k ≠ 0) := by
  have hcalls : ∀ ev ∈ u, changes ev.1 = none ∨ ev.1 = .openAppend (joinPath root b!"cddlc.json") ∨
      ∃ v, ev = ⟨.write (joinPath root b!"cddlc.json") json, .ok v⟩ := by
    intro ev hev
    obtain ⟨t, h1, h2⟩ := together_mem h ev hev
    obtain ⟨e, he⟩ := ht t h1
    by_cases hc : changes ev.1 = none
    · exact Or.inl hc
    · obtain ⟨r, h3, h4⟩ := init_calls he ev h2 hc
      obtain rfl := hr r (together_all h t h1 _ h3)
      rcases h4 with h4 | h4
      · exact Or.inr (Or.inl h4)
      · obtain ⟨o, a⟩ := ev
        simp only at h4
        subst h4
        rcases a with v | v
        · exact absurd hev (hw _ _ v)
        · exact Or.inr (Or.inr ⟨v, rfl⟩)
  have hone : (∃ t ∈ ts, Traces (initWith json) t (.done none)) → ∃ p v, (⟨.write p json, .ok v⟩ : Event) ∈ u := by
    rintro ⟨t, h1, h2⟩
    obtain ⟨p, v, h3⟩ := init_done h2
    exact ⟨p, v, together_all h t h1 _ h3⟩
  suffices hs : ∃ k, (effects at_ part u fs (at_ (joinPath root b!"cddlc.json"))).getD [] =
      (fs (at_ (joinPath root b!"cddlc.json"))).getD [] ++ (List.replicate k json).flatten ∧
      ((∃ p v, (⟨.write p json, .ok v⟩ : Event) ∈ u) → k ≠ 0) by
    obtain ⟨k, h1, h2⟩ := hs
    exact ⟨k, h1, fun h => h2 (hone h)⟩
  clear h hr hw ht hone
  induction u generalizing fs with
  | nil => exact ⟨0, by simp [effects], by simp⟩
  | cons ev u ih =>
    obtain ⟨k, hk, h0⟩ := ih (effect at_ part ev fs) fun x hx => hcalls x (List.mem_cons_of_mem _ hx)
    show ∃ k, (effects at_ part u _ _).getD [] = _ ∧ _
    rw [hk]
    rcases hcalls ev (List.mem_cons_self ..) with h | h | ⟨v, rfl⟩
    · rw [effect_other at_ part ev fs _ fun p hp => by rw [h] at hp; cases hp]
      refine ⟨k, rfl, fun ⟨p, v, hm⟩ => h0 ⟨p, v, (List.mem_cons.1 hm).resolve_left ?_⟩⟩
      rintro rfl; cases h
    · obtain ⟨o, a⟩ := ev
      simp only at h
      subst h
      have h1 : (∃ p v, (⟨.write p json, .ok v⟩ : Event) ∈ (⟨.openAppend (joinPath root b!"cddlc.json"), a⟩ : Event) :: u) →
          k ≠ 0 := fun ⟨p, v, hm⟩ => h0 ⟨p, v, (List.mem_cons.1 hm).resolve_left nofun⟩
      rcases a with v | v
      · exact ⟨k, rfl, h1⟩
      · exact ⟨k, by simp [effect, Files.set], h1⟩
    · exact ⟨k + 1, by simp [effect, Files.set, List.replicate_succ], fun _ => Nat.succ_ne_zero k⟩

/-! ### C75 -/

/-- **C75** (partial): if nobody else changes files meanwhile, `init` succeeds only if there was no
configuration, and then it holds the text and nothing else. -/
theorem C75_alone_partial {json : Bytes} {t} (h : Traces (initWith json) t (.done none)) (at_ : Bytes → Nat) (part : Nat)
    (fs : Files Nat) (ht : TrueStats at_ part t fs) :
    ∃ root, (⟨.getwd, .ok root⟩ : Event) ∈ t ∧ fs (at_ (joinPath root b!"cddlc.json")) = none ∧
      effects at_ part t fs = fs.set (at_ (joinPath root b!"cddlc.json")) (some json) := by
  generalize he : End.done none = e at h
  cases initRun h with
  | cut0 | cut1 | cut2 | cut3 => cases he
  | getwd h | «exists» h | stat h | openFail h => subst he; rcases h with h | h <;> cases h
  | @write root u a _ h =>
    subst he
    rcases a with v | v
    · rcases h with h | h <;> cases h
    · have hn := ht.2.2.2.1 _ rfl
      replace hn : fs (at_ (joinPath root b!"cddlc.json")) = none := hn
      refine ⟨root, by simp, hn, ?_⟩
      funext i
      simp only [effects, effect, Files.set]
      by_cases hi : i = at_ (joinPath root b!"cddlc.json")
      · simp [hi, hn]
      · simp [hi]

/-- The calls of a successful `init` in `/w`. -/
def initTrace (json : Bytes) : List Event :=
  [⟨.getwd, .ok b!"/w"⟩, ⟨.stat b!"/w/cddlc.json", .error .notExist⟩, ⟨.openAppend b!"/w/cddlc.json", .ok ()⟩,
    ⟨.write b!"/w/cddlc.json" json, .ok ()⟩]

theorem init_traces (json : Bytes) : Traces (initWith json) (initTrace json) (.done none) :=
  .op (o := .getwd) (.ok b!"/w") <| .op (o := .stat b!"/w/cddlc.json") (.error .notExist) <|
    .op (o := .openAppend b!"/w/cddlc.json") (.ok ()) <| .op (o := .write b!"/w/cddlc.json" json) (.ok ()) .ret

example (json : Bytes) : TrueStats (fun _ => 0) 0 (initTrace json) (fun _ => none) := by
  simp [TrueStats, initTrace, effect]

/-- A history of one `init` during which another file is written by someone else. -/
example (json : Bytes) : owns ([.own ⟨.getwd, .ok b!"/w"⟩, .other fun fs => fs.set 1 (some b!"x"),
    .own ⟨.stat b!"/w/cddlc.json", .error .notExist⟩, .own ⟨.openAppend b!"/w/cddlc.json", .ok ()⟩,
    .own ⟨.write b!"/w/cddlc.json" json, .ok ()⟩] : List (Step Nat)) = initTrace json := rfl

/-- Two that run together, each step of the second after that of the first. -/
def bothTrace (json : Bytes) : List Event := (initTrace json).flatMap fun e => [e, e]

theorem both_together (json : Bytes) : Together [initTrace json, initTrace json] (bothTrace json) := by
  have one : ∀ (e : Event) (t u : List Event), Together [t, t] u → Together [e :: t, e :: t] (e :: e :: u) := by
    intro e t u h
    refine .step (pre := []) (t := t) (post := [e :: t]) ?_
    exact .step (pre := [t]) (t := t) (post := []) h
  refine one _ _ _ (one _ _ _ (one _ _ _ (one _ _ _ (.done ?_))))
  simp

/-- **C75** is false: two that run together both find no configuration and both succeed, and the file
holds the text twice, which is not what one of them writes. -/
theorem C75_refuted (json : Bytes) (hj : json ≠ []) : ∃ t1 t2 u, Traces (initWith json) t1 (.done none) ∧
    Traces (initWith json) t2 (.done none) ∧ Together [t1, t2] u ∧
    ∀ (at_ : Bytes → Nat) (part : Nat), ∃ c, effects at_ part u (fun _ => none) (at_ b!"/w/cddlc.json") = some c ∧
      c = json ++ json ∧ c ≠ json := by
  refine ⟨_, _, _, init_traces json, init_traces json, both_together json, fun at_ part => ⟨_, ?_, rfl, by simpa using hj⟩⟩
  simp [bothTrace, initTrace, effects, effect, Files.set]

end Cddlc
