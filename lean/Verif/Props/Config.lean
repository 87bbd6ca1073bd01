import Verif.Lemmas.Os
import Mathlib.Data.List.Forall2

/-! Properties of the configuration (C49, C54). -/

namespace Cddlc
open Spec

/-! ### C54: plugins -/

/-- A plugin's local path is a directory, by the answer to the call. -/
def GoodPlugin (p : Option Plugin) (e : Event) : Prop :=
  ∃ q, p = some q ∧ e = ⟨.stat q.path, .ok true⟩

/-- The error of a plugin whose path is not a directory. -/
inductive BadPlugin : Option Plugin → Event → PluginErr → Prop
  | stat {q e} : BadPlugin (some q) ⟨.stat q.path, .error e⟩ (.stat e)
  | notDir {q} : BadPlugin (some q) ⟨.stat q.path, .ok false⟩ (.notDir q.path)

/-- The runs of `Valid` on a list of plugins: their paths are looked at in order, up to the first that
is not a directory or to a nil plugin; they may be cut off. -/
def PluginRun (ps : List (Option Plugin)) (t : List Event) : End (Except PluginErr Unit) → Prop
  | .done (.ok _) => List.Forall₂ GoodPlugin ps t
  | .done (.error err) => ∃ good p bad t' ev, ps = good ++ p :: bad ∧ t = t' ++ [ev] ∧
        List.Forall₂ GoodPlugin good t' ∧ BadPlugin p ev err
  | .panic w => w = .nilDeref ∧ ∃ good bad, ps = good ++ none :: bad ∧ List.Forall₂ GoodPlugin good t
  | .hang => False
  | .cut => ∃ good rest, ps = good ++ rest ∧
        (List.Forall₂ GoodPlugin good t ∨ ∃ p bad t' ev err, rest = p :: bad ∧ t = t' ++ [ev] ∧
          List.Forall₂ GoodPlugin good t' ∧ BadPlugin p ev err)

/-- **C54**: `Valid` looks at the paths of the plugins in order. It returns nil exactly if all are
directories; otherwise the error of the first that is not, and it looks at no later one. It panics
exactly if it comes to a nil plugin. These are all its runs, whatever the system answers. -/
theorem C54_first_bad (c : Config) (t : List Event) (e : End (Except PluginErr Unit)) (h : Traces c.valid t e) :
    PluginRun c.plugins t e := by
  unfold Config.valid at h
  generalize c.plugins = ps at h ⊢
  induction ps generalizing t e with
  | nil =>
    obtain ⟨rfl, rfl | rfl⟩ := runs_ret h
    · exact .nil
    · exact ⟨[], [], rfl, Or.inl .nil⟩
  | cons p ps ih =>
    rcases p with _ | p
    · obtain ⟨rfl, rfl | rfl⟩ := runs_panic h
      · exact ⟨rfl, [], ps, rfl, .nil⟩
      · exact ⟨[], _, rfl, Or.inl .nil⟩
    · rcases runs_op (o := .stat p.path) h with ⟨rfl, rfl⟩ | ⟨a, t', rfl, h'⟩
      · exact ⟨[], _, rfl, Or.inl .nil⟩
      clear h; rename' h' => h
      · rcases a with er | isDir
        · obtain ⟨rfl, rfl | rfl⟩ := runs_ret h
          · exact ⟨[], _, ps, [], _, rfl, rfl, .nil, .stat⟩
          · exact ⟨[], _, rfl, Or.inr ⟨_, ps, [], _, _, rfl, rfl, .nil, .stat⟩⟩
        · cases isDir with
          | false =>
            obtain ⟨rfl, rfl | rfl⟩ := runs_ret h
            · exact ⟨[], _, ps, [], _, rfl, rfl, .nil, .notDir⟩
            · exact ⟨[], _, rfl, Or.inr ⟨_, ps, [], _, _, rfl, rfl, .nil, .notDir⟩⟩
          | true =>
            have hg : GoodPlugin (some p) ⟨.stat p.path, .ok true⟩ := ⟨p, rfl, rfl⟩
            have := ih t' e h
            rcases e with (err | u) | w | _ | _
            · obtain ⟨good, q, bad, t1, ev, rfl, rfl, h1, h2⟩ := this
              exact ⟨some p :: good, q, bad, _ :: t1, ev, rfl, rfl, .cons hg h1, h2⟩
            · exact .cons hg this
            · obtain ⟨rfl, good, bad, rfl, h1⟩ := this
              exact ⟨rfl, some p :: good, bad, rfl, .cons hg h1⟩
            · exact this
            · obtain ⟨good, rest, rfl, h1 | ⟨q, bad, t1, ev, err, rfl, rfl, h1, h2⟩⟩ := this
              · exact ⟨some p :: good, rest, rfl, Or.inl (.cons hg h1)⟩
              · exact ⟨some p :: good, _, rfl, Or.inr ⟨q, bad, _ :: t1, ev, err, rfl, rfl, .cons hg h1, h2⟩⟩

/-- **C54**: and it does return nil if all plugins are directories. -/
theorem C54_accepts (c : Config) (t : List Event) (h : List.Forall₂ GoodPlugin c.plugins t) :
    Traces c.valid t (.done (.ok ())) := by
  unfold Config.valid
  generalize c.plugins = ps at h
  induction h with
  | nil => exact .ret
  | cons hg _ ih =>
    obtain ⟨q, rfl, rfl⟩ := hg
    exact .op (o := .stat q.path) (.ok true) ih

/-- Two plugins, the second a file: the error names the second; a third is not looked at. -/
example : Traces (Config.valid ⟨b!"1", [some ⟨b!"a", b!"/p", []⟩, some ⟨b!"b", b!"/f", []⟩, none], []⟩)
    [⟨.stat b!"/p", .ok true⟩, ⟨.stat b!"/f", .ok false⟩] (.done (.error (.notDir b!"/f"))) :=
  .op (o := .stat b!"/p") (.ok true) (.op (o := .stat b!"/f") (.ok false) .ret)

example : Traces (Config.valid ⟨b!"1", [some ⟨b!"a", b!"/p", []⟩, none], []⟩) [⟨.stat b!"/p", .ok true⟩] (.panic .nilDeref) :=
  .op (o := .stat b!"/p") (.ok true) .panic

/-! ### C49: which configuration is used -/

/-- The names that `loadConfigFromDir` considers. -/
def IsConfigName (n : Bytes) : Prop := ∃ s, n = b!"cddlc." ++ s

/-- What becomes of the file found, by its name and content. -/
def loaded (codec : Codec) (name : Bytes) : Except Unit Bytes → Except ConfigErr Config
  | .error _ => .error .open
  | .ok content =>
    if name = b!"cddlc.json" then (codec.json content).mapError fun _ => .decode
    else if name = b!"cddlc.yaml" then (codec.yaml content).mapError fun _ => .decode
    else .error (.unknownBase name)

theorem take6_iff (n : Bytes) : n.take 6 = b!"cddlc." ↔ IsConfigName n := by
  constructor
  · intro h
    exact ⟨n.drop 6, by rw [← h, List.take_append_drop]⟩
  · rintro ⟨s, rfl⟩
    rfl

theorem config_fileName {n : Bytes} (h : IsConfigName n) (hs : (47 : UInt8) ∉ n) : FileName n := by
  obtain ⟨s, rfl⟩ := h
  exact ⟨hs, by simp, by simp, by simp⟩

theorem runs_loadConfig (codec : Codec) (path : Bytes) (t : List Event) (r : Except ConfigErr Config)
    (h : Traces (loadConfig codec path) t (.done r)) :
    ∃ a, t = [⟨.readFile path, a⟩] ∧ r = loaded codec (basePath path) a := by
  rcases runs_op (o := .readFile path) h with ⟨_, h'⟩ | ⟨a, t', rfl, h'⟩
  · cases h'
  clear h; rename' h' => h
  refine ⟨a, ?_⟩
  rcases a with u | content
  · obtain ⟨rfl, h | h⟩ := runs_ret h
    · cases h; exact ⟨rfl, rfl⟩
    · cases h
  · simp only at h
    simp only [loaded]
    split at h
    · rename_i hb
      rw [if_pos hb]
      split at h <;> rename_i hj <;>
      · obtain ⟨rfl, h | h⟩ := runs_ret h
        · cases h; rw [hj]; exact ⟨rfl, rfl⟩
        · cases h
    · rename_i hb
      rw [if_neg hb]
      split at h
      · rename_i hb
        rw [if_pos hb]
        split at h <;> rename_i hj <;>
        · obtain ⟨rfl, h | h⟩ := runs_ret h
          · cases h; rw [hj]; exact ⟨rfl, rfl⟩
          · cases h
      · rename_i hb
        rw [if_neg hb]
        obtain ⟨rfl, h | h⟩ := runs_ret h
        · cases h; exact ⟨rfl, rfl⟩
        · cases h

/-- **C49**: in a directory whose path has no wildcard characters, `loadConfigFromDir` lists the
names. It reports that there is no configuration exactly if no name begins with `cddlc.`. Otherwise
it opens the first such name in dictionary order and nothing else, and fails unless that is
`cddlc.json` or `cddlc.yaml` and can be decoded. -/
theorem C49_first_match (codec : Codec) (dir : Bytes) (hm : hasMeta dir = false) (t : List Event)
    (r : Except ConfigErr Config) (h : Traces (loadConfigFromDir codec dir) t (.done r)) :
    ∃ ns : List Bytes, ∃ t', t = ⟨.names dir, ns⟩ :: t' ∧
      (((∀ n ∈ ns, ¬ IsConfigName n) ∧ t' = [] ∧ r = .error .none) ∨
       ∃ n ∈ ns, IsConfigName n ∧ (∀ m ∈ ns, IsConfigName m → Precedes n m) ∧
        ∃ a, t' = [⟨.readFile (joinPath dir n), a⟩] ∧
          ((47 : UInt8) ∉ n → r = loaded codec n a ∧ r ≠ .error .none)) := by
  unfold loadConfigFromDir globConfig at h
  rw [hm] at h
  rcases runs_op (o := .names dir) h with ⟨_, h'⟩ | ⟨ns, t', rfl, h'⟩
  · cases h'
  clear h; rename' h' => h
  refine ⟨ns, t', rfl, ?_⟩
  have hsort : List.Pairwise (fun a b => bytesLe a b = true) (ns.mergeSort bytesLe) :=
    List.pairwise_mergeSort bytesLe_trans bytesLe_total ns
  have hmem : ∀ n, n ∈ (ns.mergeSort bytesLe).filter (fun n => n.take 6 = b!"cddlc.") ↔ n ∈ ns ∧ IsConfigName n := by
    intro n
    rw [List.mem_filter, List.mem_mergeSort, decide_eq_true_iff, take6_iff]
  have hs := hsort.filter (fun n => decide (n.take 6 = b!"cddlc."))
  simp only [Prog.bind] at h
  generalize (ns.mergeSort bytesLe).filter (fun n => decide (n.take 6 = b!"cddlc.")) = l at h hmem hs
  cases l with
  | nil =>
    refine Or.inl ⟨fun n hn hc => ?_, ?_⟩
    · exact absurd ((hmem n).2 ⟨hn, hc⟩) (by simp)
    · obtain ⟨rfl, h | h⟩ := runs_ret h
      · cases h; exact ⟨rfl, rfl⟩
      · cases h
  | cons n l =>
    obtain ⟨hn, hc⟩ := (hmem n).1 (List.mem_cons_self ..)
    refine Or.inr ⟨n, hn, hc, fun m hmns hmc => ?_, ?_⟩
    · rcases List.mem_cons.1 ((hmem m).2 ⟨hmns, hmc⟩) with rfl | hml
      · exact Or.inl ⟨[], by simp⟩
      · exact (bytesLe_iff _ _).1 ((List.pairwise_cons.1 hs).1 m hml)
    · obtain ⟨a, rfl, rfl⟩ := runs_loadConfig codec _ _ _ h
      refine ⟨a, rfl, fun hslash => ?_⟩
      rw [base_join dir (config_fileName hc hslash)]
      refine ⟨rfl, ?_⟩
      unfold loaded
      rcases a with u | content
      · simp
      · simp only
        split
        · cases codec.json content <;> simp [Except.mapError]
        · split
          · cases codec.yaml content <;> simp [Except.mapError]
          · simp

/-- **C49**: a file that comes before hides the configuration: if some name `cddlc.x` with `x` before
`json` is there, then loading fails whether or not `cddlc.json` and `cddlc.yaml` exist and whatever
they contain. -/
theorem C49_hidden (codec : Codec) (dir : Bytes) (hm : hasMeta dir = false) (t : List Event)
    (r : Except ConfigErr Config) (h : Traces (loadConfigFromDir codec dir) t (.done r))
    (ns : List Bytes) (t' : List Event) (ht : t = ⟨.names dir, ns⟩ :: t') (hslash : ∀ n ∈ ns, (47 : UInt8) ∉ n)
    (m : Bytes) (hmn : m ∈ ns) (hmc : IsConfigName m) (hj : ¬ Precedes b!"cddlc.json" m) :
    ∃ err, r = .error err := by
  obtain ⟨ns', t1, ht1, h1 | ⟨n, hn, hc, hmin, a, rfl, hr⟩⟩ := C49_first_match codec dir hm t r h
  · exact ⟨_, h1.2.2⟩
  · rw [ht] at ht1
    cases ht1
    obtain ⟨rfl, _⟩ := hr (hslash n hn)
    have hle := (bytesLe_iff _ _).2 (hmin m hmn hmc)
    have hlt : ¬ bytesLe b!"cddlc.json" m = true := fun hh => hj ((bytesLe_iff _ _).1 hh)
    have key : ∀ k, bytesLe b!"cddlc.json" k = true → n ≠ k := by
      rintro k hk rfl
      exact hlt (bytesLe_trans _ _ _ hk hle)
    unfold loaded
    rcases a with u | content
    · exact ⟨_, rfl⟩
    · simp only [if_neg (key b!"cddlc.json" (by decide)), if_neg (key b!"cddlc.yaml" (by decide))]
      exact ⟨_, rfl⟩

/-- A decoder that knows one configuration. -/
def demoCodec : Codec :=
  { json := fun s => if s = b!"{}" then .ok defaultConfig else .error ()
    yaml := fun _ => .error () }

/-- With `cddlc.bak` beside `cddlc.json`, the latter is not even opened. -/
example : Traces (loadConfigFromDir demoCodec b!"/w")
    [⟨.names b!"/w", [b!"x.cddl", b!"cddlc.json", b!"cddlc.bak"]⟩, ⟨.readFile b!"/w/cddlc.bak", .ok []⟩]
    (.done (.error (.unknownBase b!"cddlc.bak"))) := by
  refine .op (o := .names b!"/w") [b!"x.cddl", b!"cddlc.json", b!"cddlc.bak"] ?_
  have : ([b!"x.cddl", b!"cddlc.json", b!"cddlc.bak"].mergeSort bytesLe) =
      [b!"cddlc.bak", b!"cddlc.json", b!"x.cddl"] := by decide_cbv
  simp only [this]
  exact .op (o := .readFile b!"/w/cddlc.bak") (.ok []) .ret

/-- Without it, `cddlc.json` is loaded. -/
example : Traces (loadConfigFromDir demoCodec b!"/w")
    [⟨.names b!"/w", [b!"x.cddl", b!"cddlc.yaml", b!"cddlc.json"]⟩, ⟨.readFile b!"/w/cddlc.json", .ok b!"{}"⟩]
    (.done (.ok defaultConfig)) := by
  refine .op (o := .names b!"/w") [b!"x.cddl", b!"cddlc.yaml", b!"cddlc.json"] ?_
  have : ([b!"x.cddl", b!"cddlc.yaml", b!"cddlc.json"].mergeSort bytesLe) =
      [b!"cddlc.json", b!"cddlc.yaml", b!"x.cddl"] := by decide_cbv
  simp only [this]
  exact .op (o := .readFile b!"/w/cddlc.json") (.ok b!"{}") .ret

end Cddlc
