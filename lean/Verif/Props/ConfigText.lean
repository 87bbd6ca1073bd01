import Verif.Lemmas.ConfigText
import Verif.Props.Init

/-! Properties of the text that `init` writes (C91, C92). -/

namespace Cddlc
open Spec

/-! ### C91 -/

/-- **C91**: the text of a configuration, whatever follows it, begins with that configuration. -/
theorem C91_text {c : Config} (h : ConfigUtf8 c) (rest : Bytes) : ConfigFirst (configText c ++ rest) c :=
  ⟨[], c.json.print false 0, 10 :: rest, c.json.toJson, by simp [configText], space_nil,
    print_text false c.json 0 (config_numsOk c), by simp [jWs], config_is h⟩

theorem default_utf8 : ConfigUtf8 defaultConfig := by
  refine ⟨⟨['1'], rfl⟩, by simp [defaultConfig], fun b hb => ?_⟩
  have : b = defaultBuildConfig := by simpa [defaultConfig] using hb
  subst this
  exact ⟨⟨[], rfl⟩, ⟨['.'], rfl⟩, ⟨['d', 'i', 's', 't', '/'], by decide⟩⟩

/-- **C91**: what `init` writes is a JSON text, and a decoder reads it as the default configuration. -/
theorem C91_default : (∃ v, JsonText (configText defaultConfig) v) ∧
    ∀ codec, ReadsConfigs codec → codec.json (configText defaultConfig) = .ok defaultConfig := by
  refine ⟨⟨_, [], _, [10], rfl, space_nil, print_text false _ 0 (config_numsOk _), newline_space 0⟩, fun codec h => ?_⟩
  have := C91_text default_utf8 []
  rw [List.append_nil] at this
  exact h _ _ this

/-- A decoder such as is assumed: it reads what it has to and rejects everything else. -/
noncomputable def strictCodec : Codec := open Classical in
  { json := fun t => if h : ∃ c, ConfigFirst t c then .ok h.choose else .error ()
    yaml := fun _ => .error () }

theorem strict_reads : ReadsConfigs strictCodec := by
  intro t c h
  have he : ∃ c, ConfigFirst t c := ⟨c, h⟩
  have := he.choose_spec
  simp only [strictCodec, dif_pos he, configFirst_fun this h]

/-- The bytes that `init` writes. -/
example : configText defaultConfig = b!"{\n\t\"version\": \"1\",\n\t\"plugins\": [],\n\t\"builds\": [\n\t\t{\n\t\t\t\"package\": \"\",\n\t\t\t\"src\": \".\",\n\t\t\t\"output\": \"dist/\"\n\t\t}\n\t],\n\t\"options\": null\n}\n" := by
  decide +kernel

example : strictCodec.json (configText defaultConfig) = .ok defaultConfig := C91_default.2 _ strict_reads

/-- A configuration with a plugin, a null build, and characters that are escaped. -/
example : ConfigFirst (configText ⟨b!"<2>", [some ⟨b!"p\"", b!"a\\b", b!"http"⟩], [none]⟩ ++ b!"}")
    ⟨b!"<2>", [some ⟨b!"p\"", b!"a\\b", b!"http"⟩], [none]⟩ :=
  C91_text ⟨⟨['<', '2', '>'], by decide⟩, by
    intro p hp
    have : p = ⟨b!"p\"", b!"a\\b", b!"http"⟩ := by simpa using hp
    subst this
    exact ⟨⟨['p', '"'], by decide⟩, ⟨['a', '\\', 'b'], by decide⟩, ⟨['h', 't', 't', 'p'], by decide⟩⟩, by simp⟩ _

/-! ### C92 -/

theorem flatten_rep {k : Nat} (s : Bytes) (hk : k ≠ 0) : ∃ rest, (List.replicate k s).flatten = s ++ rest := by
  cases k with
  | zero => exact absurd rfl hk
  | succ k => exact ⟨_, rfl⟩

/-- **C92**: however many `init` run together where there is no configuration, and whenever they are
killed: if one of them succeeds and no write fails, the decoder then reads the default configuration, also
where the text was written more than once. -/
theorem C92_together {root : Bytes} {ts u} (h : Together ts u) (ht : ∀ t ∈ ts, ∃ e, Traces initCmd t e)
    (hd : ∃ t ∈ ts, Traces initCmd t (.done none))
    (hr : ∀ r, (⟨.getwd, .ok r⟩ : Event) ∈ u → r = root) (hw : ∀ p c v, (⟨.write p c, .error v⟩ : Event) ∉ u)
    (at_ : Bytes → Nat) (part : Nat) (fs : Files Nat) (hn : fs (at_ (joinPath root b!"cddlc.json")) = none) :
    ∃ content, effects at_ part u fs (at_ (joinPath root b!"cddlc.json")) = some content ∧
      ∀ codec, ReadsConfigs codec → codec.json content = .ok defaultConfig := by
  obtain ⟨k, h1, h2⟩ := C53_together (json := configText defaultConfig) h ht hr hw at_ part fs
  obtain ⟨rest, h3⟩ := flatten_rep (configText defaultConfig) (h2 hd)
  rw [hn, h3] at h1
  cases he : effects at_ part u fs (at_ (joinPath root b!"cddlc.json")) with
  | none =>
    rw [he] at h1
    have := congrArg List.length h1
    simp [configText] at this
  | some content =>
    rw [he] at h1
    have h1 : content = configText defaultConfig ++ rest := h1
    exact ⟨content, rfl, fun codec hc => h1 ▸ hc _ _ (C91_text default_utf8 rest)⟩

/-- Two that both succeed: the text is in the file twice. -/
example (at_ : Bytes → Nat) (part : Nat) : ∃ content,
    effects at_ part (bothTrace (configText defaultConfig)) (fun _ => none) (at_ b!"/w/cddlc.json") = some content ∧
      ∀ codec, ReadsConfigs codec → codec.json content = .ok defaultConfig := by
  refine C92_together (root := b!"/w") (both_together _) ?_ ⟨_, List.mem_cons_self .., init_traces _⟩ ?_ ?_ at_ part _ rfl
  · intro t ht
    have : t = initTrace (configText defaultConfig) := by simpa using ht
    exact ⟨_, this ▸ init_traces _⟩
  · intro r hr
    simpa [bothTrace, initTrace] using hr
  · intro p c v hv
    simp [bothTrace, initTrace] at hv

/-- **C75**: what two `init` that run together leave in the file is not a JSON text any more: it is read
only by decoders that ignore what follows. -/
theorem C75_not_json (c : Config) (v : Json) : ¬ JsonText (configText c ++ configText c) v := by
  rintro ⟨a, u, b, e, ha, hu, hb⟩
  have h1 := print_text false c.json 0 (config_numsOk c)
  replace e : [] ++ (c.json.print false 0 ++ 10 :: configText c) = a ++ (u ++ b) := by
    rw [← e]; simp [configText]
  obtain ⟨rfl, e1⟩ := span_eq space_nil ha (h1.ws_head _) (hu.ws_head _) e
  obtain ⟨_, _, rfl⟩ := text_det h1 hu e1 (by simp [jStop, jWs]) fun x hx => by
    simp [jStop, hb x (List.mem_of_mem_head? hx)]
  have : (123 : UInt8) ∈ configText c := by
    simp [configText, Config.json, JVal.print]
  exact absurd (hb 123 (List.mem_cons_of_mem _ this)) (by decide)

end Cddlc
