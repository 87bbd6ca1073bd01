import Verif.Spec.ConfigText
import Verif.Lemmas.JsonTree
import Verif.Model.Generate

/-! The text of a configuration. -/

namespace Cddlc
open Spec

theorem ck_name : chars b!"name" = jName "name" := by decide +kernel
theorem ck_remote : chars b!"remote" = jName "remote" := by decide +kernel
theorem ck_url : chars b!"url" = jName "url" := by decide +kernel
theorem ck_local : chars b!"local" = jName "local" := by decide +kernel
theorem ck_path : chars b!"path" = jName "path" := by decide +kernel
theorem ck_package : chars b!"package" = jName "package" := by decide +kernel
theorem ck_src : chars b!"src" = jName "src" := by decide +kernel
theorem ck_output : chars b!"output" = jName "output" := by decide +kernel
theorem ck_version : chars b!"version" = jName "version" := by decide +kernel
theorem ck_plugins : chars b!"plugins" = jName "plugins" := by decide +kernel
theorem ck_builds : chars b!"builds" = jName "builds" := by decide +kernel
theorem ck_options : chars b!"options" = jName "options" := by decide +kernel

theorem numsOks_all {xs : List JVal} (h : ∀ x ∈ xs, x.NumsOk) : numsOks xs := by
  induction xs with
  | nil => trivial
  | cons x xs ih => exact ⟨h x (by simp), ih fun y hy => h y (by simp [hy])⟩

theorem plugin_numsOk (p : Option Plugin) : (pluginJson p).NumsOk := by
  cases p <;> simp [pluginJson, JVal.NumsOk, numsOkFs]

theorem build_numsOk (b : Option BuildConfig) : (buildJson b).NumsOk := by
  cases b <;> simp [buildJson, JVal.NumsOk, numsOkFs]

theorem config_numsOk (c : Config) : c.json.NumsOk := by
  refine ⟨trivial, numsOks_all ?_, numsOks_all ?_, trivial, trivial⟩
  · intro x hx
    obtain ⟨p, _, rfl⟩ := List.mem_map.1 hx
    exact plugin_numsOk p
  · intro x hx
    obtain ⟨p, _, rfl⟩ := List.mem_map.1 hx
    exact build_numsOk p

theorem plugin_is {p : Option Plugin} (h : ∀ q ∈ p, Utf8 q.name ∧ Utf8 q.path ∧ Utf8 q.url) :
    PluginIs (pluginJson p).toJson p := by
  cases p with
  | none => exact .null
  | some q =>
    obtain ⟨h1, h2, h3⟩ := h q rfl
    have := PluginIs.some (n := chars q.name) (u := chars q.url) (p := chars q.path)
    rw [enc_chars h1, enc_chars h2, enc_chars h3] at this
    simpa only [pluginJson, JVal.toJson, toMembers, ck_name, ck_remote, ck_url, ck_local, ck_path] using this

theorem build_is {b : Option BuildConfig} (h : ∀ q ∈ b, Utf8 q.package ∧ Utf8 q.sourceDir ∧ Utf8 q.outDir) :
    BuildIs (buildJson b).toJson b := by
  cases b with
  | none => exact .null
  | some q =>
    obtain ⟨h1, h2, h3⟩ := h q rfl
    have := BuildIs.some (p := chars q.package) (s := chars q.sourceDir) (o := chars q.outDir)
    rw [enc_chars h1, enc_chars h2, enc_chars h3] at this
    simpa only [buildJson, JVal.toJson, toMembers, ck_package, ck_src, ck_output] using this

theorem toJsons_map {α} {f : α → JVal} {R : Json → α → Prop} {xs : List α} (h : ∀ x ∈ xs, R (f x).toJson x) :
    List.Forall₂ R (toJsons (xs.map f)) xs := by
  induction xs with
  | nil => exact .nil
  | cons x xs ih => exact .cons (h x (by simp)) (ih fun y hy => h y (by simp [hy]))

/-- All strings of the configuration are valid UTF-8. -/
structure ConfigUtf8 (c : Config) : Prop where
  version : Utf8 c.version
  plugins : ∀ p, some p ∈ c.plugins → Utf8 p.name ∧ Utf8 p.path ∧ Utf8 p.url
  builds : ∀ b, some b ∈ c.builds → Utf8 b.package ∧ Utf8 b.sourceDir ∧ Utf8 b.outDir

theorem config_is {c : Config} (h : ConfigUtf8 c) : ConfigIs c.json.toJson c := by
  have h1 : List.Forall₂ PluginIs (toJsons (c.plugins.map pluginJson)) c.plugins :=
    toJsons_map fun p hp => plugin_is fun q hq => by cases hq; exact h.plugins q hp
  have h2 : List.Forall₂ BuildIs (toJsons (c.builds.map buildJson)) c.builds :=
    toJsons_map fun p hp => build_is fun q hq => by cases hq; exact h.builds q hp
  have := ConfigIs.mk (v := chars c.version) h1 h2
  rw [enc_chars h.version] at this
  simpa only [Config.json, JVal.toJson, toMembers, ck_version, ck_plugins, ck_builds, ck_options] using this

theorem pluginIs_fun {v p p'} (h : PluginIs v p) (h' : PluginIs v p') : p = p' := by
  cases h <;> cases h' <;> rfl

theorem buildIs_fun {v p p'} (h : BuildIs v p) (h' : BuildIs v p') : p = p' := by
  cases h <;> cases h' <;> rfl

theorem forall₂_fun {α β} {R : α → β → Prop} (hR : ∀ v p p', R v p → R v p' → p = p') {xs : List α} {ys zs : List β}
    (h : List.Forall₂ R xs ys) (h' : List.Forall₂ R xs zs) : ys = zs := by
  induction h generalizing zs with
  | nil => cases h'; rfl
  | cons h1 h2 ih => cases h' with | cons h3 h4 => rw [hR _ _ _ h1 h3, ih h4]

theorem configIs_fun {v c c'} (h : ConfigIs v c) (h' : ConfigIs v c') : c = c' := by
  cases h with
  | mk h1 h2 => cases h' with | mk h3 h4 => rw [forall₂_fun (R := PluginIs) (fun _ _ _ => pluginIs_fun) h1 h3, forall₂_fun (R := BuildIs) (fun _ _ _ => buildIs_fun) h2 h4]

/-- A text begins with at most one configuration. -/
theorem configFirst_fun {t c c'} (h : ConfigFirst t c) (h' : ConfigFirst t c') : c = c' := by
  obtain ⟨a, u, r, v, rfl, ha, hu, hr, hc⟩ := h
  obtain ⟨a', u', r', v', e, ha', hu', hr', hc'⟩ := h'
  have h9 := span_eq ha ha' (hu.ws_head _) (hu'.ws_head _) e
  clear e
  obtain ⟨rfl, e⟩ := h9
  have st : ∀ {b : Bytes}, (∀ x ∈ b.head?, jWs x = true) → ∀ c ∈ b.head?, jStop c = true := by
    intro b hb c hc
    simp [jStop, hb c hc]
  obtain ⟨_, rfl, _⟩ := text_det hu hu' e (st hr) (st hr')
  exact configIs_fun hc hc'

end Cddlc
