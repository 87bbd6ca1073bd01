import Verif.Model.Config
import Verif.Spec.Json
import Mathlib.Data.List.Forall2

/-! Which texts are a configuration in JSON, independently of the encoder: an object whose members are
exactly those of the configuration, in their order. What else the decoder of encoding/json accepts
(other orders, missing members, names in other case, and so on) is not described here. -/

namespace Cddlc.Spec

/-- The name of a member. -/
def jName (s : String) : List Char := s.toList

/-- A plugin, or null. -/
inductive PluginIs : Json → Option Plugin → Prop
  | null : PluginIs .null none
  | some {n u p : List Char} : PluginIs (.obj [.mk (jName "name") (.str n),
      .mk (jName "remote") (.obj [.mk (jName "url") (.str u)]),
      .mk (jName "local") (.obj [.mk (jName "path") (.str p)])]) (some { name := enc n, path := enc p, url := enc u })

/-- A build, or null. -/
inductive BuildIs : Json → Option BuildConfig → Prop
  | null : BuildIs .null none
  | some {p s o : List Char} : BuildIs (.obj [.mk (jName "package") (.str p), .mk (jName "src") (.str s),
      .mk (jName "output") (.str o)]) (some { package := enc p, sourceDir := enc s, outDir := enc o })

/-- A configuration without options. -/
inductive ConfigIs : Json → Config → Prop
  | mk {v : List Char} {ps bs plugins builds} : List.Forall₂ PluginIs ps plugins → List.Forall₂ BuildIs bs builds →
      ConfigIs (.obj [.mk (jName "version") (.str v), .mk (jName "plugins") (.arr ps),
        .mk (jName "builds") (.arr bs), .mk (jName "options") .null]) { version := enc v, plugins, builds }

/-- The text begins with a configuration, behind which it ends or goes on with white space. -/
def ConfigFirst (t : Bytes) (c : Config) : Prop :=
  ∃ a u r v, t = a ++ (u ++ r) ∧ JSpace a ∧ JText u v ∧ (∀ x ∈ r.head?, jWs x = true) ∧ ConfigIs v c

/-- What is assumed of `json.NewDecoder(f).Decode` (config.go:104-107): it reads the value that the
text begins with, and nothing behind it. -/
def ReadsConfigs (codec : Codec) : Prop := ∀ t c, ConfigFirst t c → codec.json t = .ok c

end Cddlc.Spec
