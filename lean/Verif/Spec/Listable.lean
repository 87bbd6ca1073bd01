import Verif.Model.Ast

/-! Which nodes stay in groups and arrays. -/

namespace Cddlc.Spec
open Cddlc

/-- The kinds of nodes that groups and arrays keep: names, entries `key: value`, ranges, `&`, `?` and repetitions, groups, and comments.
All others are lost: types such as `int`, literals, arrays, maps, choices, tags, `~` and controls. -/
def listable (k : NodeKind) : Bool :=
  decide (k ∈ [NodeKind.ident, .entry, .range, .enumeration, .optional, .nm, .group, .comment, .commentGroup])

end Cddlc.Spec
