import Verif.Spec.Listable

namespace Cddlc
open Spec

theorem listable_eq : listable = NodeKind.isGroupEntry := by
  funext k
  cases k <;> rfl

theorem listable_kind (k : NodeKind) : listable k = k.isGroupEntry := by rw [listable_eq]

end Cddlc
