import Verif.Spec.Os

/-! Several processes and one file system. -/

namespace Cddlc.Spec

/-- A step in the history of a file system: a call of the process looked at, or anything that others do. -/
inductive Step (ι : Type) where
  | own (e : Event)
  | other (f : Files ι → Files ι)

/-- The calls of the process in a history. -/
def owns {ι : Type} : List (Step ι) → List Event
  | [] => []
  | .own e :: h => e :: owns h
  | .other _ :: h => owns h

/-- The files after a history. -/
def history {ι : Type} [DecidableEq ι] (at_ : Bytes → ι) (part : Nat) : List (Step ι) → Files ι → Files ι
  | [], fs => fs
  | .own e :: h, fs => history at_ part h (effect at_ part e fs)
  | .other f :: h, fs => history at_ part h (f fs)

/-- The order of calls `t` is one in which processes with the calls `ts` may run together. -/
inductive Together : List (List Event) → List Event → Prop
  | done {ts} (h : ∀ t ∈ ts, t = []) : Together ts []
  | step {pre e t post u} (h : Together (pre ++ t :: post) u) : Together (pre ++ (e :: t) :: post) (e :: u)

/-- The answers to `stat` are true of the files, which only this process changes. -/
def TrueStats {ι : Type} [DecidableEq ι] (at_ : Bytes → ι) (part : Nat) : List Event → Files ι → Prop
  | [], _ => True
  | e :: t, fs =>
    (∀ p, (∃ d, e = ⟨.stat p, .ok d⟩) → fs (at_ p) ≠ none) ∧
    (∀ p, e = ⟨.stat p, .error .notExist⟩ → fs (at_ p) = none) ∧
    TrueStats at_ part t (effect at_ part e fs)

end Cddlc.Spec
