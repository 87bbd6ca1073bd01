import Verif.Model.Os

/-! Files, independently of the commands: what calls do to them, and the order of names. -/

namespace Cddlc.Spec

/-- `a` comes before `b` in a dictionary, or they are equal: `b` continues `a`, or at the first
difference `a` has the smaller byte. -/
def Precedes (a b : Bytes) : Prop :=
  (∃ s, b = a ++ s) ∨ ∃ p x y s t, a = p ++ x :: s ∧ b = p ++ y :: t ∧ x < y

/-- The contents of the files of a system, by what paths lead to; `none` if there is no such file. -/
abbrev Files (ι : Type) := ι → Option Bytes

/-- Change the content of one file. -/
def Files.set {ι : Type} [DecidableEq ι] (fs : Files ι) (i : ι) (c : Option Bytes) : Files ι :=
  fun j => if j = i then c else fs j

/-- What a call does to the files, where `at_` says which file a path leads to: different paths may
lead to the same file (links, other spellings). Opening creates the file if there is none, and
empties it or not; a write that succeeds adds to the end. A write that fails may have written a part;
`part` says how much. Nothing else changes the content of files. -/
def effect {ι : Type} [DecidableEq ι] (at_ : Bytes → ι) (part : Nat) (e : Event) (fs : Files ι) : Files ι :=
  match e with
  | ⟨.openTrunc p, .ok _⟩ => fs.set (at_ p) (some [])
  | ⟨.openAppend p, .ok _⟩ => fs.set (at_ p) (some ((fs (at_ p)).getD []))
  | ⟨.write p c, .ok _⟩ => fs.set (at_ p) (some ((fs (at_ p)).getD [] ++ c))
  | ⟨.write p c, .error _⟩ => fs.set (at_ p) (some ((fs (at_ p)).getD [] ++ c.take part))
  | _ => fs

/-- The files after a run of calls. -/
def effects {ι : Type} [DecidableEq ι] (at_ : Bytes → ι) (part : Nat) : List Event → Files ι → Files ι
  | [], fs => fs
  | e :: t, fs => effects at_ part t (effect at_ part e fs)

/-- The files a call may change: the one its path leads to. -/
def changes : Op → Option Bytes
  | .openTrunc p | .openAppend p | .write p _ => some p
  | _ => none

end Cddlc.Spec
