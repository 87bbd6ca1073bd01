import Verif.Spec.Disk

/-! Several programs that run on one disk at the same time. Each has files of its own open, with its own
position in each. Calls are made one at a time, in any order; `os.MkdirAll` may also be seen when it has
made some of the directories. -/

namespace Cddlc.Spec

/-- The content of a file after a write at a position. Bytes between its old end and the position are
zero. -/
def writeAt (old : Bytes) (pos : Nat) (new : Bytes) : Bytes :=
  old.take pos ++ List.replicate (pos - old.length) 0 ++ new ++ old.drop (pos + new.length)

/-- A disk and the programs that use it, each with what it has left to do. The position of a program in a
file is counted from the beginning, or is the end if there is none. -/
structure Machine (ι α : Type) where
  disk : Disk
  prog : ι → Prog α
  pos : ι → List Bytes → Option Nat

namespace Machine
variable {ι α : Type}

open Classical in
/-- The positions after a program has moved in one file. -/
noncomputable def move (m : Machine ι α) (i : ι) (q : List Bytes) (k : Option Nat) : ι → List Bytes → Option Nat :=
  fun j r => if j = i ∧ r = q then k else m.pos j r

/-- The disk after a call of a program. -/
noncomputable def diskAfter (m : Machine ι α) (i : ι) (o : Op) : Disk :=
  match o, m.disk.ans o with
  | .write p c, .ok _ =>
    m.disk.put (m.disk.at_ p) (.file (writeAt (m.disk.content p)
      ((m.pos i (m.disk.at_ p)).getD (m.disk.content p).length) c))
  | .write _ _, .error _ => m.disk
  | o, _ => m.disk.after o

/-- The positions after a call of a program. -/
noncomputable def posAfter (m : Machine ι α) (i : ι) (o : Op) : ι → List Bytes → Option Nat :=
  match o, m.disk.ans o with
  | .openTrunc p, .ok _ => m.move i (m.disk.at_ p) (some 0)
  | .openAppend p, .ok _ => m.move i (m.disk.at_ p) none
  | .write p c, .ok _ => m.move i (m.disk.at_ p) ((m.pos i (m.disk.at_ p)).map (· + c.length))
  | _, _ => m.pos

open Classical in
/-- One program makes a call and gets its answer. -/
noncomputable def call (m : Machine ι α) (i : ι) (o : Op) (k : o.Ans → Prog α) : Machine ι α where
  disk := m.diskAfter i o
  prog := fun j => if j = i then k (m.disk.ans o) else m.prog j
  pos := m.posAfter i o

/-- One step: a call, or some of the directories of a call of `os.MkdirAll`. -/
inductive Step (m : Machine ι α) : Machine ι α → Prop
  | call {i o k} : m.prog i = .op o k → Step m (m.call i o k)
  | someDirs {i p k r} : m.prog i = .op (.mkdirAll p) k → m.disk.ans (.mkdirAll p) = .ok () → r <+: m.disk.at_ p →
      Step m { m with disk := m.disk.makeDirs [] r }

/-- Any number of steps. -/
inductive Steps : Machine ι α → Machine ι α → Prop
  | refl {m} : Steps m m
  | step {m m' m''} : Steps m m' → Step m' m'' → Steps m m''

/-- All programs at their beginning, with no file open. -/
def start (d : Disk) (prog : ι → Prog α) : Machine ι α := ⟨d, prog, fun _ _ => none⟩

end Machine

end Cddlc.Spec
