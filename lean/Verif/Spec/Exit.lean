import Verif.Model.Main
import Verif.Spec.Scans

/-! How `cddlc lex` and `cddlc parse` exit, in terms of what the lexer and the parser say about the file. -/

namespace Cddlc.Spec
variable [Unicode]

/-- `cddlc lex` with these arguments exits with this status after these system calls. -/
inductive LexExit (args : List Bytes) : List Event → Nat → Prop
  | usage : args.length ≠ 1 → LexExit args [] 1
  | unreadable {f} : args = [f] → LexExit args [⟨.readFile f, .error ()⟩] 1
  /-- the lexer gets to the end without an illegal token -/
  | fine {f src ts t l} : args = [f] → Scans (Lexer.new src) (ts ++ [t]) l → t.tok = .EOF →
      (∀ u ∈ ts, u.tok ≠ .ILLEGAL) → LexExit args [⟨.readFile f, .ok src⟩] 0
  /-- it gets to the end, with one -/
  | illegal {f src ts t u l} : args = [f] → Scans (Lexer.new src) (ts ++ [t]) l → t.tok = .EOF →
      u ∈ ts → u.tok = .ILLEGAL → LexExit args [⟨.readFile f, .ok src⟩] 1
  /-- it panics -/
  | panics {f src ts l w} : args = [f] → Scans (Lexer.new src) ts l → l.scan = .panic w →
      LexExit args [⟨.readFile f, .ok src⟩] 2

/-- `cddlc parse` with these arguments exits with this status after these system calls. -/
inductive ParseExit (float : FloatVal → Bytes) (args : List Bytes) : List Event → Nat → Prop
  | usage : args.length ≠ 1 → ParseExit float args [] 1
  | unreadable {f} : args = [f] → ParseExit float args [⟨.readFile f, .error ()⟩] 1
  /-- the parser returns, with or without diagnostics, a tree that is not too deep -/
  | fine {f src n res} : args = [f] → parseSource n src = .ok res → (cddlJson float res.cddl).depth ≤ 10000 →
      ParseExit float args [⟨.readFile f, .ok src⟩] 0
  /-- the tree is too deep for encoding/json -/
  | deep {f src n res} : args = [f] → parseSource n src = .ok res → 10000 < (cddlJson float res.cddl).depth →
      ParseExit float args [⟨.readFile f, .ok src⟩] 1
  /-- the parser panics -/
  | panics {f src n w} : args = [f] → parseSource n src = .panic w →
      ParseExit float args [⟨.readFile f, .ok src⟩] 2

end Cddlc.Spec
