import Verif.Model.Parser

/-! How much the parser does: the parser with every call of `parseEntry` (parser/parser.go:185-223) noted.

`parseEntry` calls itself for every operand and every element, so without a bound on the calls a short file
could take very long. The functions here are the parser with one statement added at the top of `parseEntry`,
that appends a note to the diagnostics; nothing in `parseEntry` looks at these, and they are appended to only. -/

namespace Cddlc.Spec
variable [Unicode]
open PState

/-- `parseEntry` with a note `d` of the call. -/
def notedEntry (d : Diag) : Nat → Rec
  | 0 => fun _ _ => .hang
  | n + 1 => fun prec p => parseEntryBody (notedEntry d n) n prec (p.addError d)

/-- `parseRule` (parser/parser.go:122-180) with any function for `parseEntry`. -/
def ruleWith (rec : Rec) (n : Nat) (p : PState) : PRes :=
  match p.cur with
  | .COMMENT => parseComment n p
  | .IDENT => do
    let name : Ident := ⟨p.pos, p.lit⟩
    let p1 ← p.next
    match p1.cur with
    | .ASSIGN => do
      let (entry, err, p3) ← nextEntry rec p1
      match err with
      | some e => .ok (.rule {} name .nil none, some e, p3)
      | none => do
        let (tc, p4) ← p3.ruleTrailing
        let p5 ← p4.declare name entry
        .ok (.rule {} name entry tc, none, p5)
    | .TYPE_CHOICE_ASSIGN | .GROUP_CHOICE_ASSIGN => do
      let p2 ← p1.next
      let (entry, err, p3) ← rec 0 p2
      match err with
      | some e => .ok (.rule {} name .nil none, some e, p3)
      | none => do
        let (tc, p4) ← p3.ruleTrailing
        .ok (.rule {} name entry tc, none, p4)
    | _ => .ok (.nil, some ⟨.expectedAssign name.name, name.pos, name.pos⟩, p1)
  | _ => .ok (.nil, some (errExpected p.pos .IDENT), p)

/-- One round of `ParseFile` (parser/parser.go:87-96) with any function for `parseEntry`. -/
def stepWith (rec : Rec) (n : Nat) (s : List Node × PState) : Out ((List Node × PState) ⊕ (List Node × PState)) :=
  if s.2.cur = .EOF then .ok (.inr s)
  else do
    let (e, err, p) ← ruleWith rec n s.2
    let p1 := match err with
      | some d => p.addError d
      | none => p
    let p2 ← p1.next
    .ok (.inl (if e.isNil then s.1 else s.1 ++ [e], p2))

/-- All rules of a source with any function for `parseEntry`, and the parser behind them; the checks that are
put off to the end are not run. -/
def rulesWith (rec : Rec) (n : Nat) (src : Bytes) (env : Env := Env.new) : Out (List Node × PState) := do
  let p ← PState.new (Lexer.new src) env
  loopOut (stepWith rec n) n ([], p)

end Cddlc.Spec
