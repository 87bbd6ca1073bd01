import Verif.Model.Lexer
import Verif.Model.Env
import Verif.Model.Strconv

namespace Cddlc

/-- The message of a diagnostic, in structured form; `Msg.text` gives the text.
They are made at parser/parser.go:159-170, 235, 278-300, 429-490, 608, 783-960. -/
inductive Msg where
  /-- parser/parser.go:955-957 `errorTokenExpected` -/
  | tokenExpected (tok : Tok) (pos : Pos)
  /-- parser/parser.go:959-961 `errorUnexpectedPrefix` -/
  | unexpectedPrefix (tok : Tok) (pos : Pos)
  /-- parser/parser.go:235, 877, 922 -/
  | noSuchIdent (name : Bytes)
  /-- parser/parser.go:263 -/
  | unexpectedLiteral (lit : Bytes)
  /-- parser/parser.go:310 -/
  | expectedUintLit
  /-- parser/parser.go:618 -/
  | expectedIntLit
  /-- parser/parser.go:170 -/
  | expectedAssign (name : Bytes)
  /-- parser/parser.go:159 -/
  | existing (name : Bytes) (line column : Int)
  /-- parser/parser.go:944-953 `errorUnsupportedTypes` -/
  | unsupported (operator : Bytes) (supported : List Tok)
  /-- parser/parser.go:431 -/
  | tagMajor
  /-- parser/parser.go:482 -/
  | invalidTag (lit : Bytes)
  /-- parser/parser.go:487, 492: the text of a `strconv.NumError` -/
  | tagNumber (lit : Bytes) (err : NumErr)
  /-- parser/parser.go:783 -/
  | negativeLower (v : Int) (tok : Tok)
  /-- parser/parser.go:791 -/
  | lowerType (tok : Tok)
  /-- parser/parser.go:869, 884 -/
  | floatInIntRange
  /-- parser/parser.go:914, 929 -/
  | intInFloatRange
  /-- parser/parser.go:886 -/
  | expectedIntUpper
  /-- parser/parser.go:931 -/
  | expectedFloatUpper
  /-- parser/parser.go:840-842; Go prints the two nodes with `%+v`, only their dynamic types
  are kept here -/
  | boundTypes (tok : Tok) (left right : Bytes) (leftKind rightKind : NodeKind)
  deriving DecidableEq, Repr

/-- models parser/diagnostic.go:10-19 `type Error struct` as built by `NewError`
(parser/diagnostic.go:49-58); `Prefix` is always "parser". -/
structure Diag where
  msg : Msg
  start : Pos
  stop : Pos
  deriving DecidableEq, Repr

/-- The closures appended to `p.tasks`, as data; `PState.runTask` runs them.
They are at parser/parser.go:233-238, 833-846, 875-889, 920-934. -/
inductive Task where
  /-- parser/parser.go:233-238 -/
  | exists (name : Bytes) (pos : Pos)
  /-- parser/parser.go:833-846 -/
  | identBound (tok : Tok) (left : Ident) (to : Node)
  /-- parser/parser.go:875-889 -/
  | intBound (name : Bytes) (start stop : Pos)
  /-- parser/parser.go:920-934 -/
  | floatBound (name : Bytes) (start stop : Pos)

/-- models parser/parser.go:32-74 `type Parser struct`; the handler tables `nuds` and `leds` are
`nudOf` and `ledOf`, the closures `error` and `errorHandler` are inlined. -/
structure PState where
  lx : Lexer
  errors : List Diag
  pos : Pos
  peekPos : Pos
  cur : Tok
  peek : Tok
  lit : Bytes
  peekLit : Bytes
  env : Env
  tasks : List Task

/-- Result of a parse function: node, diagnostic (`none` is nil), parser afterwards.
The types are at parser/parser.go:20-21. -/
abbrev PRes := Out (Node × Option Diag × PState)

/-- A Go loop with early exit: `step` yields the next loop state or the final result.
For the loops at parser/parser.go:87, 209, 630, 666, 684, 709. -/
def loopOut {σ ρ : Type} (step : σ → Out (σ ⊕ ρ)) : Nat → σ → Out ρ
  | 0, _ => .hang
  | n + 1, s =>
    match step s with
    | .ok (.inl s') => loopOut step n s'
    | .ok (.inr r) => .ok r
    | .panic w => .panic w
    | .hang => .hang

namespace PState
variable [Unicode]

/-- models parser/parser.go:963-968 `next`. -/
def next (p : PState) : Out PState := do
  let (t, pos, lit, lx) ← p.lx.scan
  .ok { p with lx := lx, cur := p.peek, lit := p.peekLit, pos := p.peekPos,
               peek := t, peekPos := pos, peekLit := lit }

/-- models `p.tasks = append(p.tasks, ...)`. At parser/parser.go:233, 833, 875, 920. -/
def addTask (p : PState) (t : Task) : PState := { p with tasks := p.tasks ++ [t] }

/-- models `p.errors = append(p.errors, err)` (parser/parser.go:159, 998). -/
def addError (p : PState) (d : Diag) : PState := { p with errors := p.errors ++ [d] }

/-- models parser/parser.go:955-957 `errorTokenExpected`. -/
def errExpected (pos : Pos) (tok : Tok) : Diag := ⟨.tokenExpected tok pos, pos, pos⟩

/-- models parser/parser.go:959-961 `errorUnexpectedPrefix`. -/
def errPrefix (pos : Pos) (tok : Tok) : Diag := ⟨.unexpectedPrefix tok pos, pos, pos⟩

/-- models parser/parser.go:944-953 `errorUnsupportedTypes` (never called without tokens). -/
def errUnsupported (pos : Pos) (operator : Bytes) (toks : List Tok) : Diag :=
  ⟨.unsupported operator toks, pos, pos⟩

/-- models parser/parser.go:649-651 `isSameLineTokens`. -/
def sameLine (a b : Pos) : Bool := a.line = b.line

/-- models parser/parser.go:720-726 `parseInnerComment`. -/
def parseInnerComment (p : PState) : Comment := { pos := p.pos, text := p.lit }

/-- One round of the loop at parser/parser.go:709-712. -/
def commentStep (s : List Comment × PState) : Out ((List Comment × PState) ⊕ (List Comment × PState)) :=
  if s.2.peek = .COMMENT then do
    let p' ← s.2.next
    .ok (.inl (s.1 ++ [p'.parseInnerComment], p'))
  else .ok (.inr s)

/-- models parser/parser.go:705-718 `parseComment`. -/
def parseComment (n : Nat) (p : PState) : PRes := do
  let (cs, p') ← loopOut commentStep n ([p.parseInnerComment], p)
  match cs with
  | [c] => .ok (.comment c, none, p')
  | _ => .ok (.commentGroup cs, none, p')

/-- models parser/parser.go:225-227 `parseIdentifier`. -/
def parseIdentifier (p : PState) : PRes := .ok (.ident ⟨p.pos, p.lit⟩, none, p)

/-- models parser/parser.go:229-242 `parseNamedIdentifier`. -/
def parseNamedIdentifier (p : PState) : PRes :=
  match p.lit with
  | [] => .panic .index
  | c :: _ =>
    .ok (.ident ⟨p.pos, p.lit⟩, none, if c ≠ 36 then p.addTask (.exists p.lit p.pos) else p)

/-- models parser/parser.go:244-248 `parseBooleanType`. -/
def parseBooleanType (p : PState) : PRes := .ok (.boolType p.pos p.cur, none, p)

/-- models parser/parser.go:250-264 `parseBooleanLiteral`. -/
def parseBooleanLiteral (p : PState) : PRes :=
  if p.lit = b!"true" then .ok (.boolLit ⟨p.pos, p.pos.to 3⟩ true, none, p)
  else if p.lit = b!"false" then .ok (.boolLit ⟨p.pos, p.pos.to 4⟩ false, none, p)
  else .ok (.nil, some ⟨.unexpectedLiteral p.lit, p.pos, p.pos⟩, p)

/-- models parser/parser.go:266-268 `parseTstrType`. -/
def parseTstrType (p : PState) : PRes := .ok (.tstr ⟨p.pos, p.cur⟩, none, p)

/-- models parser/parser.go:277-287 `parseFloatLiteral`. -/
def parseFloatLiteral (p : PState) : PRes :=
  match parseFloat p.lit with
  | .error _ => .ok (.nil, some (errExpected p.pos .FLOAT), p)
  | .ok v => .ok (.floatLit ⟨p.pos, p.pos.to ((p.lit.length : Int) - 1)⟩ p.cur v, none, p)

/-- models parser/parser.go:270-275 `parseFloatType`. -/
def parseFloatType (p : PState) : PRes :=
  if p.cur.isLiteral p.lit then p.parseFloatLiteral
  else .ok (.floatType p.pos p.cur, none, p)

/-- models parser/parser.go:298-311 `parseUintLiteral`; a nil `*ast.UintLiteral` becomes a
non-nil interface in the callers. -/
def parseUintLiteral (p : PState) : PRes :=
  if p.cur.isLiteral p.lit then
    match parseUint p.lit with
    | .error _ => .ok (.typedNil .uintLit, some (errExpected p.pos .UINT), p)
    | .ok v => .ok (.uintLit ⟨p.pos, p.cur, v⟩, none, p)
  else .ok (.typedNil .uintLit, some ⟨.expectedUintLit, p.pos, p.pos⟩, p)

/-- models parser/parser.go:289-296 `parseUintType`. -/
def parseUintType (p : PState) : PRes :=
  if p.cur.isLiteral p.lit then p.parseUintLiteral
  else .ok (.uintType ⟨p.pos, p.pos.to 4⟩ p.cur, none, p)

/-- models parser/parser.go:606-619 `parseIntegerLiteral`. -/
def parseIntegerLiteral (p : PState) : PRes :=
  if p.cur.isLiteral p.lit then
    match parseInt p.lit with
    | .error _ => .ok (.typedNil .intLit, some (errExpected p.pos .INT), p)
    | .ok v => .ok (.intLit p.pos p.cur v, none, p)
  else .ok (.typedNil .intLit, some ⟨.expectedIntLit, p.pos, p.pos⟩, p)

/-- models parser/parser.go:313-318 `parseIntegerType`. -/
def parseIntegerType (p : PState) : PRes :=
  if p.cur.isLiteral p.lit then p.parseIntegerLiteral
  else .ok (.intType p.pos p.cur, none, p)

/-- models parser/parser.go:320-322 `parseNegativeIntegerType`. -/
def parseNegativeIntegerType (p : PState) : PRes := .ok (.nintType p.pos p.cur, none, p)

/-- models parser/parser.go:323-325 `parseBstrType`. -/
def parseBstrType (p : PState) : PRes := .ok (.bstr p.pos p.cur, none, p)

/-- models parser/parser.go:328-330 `parseBytesType`. -/
def parseBytesType (p : PState) : PRes := .ok (.bytes p.pos p.cur, none, p)

/-- models parser/parser.go:332-334 `parseNullType`. -/
def parseNullType (p : PState) : PRes := .ok (.null p.pos p.cur, none, p)

/-- models parser/parser.go:621-623 `parseTextLiteral`. -/
def parseTextLiteral (p : PState) : PRes := .ok (.textLit p.pos p.cur p.lit, none, p)

/-- The recursive call `p.parseEntry(precedence)`, supplied to every parse function.
The function is at parser/parser.go:185-223. -/
abbrev Rec := Nat → PState → PRes

/-- `p.next()` followed by `p.parseEntry(p.currToken.Precedence())`, a sequence used by most
operators. E.g. parser/parser.go:379-380, 394-395, 410-411. -/
def nextEntry (rec : Rec) (p : PState) : PRes := do
  let p ← p.next
  rec p.cur.precedence p

/-- models parser/parser.go:336-367 `parseColon`. -/
def parseColon (rec : Rec) (left : Node) (p : PState) : PRes :=
  let name? : Option Ident :=
    match left with
    | .ident i => some i
    | .intLit _ _ v => some ⟨p.pos, decInt v⟩
    | _ => none
  match name? with
  | none => .ok (.nil, some (errUnsupported p.pos p.lit [.IDENT, .INT]), p)
  | some name => do
    let (val, err, p') ← nextEntry rec p
    match err with
    | some e => .ok (val, some e, p')
    | none =>
      if p'.peek = .COMMENT ∧ sameLine p'.pos p'.peekPos then do
        let p'' ← p'.next
        .ok (.entry p.pos name val (some p''.parseInnerComment), none, p'')
      else .ok (.entry p.pos name val none, none, p')

/-- models parser/parser.go:369-371 `parseComma`. -/
def parseComma (left : Node) (p : PState) : PRes := .ok (left, none, p)

/-- models parser/parser.go:373-386 and 388-402, `parseTypeChoice` and `parseGroupChoice` (the
latter also builds an `ast.TypeChoice`). -/
def parseTypeChoice (rec : Rec) (left : Node) (p : PState) : PRes := do
  let (sec, err, p') ← nextEntry rec p
  match err with
  | some e => .ok (sec, some e, p')
  | none => .ok (.typeChoice p.pos p.cur left sec, none, p')

/-- models parser/parser.go:404-418 `parseUnwrap`. -/
def parseUnwrap (rec : Rec) (p : PState) : PRes := do
  let (item, err, p') ← nextEntry rec p
  match err with
  | some e => .ok (item, some e, p')
  | none => .ok (.unwrap p.pos p.cur item, none, p')

/-- models parser/parser.go:478-499 `parseFloatTag`, the two numbers of the tag. -/
def parseFloatTag (p : PState) : Except Diag (UintLit × UintLit) :=
  match splitDots p.lit with
  | [s0, s1] =>
    match parseUint s0 with
    | .error e => .error ⟨.tagNumber s0 e, p.pos, p.pos⟩
    | .ok major =>
      match parseUint s1 with
      | .error e => .error ⟨.tagNumber s1 e, p.pos, p.pos⟩
      | .ok number => .ok (⟨p.pos, p.cur, major⟩, ⟨p.pos, p.cur, number⟩)
  | _ => .error ⟨.invalidTag p.lit, p.pos, p.pos⟩

/-- models parser/parser.go:109-116 `expectPeek`; its diagnostic and result are discarded. -/
def expectPeek (p : PState) (tok : Tok) : Out PState :=
  if p.peek ≠ tok then .ok p else p.next

/-- models parser/parser.go:443-452, the parenthesised item of a tag. -/
def parseTagItem (rec : Rec) (pos : Pos) (tok : Tok) (major number : Option UintLit)
    (p : PState) : PRes :=
  if p.peek = .LPAREN then do
    let p1 ← p.next
    let (item, err, p2) ← nextEntry rec p1
    match err with
    | some e => .ok (.tag pos tok major number item, some e, p2)
    | none => do
      let p3 ← p2.expectPeek .RPAREN
      .ok (.tag pos tok major number item, none, p3)
  else .ok (.tag pos tok major number .nil, none, p)

/-- models parser/parser.go:420-454 `parseTag`. -/
def parseTag (rec : Rec) (p : PState) : PRes :=
  match p.peek with
  | .INT => do
    let p' ← p.next
    match parseUint p'.lit with
    | .error _ => .ok (.nil, some ⟨.tagMajor, p'.pos, p'.pos⟩, p')
    | .ok major => parseTagItem rec p.pos p.cur (some { value := major }) none p'
  | .FLOAT => do
    let p' ← p.next
    match p'.parseFloatTag with
    | .error e => .ok (.nil, some e, p')
    | .ok (major, number) => parseTagItem rec p.pos p.cur (some major) (some number) p'
  | _ => parseTagItem rec p.pos p.cur none none p

/-- models parser/parser.go:456-476 `parseEnumeration`. -/
def parseEnumeration (rec : Rec) (p : PState) : PRes := do
  let (value, err, p') ← nextEntry rec p
  match err with
  | some e => .ok (.enumeration p.pos p.cur (.badNode {} .ILLEGAL value {}), some e, p')
  | none => .ok (.enumeration p.pos p.cur value, none, p')

/-- models parser/parser.go:501-515 `parseOptional`. -/
def parseOptional (rec : Rec) (p : PState) : PRes := do
  let (item, err, p') ← nextEntry rec p
  match err with
  | some e => .ok (item, some e, p')
  | none => .ok (.optional p.pos p.cur item, none, p')

/-- models parser/parser.go:801-816, the end of `parseOccurrence`: `p` is positioned on the
item, `pos` and `tok` are those of the operator. -/
def parseOccItem (rec : Rec) (pos : Pos) (tok : Tok) (n m : Option UintLit) (p : PState) :
    PRes := do
  let (item, err, p') ← rec p.cur.precedence p
  match err with
  | some e => .ok (.badNode {} p'.cur (.nm pos tok n m .nil) {}, some e, p')
  | none => .ok (.nm pos tok n m item, none, p')

/-- models parser/parser.go:794-807 of `parseOccurrence`, once the lower bound is known. -/
def parseOccUpper (rec : Rec) (n : UintLit) (p : PState) : PRes :=
  if p.peek = .INT ∧ p.peek.isLiteral p.peekLit then do
    let p1 ← p.next
    let (rightN, err, p2) ← p1.parseUintType
    match err with
    | some e => .ok (.nm p.pos p.cur none none .nil, some e, p2)
    | none =>
      let m := match rightN with
        | .uintLit u => some u
        | _ => none
      parseOccItem rec p.pos p.cur (some n) m p2
  else do
    let p1 ← p.next
    parseOccItem rec p.pos p.cur (some n) none p1

/-- models parser/parser.go:771-817 `parseOccurrence`. -/
def parseOccurrence (rec : Rec) (left : Node) (p : PState) : PRes :=
  match left with
  | .uintLit u => parseOccUpper rec u p
  | .intLit pos _ v =>
    if v < 0 then
      .ok (.nil, some ⟨.negativeLower v p.cur, pos, pos.to (decInt v).length⟩, p)
    else parseOccUpper rec ⟨pos, .UINT, v.toNat⟩ p
  | _ => do
    let s ← left.start
    let e ← left.stop
    .ok (.nil, some ⟨.lowerType p.cur, s, e⟩, p)

/-- models parser/parser.go:517-526 `parseZMOccurrence`. -/
def parseZMOccurrence (rec : Rec) (p : PState) : PRes :=
  parseOccurrence rec (.uintLit ⟨p.pos, .UINT, 0⟩) p

/-- models parser/parser.go:528-537 `parseOMOccurrence`. -/
def parseOMOccurrence (rec : Rec) (p : PState) : PRes :=
  parseOccurrence rec (.uintLit ⟨p.pos, .UINT, 1⟩) p

/-- models parser/parser.go:539-561 `parseSizeOperator`. -/
def parseSizeOperator (rec : Rec) (left : Node) (p : PState) : PRes :=
  match left.kind with
  | .bstr | .uintType | .tstr => do
    let (right, err, p') ← nextEntry rec p
    match err with
    | some e => .ok (.size p.pos p.cur .nil left, some e, p')
    | none => .ok (.size p.pos p.cur right left, none, p')
  | _ =>
    .ok (.size p.pos p.cur .nil .nil,
      some (errUnsupported p.pos p.lit [.TSTR, .BSTR, .UINT]), p)

/-- models parser/parser.go:565-587 `parseRegexp`; for a base that is not a `TstrType` the
error construction dereferences a nil pointer. -/
def parseRegexp (rec : Rec) (left : Node) (p : PState) : PRes :=
  match left with
  | .tstr base =>
    if p.peek ≠ .TEXT_LITERAL ∧ p.peek ≠ .IDENT then
      .ok (.regexp p.pos p.cur base .nil, some (errExpected p.pos .TEXT_LITERAL), p)
    else do
      let (regex, err, p') ← nextEntry rec p
      match err with
      | some e => .ok (.regexp p.pos p.cur base .nil, some e, p')
      | none => .ok (.regexp p.pos p.cur base regex, none, p')
  | _ => .panic .nilDeref

/-- models parser/parser.go:653-659 `wrapBadNode`. -/
def wrapBadNode (n : Node) : Out Node := do
  let s ← n.start
  let e ← n.stop
  .ok (.badNode s .ILLEGAL n e)

/-- models parser/parser.go:589-604 `parseBits`. -/
def parseBits (rec : Rec) (left : Node) (p : PState) : PRes := do
  let (constraint, err, p') ← nextEntry rec p
  match err with
  | some e => do
    let base ← wrapBadNode constraint
    .ok (.bits p.pos p.cur base .nil, some e, p')
  | none => .ok (.bits p.pos p.cur left constraint, none, p')

/-- models the loop body shared by parser/parser.go:630-646 (`parseGroup`), 666-675 (`parseMap`)
and 684-700 (`parseArray`): parse an entry, keep it if `keep`, go to the next token. -/
def listStep (rec : Rec) (close : Tok) (keep : Node → Bool) (s : List Node × PState) :
    Out ((List Node × PState) ⊕ (List Node × Option Diag × PState)) :=
  if s.2.cur = close then .ok (.inr (s.1, none, s.2))
  else do
    let (e, err, p) ← rec s.2.cur.precedence s.2
    match err with
    | some d => .ok (.inr (s.1, some d, p))
    | none => do
      let p' ← p.next
      .ok (.inl (if keep e then s.1 ++ [e] else s.1, p'))

/-- `p.next()` and then the loop over the entries up to `close`. At parser/parser.go:628-630, 664-666, 682-684. -/
def parseList (rec : Rec) (n : Nat) (close : Tok) (keep : Node → Bool) (p : PState) :
    Out (List Node × Option Diag × PState) := do
  let p' ← p.next
  loopOut (listStep rec close keep) n ([], p')

/-- models parser/parser.go:625-647 `parseGroup`: entries that are not an `ast.GroupEntry` are
dropped. -/
def parseGroup (rec : Rec) (n : Nat) (p : PState) : PRes := do
  let (es, err, p') ← parseList rec n .RPAREN (fun e => e.kind.isGroupEntry) p
  .ok (.group p.pos es, err, p')

/-- models parser/parser.go:661-677 `parseMap`. -/
def parseMap (rec : Rec) (n : Nat) (p : PState) : PRes := do
  let (es, err, p') ← parseList rec n .RBRACE (fun e => !e.isNil) p
  .ok (.map p.pos es, err, p')

/-- models parser/parser.go:679-703 `parseArray`: entries that are not an `ast.GroupEntry` are
dropped. -/
def parseArray (rec : Rec) (n : Nat) (p : PState) : PRes := do
  let (es, err, p') ← parseList rec n .RBRACK (fun e => e.kind.isGroupEntry) p
  .ok (.array p.pos es, err, p')

/-- models parser/parser.go:728-755 `parseComparatorOp`; the left operand of the result is a nil
`*ast.IntegerType`. -/
def parseComparatorOp (rec : Rec) (left : Node) (p : PState) : PRes :=
  match left.kind with
  | .uintType | .intType | .floatType => do
    let (right, err, p') ← nextEntry rec p
    match err with
    | some e => .ok (.badNode {} p'.cur (.typedNil .intType) {}, some e, p')
    | none => .ok (.comparator p.pos p.cur p.lit (.typedNil .intType) right, none, p')
  | _ => .ok (.nil, some (errUnsupported p.pos p.lit [.INT, .FLOAT, .UINT]), p)

/-- models parser/parser.go:819-848 `parseIdentBound`. -/
def parseIdentBound (rec : Rec) (left : Ident) (p : PState) : PRes := do
  let (to, err, p') ← nextEntry rec p
  match err with
  | some e => .ok (.range p.pos p.cur (.ident left) .nil, some e, p')
  | none =>
    .ok (.range p.pos p.cur (.ident left) to, none, p'.addTask (.identBound p.cur left to))

/-- models parser/parser.go:850-893 `parseIntBound`; `left` is an `ast.IntegerLiteral`. -/
def parseIntBound (rec : Rec) (left : Node) (p : PState) : PRes := do
  let (to, err, p') ← nextEntry rec p
  match err with
  | some e => .ok (.range p.pos p.cur left .nil, some e, p')
  | none =>
    match to with
    | .intLit .. => .ok (.range p.pos p.cur left to, none, p')
    | .floatLit r tok _ =>
      .ok (.range p.pos p.cur left (.badNode r.start tok to r.stop),
        some ⟨.floatInIntRange, r.start, r.stop⟩, p')
    | .ident i =>
      .ok (.range p.pos p.cur left to, none, p'.addTask (.intBound i.name i.pos i.stop))
    | _ => .ok (.range p.pos p.cur left .nil, none, p')

/-- models parser/parser.go:895-938 `parseFloatBound`; `left` is an `ast.FloatLiteral`. -/
def parseFloatBound (rec : Rec) (left : Node) (p : PState) : PRes := do
  let (to, err, p') ← nextEntry rec p
  match err with
  | some e => .ok (.range p.pos p.cur left .nil, some e, p')
  | none =>
    match to with
    | .floatLit .. => .ok (.range p.pos p.cur left to, none, p')
    | .intLit pos tok v =>
      let stop := pos.to (decInt v).length
      .ok (.range p.pos p.cur left (.badNode pos tok to stop),
        some ⟨.intInFloatRange, pos, stop⟩, p')
    | .ident i =>
      .ok (.range p.pos p.cur left to, none, p'.addTask (.floatBound i.name i.pos i.stop))
    | _ => .ok (.range p.pos p.cur left .nil, none, p')

/-- models parser/parser.go:757-769 `parseBound`. -/
def parseBound (rec : Rec) (left : Node) (p : PState) : PRes :=
  match left with
  | .intLit .. => parseIntBound rec left p
  | .floatLit .. => parseFloatBound rec left p
  | .ident i => parseIdentBound rec i p
  | _ => .ok (.range {} .ILLEGAL .nil .nil, none, p)

/-- models the `nuds` table, parser/parser.go:1002-1029. -/
def nudOf (rec : Rec) (n : Nat) : Tok → Option (PState → PRes)
  | .IDENT => some parseNamedIdentifier
  | .BOOL => some parseBooleanType
  | .FALSE => some parseBooleanLiteral
  | .TRUE => some parseBooleanLiteral
  | .TSTR => some parseTstrType
  | .TEXT => some parseTstrType
  | .TEXT_LITERAL => some parseTextLiteral
  | .FLOAT => some parseFloatType
  | .FLOAT16 => some parseFloatType
  | .FLOAT32 => some parseFloatType
  | .FLOAT64 => some parseFloatType
  | .UINT => some parseUintType
  | .INT => some parseIntegerType
  | .NINT => some parseNegativeIntegerType
  | .BSTR => some parseBstrType
  | .BYTES => some parseBytesType
  | .NULL => some parseNullType
  | .NIL => some parseNullType
  | .LBRACE => some (parseMap rec n)
  | .LPAREN => some (parseGroup rec n)
  | .LBRACK => some (parseArray rec n)
  | .COMMENT => some (parseComment n)
  | .OPTIONAL => some (parseOptional rec)
  | .ZERO_OR_MORE => some (parseZMOccurrence rec)
  | .ONE_OR_MORE => some (parseOMOccurrence rec)
  | .UNWRAP => some (parseUnwrap rec)
  | .HASH => some (parseTag rec)
  | .AMPERSAND => some (parseEnumeration rec)
  | _ => none

/-- models the `leds` table, parser/parser.go:1031-1049. -/
def ledOf (rec : Rec) : Tok → Option (Node → PState → PRes)
  | .COLON => some (parseColon rec)
  | .TYPE_CHOICE => some (parseTypeChoice rec)
  | .GROUP_CHOICE => some (parseTypeChoice rec)
  | .LT => some (parseComparatorOp rec)
  | .LE => some (parseComparatorOp rec)
  | .GT => some (parseComparatorOp rec)
  | .GE => some (parseComparatorOp rec)
  | .EQ => some (parseComparatorOp rec)
  | .NE => some (parseComparatorOp rec)
  | .SIZE => some (parseSizeOperator rec)
  | .REGEXP => some (parseRegexp rec)
  | .BITS => some (parseBits rec)
  | .INCLUSIVE_BOUND => some (parseBound rec)
  | .EXCLUSIVE_BOUND => some (parseBound rec)
  | .ZERO_OR_MORE => some (parseOccurrence rec)
  | .ONE_OR_MORE => some (parseOccurrence rec)
  | .ARROW_MAP => some (parseColon rec)
  | .COMMA => some parseComma
  | _ => none

/-- One round of the operator loop, parser/parser.go:210-221. -/
def ledStep (rec : Rec) (prec : Nat) (s : Node × PState) :
    Out ((Node × PState) ⊕ (Node × Option Diag × PState)) :=
  if s.2.cur ≠ .COMMA ∧ prec < s.2.peek.precedence then
    match ledOf rec s.2.peek with
    | none => .ok (.inr (s.1, none, s.2))
    | some led => do
      let p ← s.2.next
      let (exp, err, p') ← led s.1 p
      match err with
      | some e => .ok (.inr (exp, some e, p'))
      | none => .ok (.inl (exp, p'))
  else .ok (.inr (s.1, none, s.2))

/-- models parser/parser.go:188-191: a comment before the operand is skipped. -/
def skipComment (n : Nat) (p : PState) : Out PState :=
  if p.cur = .COMMENT then do
    let (_, _, p') ← parseComment n p
    p'.next
  else .ok p

/-- models parser/parser.go:192-198: the handler of the current token; an identifier directly
before a colon is not recorded as a reference. -/
def selectNud (rec : Rec) (n : Nat) (p : PState) : Option (PState → PRes) :=
  if p.cur = .IDENT ∧ p.peek = .COLON then some parseIdentifier else nudOf rec n p.cur

/-- models parser/parser.go:185-223 `parseEntry`, with the recursive calls as a parameter. -/
def parseEntryBody (rec : Rec) (n : Nat) (prec : Nat) (p : PState) : PRes := do
  let p ← skipComment n p
  match selectNud rec n p with
  | none => .ok (.nil, some (errPrefix p.pos p.cur), p)
  | some nud => do
    let (exp, err, p') ← nud p
    match err with
    | some e => .ok (exp, some e, p')
    | none => loopOut (ledStep rec prec) n (exp, p')

/-- models parser/parser.go:185-223 `parseEntry`; `hang` when the fuel (depth of recursion and
length of loops) does not suffice. -/
def parseEntry : Nat → Rec
  | 0 => fun _ _ => .hang
  | n + 1 => parseEntryBody (parseEntry n) n

/-- models the deferred function of parser/parser.go:152-161: add the binding, report an
existing one. -/
def declare (name : Ident) (entry : Node) (p : PState) : Out PState :=
  match p.env.add name.name entry with
  | (env, false) => .ok { p with env := env }
  | (env, true) => do
    let s ← (env.get name.name).start
    .ok ({ p with env := env }.addError ⟨.existing name.name s.line s.column, name.pos, name.pos⟩)

/-- models parser/parser.go:172-177: a comment on the line of the last token of the rule. -/
def ruleTrailing (p : PState) : Out (Option Comment × PState) :=
  if p.peek = .COMMENT ∧ sameLine p.pos p.peekPos then do
    let p1 ← p.next
    let p2 ← p1.next
    .ok (some p1.parseInnerComment, p2)
  else .ok (none, p)

/-- models parser/parser.go:122-180 `parseRule`. -/
def parseRule (n : Nat) (p : PState) : PRes :=
  match p.cur with
  | .COMMENT => parseComment n p
  | .IDENT => do
    let name : Ident := ⟨p.pos, p.lit⟩
    let p1 ← p.next
    match p1.cur with
    | .ASSIGN => do
      let (entry, err, p3) ← nextEntry (parseEntry n) p1
      match err with
      | some e => .ok (.rule {} name .nil none, some e, p3)
      | none => do
        let (tc, p4) ← p3.ruleTrailing
        let p5 ← p4.declare name entry
        .ok (.rule {} name entry tc, none, p5)
    | .TYPE_CHOICE_ASSIGN | .GROUP_CHOICE_ASSIGN => do
      let p2 ← p1.next
      let (entry, err, p3) ← parseEntry n 0 p2
      match err with
      | some e => .ok (.rule {} name .nil none, some e, p3)
      | none => do
        let (tc, p4) ← p3.ruleTrailing
        .ok (.rule {} name entry tc, none, p4)
    | _ => .ok (.nil, some ⟨.expectedAssign name.name, name.pos, name.pos⟩, p1)
  | _ => .ok (.nil, some (errExpected p.pos .IDENT), p)

/-- The result of running a task (the closures at parser/parser.go:233-238, 833-846, 875-889,
920-934). -/
def runTask (env : Env) : Task → Option Diag
  | .exists name pos => if env.exists? name then none else some ⟨.noSuchIdent name, pos, pos⟩
  | .identBound tok left to =>
    match to with
    | .ident right =>
      let kl := (env.get left.name).kind
      let kr := (env.get right.name).kind
      if kl = kr then none
      else some ⟨.boundTypes tok left.name right.name kl kr, left.pos, right.pos⟩
    | _ => none
  | .intBound name s e =>
    if !env.exists? name then some ⟨.noSuchIdent name, s, e⟩
    else match (env.get name).kind with
      | .intLit => none
      | .floatLit => some ⟨.floatInIntRange, s, e⟩
      | _ => some ⟨.expectedIntUpper, s, e⟩
  | .floatBound name s e =>
    if !env.exists? name then some ⟨.noSuchIdent name, s, e⟩
    else match (env.get name).kind with
      | .floatLit => none
      | .intLit => some ⟨.intInFloatRange, s, e⟩
      | _ => some ⟨.expectedFloatUpper, s, e⟩

/-- models parser/parser.go:98-103: run the collected tasks in order. -/
def runTasks (p : PState) : PState :=
  { p with errors := p.errors ++ p.tasks.filterMap (runTask p.env) }

/-- One round of the rule loop, parser/parser.go:87-96. -/
def fileStep (n : Nat) (s : List Node × PState) :
    Out ((List Node × PState) ⊕ (List Node × PState)) :=
  if s.2.cur = .EOF then .ok (.inr s)
  else do
    let (e, err, p) ← parseRule n s.2
    let p1 := match err with
      | some d => p.addError d
      | none => p
    let p2 ← p1.next
    .ok (.inl (if e.isNil then s.1 else s.1 ++ [e], p2))

/-- The two results of `ParseFile` (the `*ast.CDDL`, `none` if nil, and the error list, `[]` if
nil: parser/diagnostic.go:96-101) and the parser afterwards. -/
structure FileResult where
  cddl : Option (List Node)
  errs : List Diag
  final : PState

/-- models parser/parser.go:78-107 `ParseFile`. -/
def parseFile (n : Nat) (p : PState) : Out FileResult :=
  if p.lx.errors ≠ [] then .ok ⟨none, [], p⟩
  else do
    let (rules, p') ← loopOut (fileStep n) n ([], p)
    let p'' := p'.runTasks
    .ok ⟨some rules, p''.errors, p''⟩

/-- models parser/parser.go:977-1054 `NewParser` with the option `WithEnv` (parser/parser.go:26-30);
without options the environment is `Env.new`. -/
def new (lx : Lexer) (env : Env) : Out PState := do
  let p : PState := { lx := lx, errors := [], pos := {}, peekPos := {}, cur := .ILLEGAL,
                      peek := .ILLEGAL, lit := [], peekLit := [], env := env, tasks := [] }
  let p ← p.next
  p.next

end PState

/-- `NewParser(NewLexer(src), WithEnv(env)).ParseFile()`, as every caller does
(cmd/cddlc/commands.go:76-78, cmd/cddlc/commands/generate.go:126-129,
cmd/cddlc/commands/repl.go:75-81). -/
def parseSource [Unicode] (n : Nat) (src : Bytes) (env : Env := Env.new) :
    Out PState.FileResult := do
  let p ← PState.new (Lexer.new src) env
  p.parseFile n

end Cddlc
