import Verif.Spec.Tree
import Verif.Model.Diag

/-! What diagnostics say, and how they are shown. -/

namespace Cddlc.Spec

/-- The part of the line of the byte offset `o` that stands before `o`. -/
def before (src : Bytes) (o : Nat) : Bytes := ((src.take o).reverse.takeWhile (· ≠ 10)).reverse

/-- The part of the line of the byte offset `o` that starts at `o`. -/
def behind (src : Bytes) (o : Nat) : Bytes := (src.drop o).takeWhile (· ≠ 10)

/-- A diagnostic at the byte offset `o` as it is to be shown: the message, the line of `o` behind
its number, and a tilde under the byte at `o`. -/
def shown (text : Msg → Bytes) (src : Bytes) (m : Msg) (o : Nat) : Bytes :=
  let margin := b!"    " ++ decNat (lineAt src o) ++ b!" | "
  b!"parser error: " ++ text m ++ b!"\n" ++
  margin ++ before src o ++ behind src o ++ b!"\n" ++
  List.replicate (margin.length + (before src o).length) 32 ++ b!"˜"

/-- Diagnostics of the checks made after the last rule. They are at an identifier, and the reason
given is true of the final environment. -/
def CheckDiag [Unicode] (l : Lexer) (env : Env) (d : Diag) : Prop :=
  ∃ name, Tk l ⟨.IDENT, d.start, name⟩ ∧
    match d.msg with
    | .noSuchIdent k => k = name ∧ env.exists? k = false
    | .boundTypes tok a b ka kb => a = name ∧ Tk l ⟨.IDENT, d.stop, b⟩ ∧ ka ≠ kb ∧
        (env.get a).kind = ka ∧ (env.get b).kind = kb ∧ (tok = .INCLUSIVE_BOUND ∨ tok = .EXCLUSIVE_BOUND)
    | .floatInIntRange => (env.get name).kind = .floatLit
    | .intInFloatRange => (env.get name).kind = .intLit
    | .expectedIntUpper | .expectedFloatUpper => env.exists? name = true ∧
        (env.get name).kind ≠ .intLit ∧ (env.get name).kind ≠ .floatLit
    | _ => False

/-- Messages that only those checks produce. -/
def onlyDeferred : Msg → Bool
  | .noSuchIdent _ | .boundTypes .. | .expectedIntUpper | .expectedFloatUpper => true
  | _ => false

/-- `t` and `u` are consecutive tokens. -/
def Follows [Unicode] (l : Lexer) (t u : Token) : Prop := ∃ ts l', Scans l (ts ++ [t, u]) l'

/-- The tokens an operand can begin with. -/
def starters : List Tok :=
  [.IDENT, .BOOL, .TRUE, .FALSE, .TSTR, .TEXT, .TEXT_LITERAL, .FLOAT, .FLOAT16, .FLOAT32, .FLOAT64,
   .UINT, .INT, .NINT, .BSTR, .BYTES, .NULL, .NIL, .LBRACE, .LPAREN, .LBRACK, .COMMENT, .OPTIONAL,
   .ZERO_OR_MORE, .ONE_OR_MORE, .UNWRAP, .HASH, .AMPERSAND]

/-- The token `tok` was asked for at `pos`, and is not there. -/
def Missing [Unicode] (l : Lexer) (tok : Tok) (pos : Pos) : Prop :=
  match tok with
  -- a rule is to begin here
  | .IDENT => ∃ t, TkAt l t pos ∧ t ≠ .IDENT ∧ t ≠ .COMMENT ∧ t ≠ .EOF
  -- the operator is here, and what follows it is no pattern
  | .TEXT_LITERAL => ∃ op u, Follows l ⟨.REGEXP, pos, op⟩ u ∧ u.tok ≠ .TEXT_LITERAL ∧ u.tok ≠ .IDENT
  -- a number is here, and its value is none of the wanted type
  | .INT => ∃ lit, Tk l ⟨.INT, pos, lit⟩ ∧ lit ≠ b!"int" ∧ ∀ v, parseInt lit ≠ .ok v
  | .UINT => ∃ lit, Tk l ⟨.INT, pos, lit⟩ ∧ lit ≠ b!"int" ∧ ∀ v, parseUint lit ≠ .ok v
  | .FLOAT => ∃ lit, Tk l ⟨.FLOAT, pos, lit⟩ ∧ lit ≠ b!"float" ∧ ∀ v, parseFloat lit ≠ .ok v
  | _ => False

/-- What a diagnostic found while reading rules says is true of the tokens. The messages not listed
are never given in that phase; that a boolean literal, the number of an integer type, or a lower bound
is wrong cannot happen at all. (`existing` is `Redeclared`.) -/
def Tells [Unicode] (l : Lexer) (d : Diag) : Prop :=
  match d.msg with
  | .tokenExpected tok pos => pos = d.start ∧ d.stop = d.start ∧ Missing l tok pos
  | .unexpectedPrefix tok pos => pos = d.start ∧ d.stop = d.start ∧ TkAt l tok pos ∧ tok ∉ starters
  | .expectedAssign k => d.stop = d.start ∧ ∃ u, Follows l ⟨.IDENT, d.start, k⟩ u ∧
      u.tok ≠ .ASSIGN ∧ u.tok ≠ .TYPE_CHOICE_ASSIGN ∧ u.tok ≠ .GROUP_CHOICE_ASSIGN
  | .unsupported op toks => d.stop = d.start ∧ ∃ t, Tk l ⟨t, d.start, op⟩ ∧
      (((t = .COLON ∨ t = .ARROW_MAP) ∧ toks = [.IDENT, .INT]) ∨
       (t = .SIZE ∧ toks = [.TSTR, .BSTR, .UINT]) ∨
       (t ∈ [Tok.LT, .LE, .GT, .GE, .EQ, .NE] ∧ toks = [.INT, .FLOAT, .UINT]))
  | .tagMajor => d.stop = d.start ∧ ∃ h lit, h.tok = .HASH ∧ Follows l h ⟨.INT, d.start, lit⟩ ∧
      ∀ v, parseUint lit ≠ .ok v
  | .invalidTag lit => d.stop = d.start ∧ (∃ h, h.tok = .HASH ∧ Follows l h ⟨.FLOAT, d.start, lit⟩) ∧
      (splitDots lit).length ≠ 2
  | .tagNumber s e => d.stop = d.start ∧
      (∃ h lit, h.tok = .HASH ∧ Follows l h ⟨.FLOAT, d.start, lit⟩ ∧ s ∈ splitDots lit) ∧
      parseUint s = .error e
  | .lowerType tok => (tok = .ZERO_OR_MORE ∨ tok = .ONE_OR_MORE) ∧ ∃ pos, TkAt l tok pos
  | .floatInIntRange => ∃ t lit v, Tk l ⟨t, d.start, lit⟩ ∧ parseFloat lit = .ok v
  | .intInFloatRange => ∃ lit v, Tk l ⟨.INT, d.start, lit⟩ ∧ parseInt lit = .ok v
  | _ => False

/-- The diagnostic of a second declaration: it is at the name declared again, and gives the place
where the value bound to that name begins. -/
def Redeclared [Unicode] (l : Lexer) (env : Env) (d : Diag) : Prop :=
  ∃ k s, d.msg = .existing k s.line s.column ∧ d.stop = d.start ∧ TkThen l ⟨d.start, k⟩ .ASSIGN ∧
    env.exists? k = true ∧ (env.get k).start = .ok s

/-- `t` stands behind a range operator, with nothing but comments between them. -/
def BehindRange [Unicode] (l : Lexer) (t : Token) : Prop :=
  ∃ ts r cs l', Scans l (ts ++ r :: cs ++ [t]) l' ∧ (r.tok = .INCLUSIVE_BOUND ∨ r.tok = .EXCLUSIVE_BOUND) ∧
    ∀ c ∈ cs, c.tok = .COMMENT

end Cddlc.Spec
