import Verif.Spec.Listable
import Verif.Spec.Pieces
import Verif.Model.Parser

/-! Schemas as a user writes them, independently of the parser: their token texts, the tree they
stand for, the references in them, and which of them the parser is expected to accept. -/

namespace Cddlc.Spec

/-! ### Trees without positions -/

/-- A number without its position. -/
def noPosU (u : UintLit) : UintLit := { u with pos := {} }

mutual
/-- A tree with all positions removed. -/
def noPos : Node → Node
  | .nil => .nil
  | .typedNil k => .typedNil k
  | .array _ rs => .array {} (noPosL rs)
  | .badNode _ t b _ => .badNode {} t (noPos b) {}
  | .boolType _ t => .boolType {} t
  | .boolLit _ b => .boolLit ⟨{}, {}⟩ b
  | .bstr _ t => .bstr {} t
  | .bytes _ t => .bytes {} t
  | .cddl _ rs => .cddl {} (noPosL rs)
  | .comment c => .comment ⟨{}, c.text⟩
  | .commentGroup cs => .commentGroup (cs.map fun c => ⟨{}, c.text⟩)
  | .bits _ t a b => .bits {} t (noPos a) (noPos b)
  | .comparator _ t o a b => .comparator {} t o (noPos a) (noPos b)
  | .regexp _ t b r => .regexp {} t ⟨{}, b.tok⟩ (noPos r)
  | .size _ t s ty => .size {} t (noPos s) (noPos ty)
  | .entry _ n v c => .entry {} ⟨{}, n.name⟩ (noPos v) (c.map fun c => ⟨{}, c.text⟩)
  | .enumeration _ t v => .enumeration {} t (noPos v)
  | .floatType _ t => .floatType {} t
  | .floatLit _ t v => .floatLit ⟨{}, {}⟩ t v
  | .group _ es => .group {} (noPosL es)
  | .groupChoice _ t a b => .groupChoice {} t (noPos a) (noPos b)
  | .ident i => .ident ⟨{}, i.name⟩
  | .intType _ t => .intType {} t
  | .nintType _ t => .nintType {} t
  | .intLit _ t v => .intLit {} t v
  | .map _ rs => .map {} (noPosL rs)
  | .null _ t => .null {} t
  | .optional _ t i => .optional {} t (noPos i)
  | .nm _ t n m i => .nm {} t (n.map noPosU) (m.map noPosU) (noPos i)
  | .range _ t a b => .range {} t (noPos a) (noPos b)
  | .rule _ n v c => .rule {} ⟨{}, n.name⟩ (noPos v) (c.map fun c => ⟨{}, c.text⟩)
  | .tag _ t a b i => .tag {} t (a.map noPosU) (b.map noPosU) (noPos i)
  | .textLit _ t l => .textLit {} t l
  | .tstr t => .tstr ⟨{}, t.tok⟩
  | .typeChoice _ t a b => .typeChoice {} t (noPos a) (noPos b)
  | .uintType _ t => .uintType ⟨{}, {}⟩ t
  | .uintLit u => .uintLit (noPosU u)
  | .unwrap _ t i => .unwrap {} t (noPos i)
/-- Trees with all positions removed. -/
def noPosL : List Node → List Node
  | [] => []
  | x :: xs => noPos x :: noPosL xs
end

/-! ### Numbers -/

/-- The value of a digit. -/
def digitNum (c : Char) : Nat :=
  if c ≤ '9' then c.toNat - 48 else if c ≤ 'Z' then c.toNat - 55 else c.toNat - 87

/-- The number written with the digits `ds`, most significant first. -/
def ofDigits (base : Nat) (ds : List Char) : Nat := ds.foldl (fun n c => n * base + digitNum c) 0

/-- The number a token text stands for. A decimal text of more than one digit that starts with
`0` is read as octal, as in C. -/
def numeral : Piece → Option Nat
  | .dec ds =>
    if ds.head? = some '0' ∧ 1 < ds.length then
      if ds.all octDigit then some (ofDigits 8 ds) else none
    else some (ofDigits 10 ds)
  | .hex ds => if ds = [] then none else some (ofDigits 16 ds)
  | .oct ds => if ds = [] then none else some (ofDigits 8 ds)
  | .bin ds => if ds = [] then none else some (ofDigits 2 ds)
  | _ => none

/-- The fraction `a.b`: all its digits, and how many of them are behind the dot. -/
def fraction (a b : List Char) : FloatVal := ⟨ofDigits 10 (a ++ b), b.length⟩

/-! ### Schemas -/

/-- The brackets of groups, arrays and maps. -/
inductive Br where
  | paren | brack | brace
  deriving DecidableEq

/-- Prefix operators `?`, `&` and `~`. -/
inductive Pre where
  | opt | amp | tilde
  deriving DecidableEq

/-- Infix operators. -/
inductive Bin where
  /-- `/` -/
  | choice
  /-- `//` -/
  | gchoice
  | size | regexp | bits
  | lt | le | gt | ge | eq | ne
  /-- `..` -/
  | incl
  /-- `...` -/
  | excl
  /-- `=>` -/
  | arrow
  /-- `:` behind a number -/
  | colon
  /-- `*` behind a number -/
  | star
  /-- `+` behind a number -/
  | plus
  deriving DecidableEq

/-- What follows the `#` of a tag. -/
inductive TagNum where
  | bare
  /-- `#6` -/
  | major (m : Piece)
  /-- `#6.32` -/
  | both (a b : List Char)
  deriving DecidableEq

mutual
/-- Types and group entries. -/
inductive Ty where
  /-- a reference -/
  | name (w : List Char)
  /-- a built-in type or value, such as `tstr` or `true` -/
  | kw (k : Tok)
  | int (s : Piece)
  | float (a b : List Char)
  | text (s : List Char)
  /-- `( ... )`, `[ ... ]`, `{ ... }` -/
  | list (br : Br) (es : Ents)
  /-- a tag without item -/
  | tag (h : TagNum)
  /-- a tag with an item in parentheses -/
  | tagged (h : TagNum) (t : Ty)
  | pre (o : Pre) (t : Ty)
  /-- `* t` or, with `plus`, `+ t` -/
  | occ (plus : Bool) (t : Ty)
  /-- `k: t` -/
  | field (k : List Char) (t : Ty)
  | bin (o : Bin) (l r : Ty)
  /-- comments before `t`; `same` says whether the first of them is on the line of the text before it -/
  | noted (same : Bool) (cs : List (List Char)) (t : Ty)
  /-- a comment behind the entry `t` and a comma perhaps, on the same line -/
  | remark (t : Ty) (comma : Bool) (c : List Char)
/-- The entries between brackets, each with or without a comma behind it. -/
inductive Ents where
  | nil
  | cons (t : Ty) (comma : Bool) (es : Ents)
end

/-- The spelling and the token of an operator. -/
def Bin.op : Bin → Piece
  | .choice => .op "/" .TYPE_CHOICE
  | .gchoice => .op "//" .GROUP_CHOICE
  | .size => .ctl "size".toList
  | .regexp => .ctl "regexp".toList
  | .bits => .ctl "bits".toList
  | .lt => .ctl "lt".toList
  | .le => .ctl "le".toList
  | .gt => .ctl "gt".toList
  | .ge => .ctl "ge".toList
  | .eq => .ctl "eq".toList
  | .ne => .ctl "ne".toList
  | .incl => .op ".." .INCLUSIVE_BOUND
  | .excl => .op "..." .EXCLUSIVE_BOUND
  | .arrow => .op "=>" .ARROW_MAP
  | .colon => .op ":" .COLON
  | .star => .op "*" .ZERO_OR_MORE
  | .plus => .op "+" .ONE_OR_MORE

/-- Is it one of the comparisons? -/
def Bin.isCmp : Bin → Bool
  | .lt | .le | .gt | .ge | .eq | .ne => true
  | _ => false

/-- Is it one of the two range operators? -/
def Bin.isRange : Bin → Bool
  | .incl | .excl => true
  | _ => false

def Pre.op : Pre → Piece
  | .opt => .op "?" .OPTIONAL
  | .amp => .op "&" .AMPERSAND
  | .tilde => .op "~" .UNWRAP

def occOp (plus : Bool) : Piece := if plus then .op "+" .ONE_OR_MORE else .op "*" .ZERO_OR_MORE

def Br.opens : Br → Piece
  | .paren => .op "(" .LPAREN
  | .brack => .op "[" .LBRACK
  | .brace => .op "{" .LBRACE

def Br.closes : Br → Piece
  | .paren => .op ")" .RPAREN
  | .brack => .op "]" .RBRACK
  | .brace => .op "}" .RBRACE

/-- The built-in types and values: token and spelling. -/
def builtins : List (Tok × String) :=
  [(.BOOL, "bool"), (.TRUE, "true"), (.FALSE, "false"), (.TSTR, "tstr"), (.TEXT, "text"),
   (.FLOAT, "float"), (.FLOAT16, "float16"), (.FLOAT32, "float32"), (.FLOAT64, "float64"),
   (.UINT, "uint"), (.INT, "int"), (.NINT, "nint"), (.BSTR, "bstr"), (.BYTES, "bytes"),
   (.NULL, "null"), (.NIL, "nil")]

/-- The spelling of a built-in. -/
def builtin (k : Tok) : List Char :=
  match builtins.find? (·.1 = k) with
  | some e => e.2.toList
  | none => []

def TagNum.pieces : TagNum → List Piece
  | .bare => []
  | .major m => [m]
  | .both a b => [.frac a b]

/-- The token texts of comments. -/
def notes (same : Bool) : List (List Char) → List Piece
  | [] => []
  | c :: cs => .comment c same :: cs.map (.comment · false)

mutual
/-- The token texts of a type. -/
def Ty.pieces : Ty → List Piece
  | .name w => [.word w]
  | .kw k => [.word (builtin k)]
  | .int s => [s]
  | .float a b => [.frac a b]
  | .text s => [.str s]
  | .list br es => br.opens :: (es.pieces ++ [br.closes])
  | .tag h => .op "#" .HASH :: h.pieces
  | .tagged h t => .op "#" .HASH :: (h.pieces ++ .op "(" .LPAREN :: (t.pieces ++ [.op ")" .RPAREN]))
  | .pre o t => o.op :: t.pieces
  | .occ plus t => occOp plus :: t.pieces
  | .field k t => .word k :: .op ":" .COLON :: t.pieces
  | .bin o l r => l.pieces ++ o.op :: r.pieces
  | .noted same cs t => notes same cs ++ t.pieces
  | .remark t comma c => t.pieces ++ ((if comma then [.op "," .COMMA] else []) ++ [.comment c true])
/-- The token texts of the entries between brackets. -/
def Ents.pieces : Ents → List Piece
  | .nil => []
  | .cons t comma es => t.pieces ++ ((if comma then [.op "," .COMMA] else []) ++ es.pieces)
end

/-! ### The tree -/

/-- The node of a built-in. -/
def builtinNode (k : Tok) : Node :=
  match k with
  | .BOOL => .boolType {} k
  | .TRUE => .boolLit ⟨{}, {}⟩ true
  | .FALSE => .boolLit ⟨{}, {}⟩ false
  | .TSTR | .TEXT => .tstr ⟨{}, k⟩
  | .FLOAT | .FLOAT16 | .FLOAT32 | .FLOAT64 => .floatType {} k
  | .UINT => .uintType ⟨{}, {}⟩ k
  | .INT => .intType {} k
  | .NINT => .nintType {} k
  | .BSTR => .bstr {} k
  | .BYTES => .bytes {} k
  | .NULL | .NIL => .null {} k
  | _ => .nil

def TagNum.majorNum : TagNum → Option UintLit
  | .bare => none
  | .major m => some { value := (numeral m).getD 0 }
  | .both a _ => some { tok := .FLOAT, value := (numeral (.dec a)).getD 0 }

def TagNum.minorNum : TagNum → Option UintLit
  | .both _ b => some { tok := .FLOAT, value := (numeral (.dec b)).getD 0 }
  | _ => none

/-- The number a type starts with, if it starts with one. -/
def Ty.firstInt : Ty → Option Nat
  | .int s => numeral s
  | .bin _ l _ => l.firstInt
  | .remark t _ _ => t.firstInt
  | _ => none

/-- The name of a tree that is just a name, or a number. -/
def keyName : Node → Bytes
  | .ident i => i.name
  | .intLit _ _ v => decInt v
  | _ => []

/-- The lower bound of an occurrence. -/
def lowNum : Node → UintLit
  | .intLit _ _ v => ⟨{}, .UINT, v.toNat⟩
  | _ => ⟨{}, .UINT, 0⟩

/-- The upper end of a range: with `quirks`, the parser keeps it only behind a name, or if it is
a number of the same kind or a name. -/
def upperEnd (quirks : Bool) (lo hi : Node) : Node :=
  if quirks && lo.kind != .ident && hi.kind != .ident && hi.kind != lo.kind then .nil else hi

/-- What an infix operator makes of its operands; `m` is the upper bound of an occurrence. With `quirks`, a comparison loses its left operand. -/
def Bin.node (quirks : Bool) (o : Bin) (m : Option Nat) (l r : Node) : Node :=
  match o with
  | .choice | .gchoice => .typeChoice {} o.op.tok l r
  | .size => .size {} .SIZE r l
  | .regexp => .regexp {} .REGEXP (match l with | .tstr t => t | _ => ⟨{}, .ILLEGAL⟩) r
  | .bits => .bits {} .BITS l r
  | .lt | .le | .gt | .ge | .eq | .ne =>
    .comparator {} o.op.tok (enc o.op.lit) (if quirks then .typedNil .intType else l) r
  | .incl | .excl => .range {} o.op.tok l (upperEnd quirks l r)
  | .arrow | .colon => .entry {} ⟨{}, keyName l⟩ r none
  | .star | .plus => .nm {} o.op.tok (some (lowNum l)) (m.map fun m => ⟨{}, .INT, m⟩) r

/-- An entry with a comment. -/
def withNote (c : List Char) : Node → Node
  | .entry pos n v _ => .entry pos n v (some ⟨{}, enc c⟩)
  | x => x

/-- What a prefix operator makes of its operand. -/
def Pre.node (o : Pre) (x : Node) : Node :=
  match o with
  | .opt => .optional {} .OPTIONAL x
  | .amp => .enumeration {} .AMPERSAND x
  | .tilde => .unwrap {} .UNWRAP x

/-- What brackets make of the entries between them. With `quirks`, groups and arrays lose the
entries that are not of one of the kinds in `ast.GroupEntry`. -/
def Br.node (quirks : Bool) (br : Br) (xs : List Node) : Node :=
  match br with
  | .paren => .group {} (if quirks then xs.filter (listable ·.kind) else xs)
  | .brack => .array {} (if quirks then xs.filter (listable ·.kind) else xs)
  | .brace => .map {} xs

mutual
/-- The tree a type stands for, without positions. `quirks := true` gives what the parser returns
instead; in particular it takes a number at the start of an item for the upper bound of the
occurrence. -/
def Ty.node (quirks : Bool) : Ty → Node
  | .name w => .ident ⟨{}, enc w⟩
  | .kw k => builtinNode k
  | .int s => .intLit {} .INT ((numeral s).getD 0)
  | .float a b => .floatLit ⟨{}, {}⟩ .FLOAT (fraction a b)
  | .text s => .textLit {} .TEXT_LITERAL (enc s)
  | .list br es => br.node quirks (es.nodes quirks)
  | .tag h => .tag {} .HASH h.majorNum h.minorNum .nil
  | .tagged h t => .tag {} .HASH h.majorNum h.minorNum (t.node quirks)
  | .pre o t => o.node (t.node quirks)
  | .occ plus t => .nm {} (occOp plus).tok (some ⟨{}, .UINT, if plus then 1 else 0⟩)
      ((if quirks then t.firstInt else none).map fun m => ⟨{}, .INT, m⟩) (t.node quirks)
  | .field k t => .entry {} ⟨{}, enc k⟩ (t.node quirks) none
  | .bin o l r => o.node quirks (if quirks then r.firstInt else none) (l.node quirks) (r.node quirks)
  | .noted _ _ t => t.node quirks
  | .remark t _ c => withNote c (t.node quirks)
/-- The trees of the entries between brackets. -/
def Ents.nodes (quirks : Bool) : Ents → List Node
  | .nil => []
  | .cons t _ es => t.node quirks :: es.nodes quirks
end

/-! ### Checks made after the last rule -/

/-- What is to be checked of the names in a type. -/
inductive Check where
  /-- the name must be declared -/
  | declared (k : Bytes)
  /-- the two ends of a range must be declared with values of one kind -/
  | alike (tok : Tok) (a b : Bytes)
  /-- the upper end of a range must be an integer -/
  | isInt (k : Bytes)
  /-- the upper end of a range must be a fraction -/
  | isFloat (k : Bytes)
  deriving DecidableEq

/-- What is to be checked of the two ends of a range. -/
def rangeChecks (tok : Tok) (lo hi : Node) : List Check :=
  match lo, hi with
  | .ident a, .ident b => [.alike tok a.name b.name]
  | .intLit .., .ident b => [.isInt b.name]
  | .floatLit .., .ident b => [.isFloat b.name]
  | _, _ => []

mutual
/-- The checks of a type, in source order: every name used as a type or value (but not names
starting with `$`), and then the ends of ranges. The name before `=>` counts as used, the name
before `:` does not. -/
def Ty.checks : Ty → List Check
  | .name w => if w.head? = some '$' then [] else [.declared (enc w)]
  | .list _ es => es.checks
  | .tagged _ t | .pre _ t | .occ _ t | .field _ t | .noted _ _ t | .remark t _ _ => t.checks
  | .bin o l r => l.checks ++ (r.checks ++
      (if o.isRange then rangeChecks o.op.tok (l.node true) (r.node true) else []))
  | _ => []
def Ents.checks : Ents → List Check
  | .nil => []
  | .cons t _ es => t.checks ++ es.checks
end

/-- Why a check fails, given the kinds of the declared names. -/
def Check.failure (kindOf : Bytes → Option NodeKind) : Check → Option Msg
  | .declared k => if kindOf k = none then some (.noSuchIdent k) else none
  | .alike tok a b =>
    let ka := (kindOf a).getD .none
    let kb := (kindOf b).getD .none
    if ka = kb then none else some (.boundTypes tok a b ka kb)
  | .isInt k =>
    match kindOf k with
    | none => some (.noSuchIdent k)
    | some .intLit => none
    | some .floatLit => some .floatInIntRange
    | some _ => some .expectedIntUpper
  | .isFloat k =>
    match kindOf k with
    | none => some (.noSuchIdent k)
    | some .floatLit => none
    | some .intLit => some .intInFloatRange
    | some _ => some .expectedFloatUpper

/-! ### Which schemas are accepted -/

/-- The first token of a type. -/
def Ty.first : Ty → Tok
  | .name _ => .IDENT
  | .kw k => k
  | .int _ => .INT
  | .float _ _ => .FLOAT
  | .text _ => .TEXT_LITERAL
  | .list br _ => br.opens.tok
  | .tag _ | .tagged _ _ => .HASH
  | .pre o _ => o.op.tok
  | .occ plus _ => (occOp plus).tok
  | .field _ _ => .IDENT
  | .bin _ l _ => l.first
  | .noted _ _ _ => .COMMENT
  | .remark t _ _ => t.first

/-- Operands of infix operators: no operators at the outside. -/
def Ty.atom : Ty → Bool
  | .name _ | .kw _ | .int _ | .float _ _ | .text _ | .list _ _ | .tag _ | .tagged _ _ => true
  | _ => false

/-- The tokens of the infix operators. -/
def infixes : List Tok :=
  [.TYPE_CHOICE, .GROUP_CHOICE, .SIZE, .REGEXP, .BITS, .LT, .LE, .GT, .GE, .EQ, .NE,
   .INCLUSIVE_BOUND, .EXCLUSIVE_BOUND, .ARROW_MAP, .COLON, .ZERO_OR_MORE, .ONE_OR_MORE]

/-- May a token of kind `nx` directly follow the type? It must not be an infix operator, and not
look like the continuation of a tag. -/
def Ty.mayPrecede (nx : Tok) : Ty → Bool
  | .tag .bare => nx ∉ infixes ∧ nx ≠ .INT ∧ nx ≠ .FLOAT ∧ nx ≠ .LPAREN
  | .tag _ => nx ∉ infixes ∧ nx ≠ .LPAREN
  | .pre _ t | .occ _ t | .field _ t | .bin _ _ t | .noted _ _ t => t.mayPrecede nx
  | _ => nx ∉ infixes

/-- Which operands an infix operator takes. -/
def Bin.fits (o : Bin) (l r : Ty) : Prop :=
  match o with
  | .choice | .gchoice | .bits => True
  | .size => l ∈ [Ty.kw .TSTR, .kw .TEXT, .kw .BSTR, .kw .UINT]
  | .regexp => l ∈ [Ty.kw .TSTR, .kw .TEXT] ∧ (r.first = .TEXT_LITERAL ∨ r.first = .IDENT)
  | .lt | .le | .gt | .ge | .eq | .ne =>
    l ∈ [Ty.kw .UINT, .kw .INT, .kw .FLOAT, .kw .FLOAT16, .kw .FLOAT32, .kw .FLOAT64]
  | .incl | .excl =>
    (∃ w, l = .name w) ∨ (∃ s, l = .int s ∧ (r.node true).kind ≠ .floatLit) ∨
    (∃ a b, l = .float a b ∧ (r.node true).kind ≠ .intLit)
  | .arrow => (∃ w, l = .name w) ∨ ∃ s, l = .int s
  | .colon | .star | .plus => ∃ s, l = .int s

/-- A number that fits in 63 bits. -/
def Int63 (s : Piece) : Prop := ∃ v, numeral s = some v ∧ v < 2 ^ 63

def TagNum.WF : TagNum → Prop
  | .bare => True
  | .major m => ∃ v, numeral m = some v ∧ v < 2 ^ 64
  | .both a b => (∃ v, numeral (.dec a) = some v ∧ v < 2 ^ 64) ∧
      ∃ v, numeral (.dec b) = some v ∧ v < 2 ^ 64

/-- Is it a type behind comment lines? -/
def Ty.isNoted : Ty → Bool
  | .noted _ _ _ => true
  | _ => false

/-- Would a comment behind the type, on its line, be that of an entry? -/
def Ty.takes : Ty → Bool
  | .field _ _ | .remark _ _ _ => true
  | .bin o _ r => o = .arrow || o = .colon || r.takes
  | .pre _ t | .occ _ t | .noted _ _ t => t.takes
  | _ => false

/-- Is it an entry whose value does not end with an entry? -/
def Ty.single : Ty → Bool
  | .field _ v => !v.takes
  | .bin o _ v => (o = .arrow || o = .colon) && !v.takes
  | _ => false

/-- Does it start with a comment on the line of the text before? -/
def Ty.startsSame : Ty → Bool
  | .noted same _ _ => same
  | _ => false

/-- Do the entries start with a comment on the line of the text before? -/
def Ents.startsSame : Ents → Bool
  | .nil => false
  | .cons t _ _ => t.startsSame

/-- The first token of the entries between brackets, or the closing bracket. -/
def Ents.first (close : Tok) : Ents → Tok
  | .nil => close
  | .cons t _ _ => t.first

mutual
/-- The supported fragment: names are not reserved words, numbers fit, infix operators stand
behind operands they take (so `a / b / c` is `a / (b / c)`), entries are separated where they have
to be, comments behind entries belong to them, and there are no comments before closing brackets. -/
def Ty.WF : Ty → Prop
  | .name w => word w = .IDENT
  | .kw k => k ∈ builtins.map (·.1)
  | .int s => Int63 s
  | .float a b => (fraction a b).mant < (2 ^ 1024 - 2 ^ 970) * 10 ^ (fraction a b).scale
  | .text _ => True
  | .list br es => es.WF br.closes.tok
  | .tag h => h.WF
  | .tagged h t => h.WF ∧ t.WF
  | .pre _ t => t.WF
  | .occ _ t => t.WF
  | .field k t => word k = .IDENT ∧ t.WF
  | .bin o l r => l.atom = true ∧ l.WF ∧ r.WF ∧ o.fits l r
  | .noted _ cs t => cs ≠ [] ∧ t.isNoted = false ∧ t.WF
  | .remark t _ _ => t.single = true ∧ t.WF
def Ents.WF (close : Tok) : Ents → Prop
  | .nil => True
  | .cons t comma es => t.WF ∧ es.WF close ∧
      (comma = false → t.mayPrecede (es.first close) = true) ∧ (t.takes = true → es.startsSame = false)
end

/-- `=`, `/=` or `//=`. -/
inductive Assign where
  | eq | choice | gchoice
  deriving DecidableEq

def Assign.op : Assign → Piece
  | .eq => .op "=" .ASSIGN
  | .choice => .op "/=" .TYPE_CHOICE_ASSIGN
  | .gchoice => .op "//=" .GROUP_CHOICE_ASSIGN

/-- A rule, and the comment lines before it. -/
structure SRule where
  lead : List (List Char)
  name : List Char
  assign : Assign
  body : Ty

/-- A schema: rules, and the comment lines at its end. -/
structure Schema where
  rules : List SRule
  tail : List (List Char)

def SRule.pieces (r : SRule) : List Piece :=
  r.lead.map (.comment · false) ++ .word r.name :: r.assign.op :: r.body.pieces

def Schema.pieces (s : Schema) : List Piece := s.rules.flatMap (·.pieces) ++ s.tail.map (.comment · false)

/-- The node for some comment lines. -/
def commentNodes (cs : List (List Char)) : List Node :=
  match cs with
  | [] => []
  | [c] => [.comment ⟨{}, enc c⟩]
  | cs => [.commentGroup (cs.map fun c => ⟨{}, enc c⟩)]

def SRule.node (quirks : Bool) (r : SRule) : Node :=
  .rule {} ⟨{}, enc r.name⟩ (r.body.node quirks) none

/-- The top-level nodes of a schema. -/
def Schema.nodes (quirks : Bool) (s : Schema) : List Node :=
  s.rules.flatMap (fun r => commentNodes r.lead ++ [r.node quirks]) ++ commentNodes s.tail

/-- The kind of value the rules give to a name: that of the first `=` rule for it. -/
def kindOf (rs : List SRule) (k : Bytes) : Option NodeKind :=
  (rs.find? fun r => r.assign = .eq ∧ enc r.name = k).map fun r => (r.body.node true).kind

/-- The names declared more than once, at each declaration but the first. -/
def duplicates (seen : List Bytes) : List SRule → List Bytes
  | [] => []
  | r :: rs =>
    if r.assign = .eq then
      if enc r.name ∈ seen then enc r.name :: duplicates seen rs
      else duplicates (enc r.name :: seen) rs
    else duplicates seen rs

/-- A message without positions. -/
def noPosMsg : Msg → Msg
  | .tokenExpected t _ => .tokenExpected t {}
  | .unexpectedPrefix t _ => .unexpectedPrefix t {}
  | .existing k _ _ => .existing k 0 0
  | m => m

/-- The errors of a schema: one per repeated declaration, then one per failed check. -/
def Schema.errors (s : Schema) : List Msg :=
  (duplicates [] s.rules).map (.existing · 0 0) ++
  (s.rules.flatMap (·.body.checks)).filterMap (Check.failure (kindOf s.rules))

/-- Is it a comparison? -/
def Ty.isCmp : Ty → Bool
  | .bin o _ _ => o.isCmp
  | _ => false

/-- The supported schemas. The message for a repeated declaration gives the position of the first
one, which for a comparison does not exist (the parser panics). -/
def Schema.WF (s : Schema) : Prop :=
  (∀ r ∈ s.rules, word r.name = .IDENT ∧ r.body.WF ∧
    (r.body.isCmp = true ∨ (∃ same cs t, r.body = .noted same cs t ∧ t.isCmp = true) →
      enc r.name ∉ duplicates [] s.rules))

/-! ### The text of a schema -/

/-- Comments are to stand on the line of the text before them, or not. -/
def Piece.same : Piece → Bool
  | .comment _ same => same
  | _ => false

/-- Comments stand on the line of the text before them where they are to, and nowhere else. -/
def ownLines : List (Piece × List Char) → Prop
  | a :: b :: ps => (b.1.tok = .COMMENT → ('\n' ∈ a.2 ↔ b.1.same = false)) ∧ ownLines (b :: ps)
  | _ => True

/-- `src` is a text of the schema: its token texts in order, separated by any white space, with comments
on the lines where they are to be. -/
def Schema.WrittenAs (s : Schema) (src : Bytes) : Prop :=
  ∃ g ps, (∀ c ∈ g, ws c = true) ∧ PiecesWF ps ∧ ownLines ps ∧ ps.map (·.1) = s.pieces ∧
    src = enc (g ++ renderAll ps)

/-- A token text per line, but for comments that are to stand behind another text. -/
def lined : List Piece → List (Piece × List Char)
  | [] => []
  | [a] => [(a, ['\n'])]
  | a :: b :: ps => (a, if b.same then [' '] else ['\n']) :: lined (b :: ps)

/-- One of the texts of a schema. -/
def Schema.render (s : Schema) : Bytes := enc (renderAll (lined s.pieces))

/-! ### Where the parser returns the tree that was written -/

mutual
/-- Nothing is lost: no comparisons, only entries of the kinds in `ast.GroupEntry` in groups and
arrays, ranges whose ends have the same kind or are names, and no occurrences of numbers. -/
def Ty.plain : Ty → Bool
  | .list .brace es => es.plain
  | .list _ es => es.plain && (es.nodes false).all (listable ·.kind)
  | .tagged _ t | .pre _ t | .field _ t | .noted _ _ t | .remark t _ _ => t.plain
  | .occ _ t => t.plain && t.firstInt.isNone
  | .bin o l r => l.plain && r.plain && !o.isCmp &&
      (if o.isRange then (l.node false).kind == .ident || (r.node false).kind == .ident ||
        (r.node false).kind == (l.node false).kind else true) &&
      (if o = .star ∨ o = .plus then r.firstInt.isNone else true)
  | _ => true
def Ents.plain : Ents → Bool
  | .nil => true
  | .cons t _ es => t.plain && es.plain
end

/-! ### Parts of trees and schemas -/

/-- `t / u1 / ... / un`. -/
def Ty.choices : Ty → List Ty → Ty
  | t, [] => t
  | t, u :: us => .bin .choice t (choices u us)

/-- The alternatives of a choice, from left to right. -/
def alternatives : Node → List Node
  | .typeChoice _ .TYPE_CHOICE a b => a :: alternatives b
  | x => [x]

/-- Does it end with a comma, behind which there is only a comment? -/
def Ty.endComma : Ty → Bool
  | .remark _ comma _ => comma
  | .pre _ t | .occ _ t | .field _ t | .bin _ _ t | .noted _ _ t => t.endComma
  | _ => false

mutual
/-- The type without its comments. -/
def Ty.strip : Ty → Ty
  | .list br es => .list br es.strip
  | .tagged h t => .tagged h t.strip
  | .pre o t => .pre o t.strip
  | .occ plus t => .occ plus t.strip
  | .field k t => .field k t.strip
  | .bin o l r => .bin o l.strip r.strip
  | .noted _ _ t => t.strip
  | .remark t _ _ => t.strip
  | t => t
def Ents.strip : Ents → Ents
  | .nil => .nil
  | .cons t comma es => .cons t.strip (comma || t.endComma) es.strip
end

def SRule.strip (r : SRule) : SRule := ⟨[], r.name, r.assign, r.body.strip⟩

/-- The schema without its comments. -/
def Schema.strip (s : Schema) : Schema := ⟨s.rules.map SRule.strip, []⟩

mutual
/-- A tree without the comments of its entries. -/
def noNotes : Node → Node
  | .array p rs => .array p (noNotesL rs)
  | .bits p t a b => .bits p t (noNotes a) (noNotes b)
  | .comparator p t o a b => .comparator p t o (noNotes a) (noNotes b)
  | .regexp p t b r => .regexp p t b (noNotes r)
  | .size p t s ty => .size p t (noNotes s) (noNotes ty)
  | .entry p n v _ => .entry p n (noNotes v) none
  | .enumeration p t v => .enumeration p t (noNotes v)
  | .group p es => .group p (noNotesL es)
  | .groupChoice p t a b => .groupChoice p t (noNotes a) (noNotes b)
  | .map p rs => .map p (noNotesL rs)
  | .optional p t i => .optional p t (noNotes i)
  | .nm p t n m i => .nm p t n m (noNotes i)
  | .range p t a b => .range p t (noNotes a) (noNotes b)
  | .rule p n v c => .rule p n (noNotes v) c
  | .tag p t a b i => .tag p t a b (noNotes i)
  | .typeChoice p t a b => .typeChoice p t (noNotes a) (noNotes b)
  | .unwrap p t i => .unwrap p t (noNotes i)
  | x => x
/-- Trees without the comments of their entries. -/
def noNotesL : List Node → List Node
  | [] => []
  | x :: xs => noNotes x :: noNotesL xs
end

/-- Name and value of the rule number `i` of a file. -/
def ruleValue (rules : List Node) (i : Nat) : Option (Bytes × Node) :=
  match (rules.filter (·.kind = .rule))[i]? with
  | some (.rule _ name v _) => some (name.name, v)
  | _ => none

end Cddlc.Spec
