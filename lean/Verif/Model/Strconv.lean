import Verif.Model.Ast

namespace Cddlc

/-- The two errors of Go's `strconv` conversions. Returned to parser/parser.go:278, 300, 429, 485, 490, 608. -/
inductive NumErr where
  | syntax | range
  deriving DecidableEq, Repr

/-- `strconv.lower`: set the ASCII lower-case bit.
Part of `strconv.ParseUint` and `ParseInt`, called at parser/parser.go:300, 429, 485, 490, 608. -/
def lowerByte (c : UInt8) : UInt8 := c ||| 0x20

/-- The digit value of a byte in `strconv.ParseUint`'s inner switch.
Part of `strconv.ParseUint` and `ParseInt`, called at parser/parser.go:300, 429, 485, 490, 608. -/
def digitVal (c : UInt8) : Option Nat :=
  if 48 ≤ c ∧ c ≤ 57 then some (c.toNat - 48)
  else if 97 ≤ lowerByte c ∧ lowerByte c ≤ 122 then some ((lowerByte c).toNat - 97 + 10)
  else none

/-- models Go's `strconv.underscoreOK` (called only when an underscore was seen); `saw` is
0 for beginning, 1 for digit, 2 for underscore, 3 for other.
Part of `strconv.ParseUint` and `ParseInt`, called at parser/parser.go:300, 429, 485, 490, 608. -/
def underscoreLoop (hex : Bool) : Nat → Bytes → Bool
  | saw, [] => saw ≠ 2
  | saw, c :: rest =>
    if (48 ≤ c && c ≤ 57) || (hex && 97 ≤ lowerByte c && lowerByte c ≤ 102) then
      underscoreLoop hex 1 rest
    else if c = 95 then if saw ≠ 1 then false else underscoreLoop hex 2 rest
    else if saw = 2 then false else underscoreLoop hex 3 rest

/-- models Go's `strconv.underscoreOK`.
Part of `strconv.ParseUint` and `ParseInt`, called at parser/parser.go:300, 429, 485, 490, 608. -/
def underscoreOK (s : Bytes) : Bool :=
  let s := match s with
    | c :: rest => if c = 45 ∨ c = 43 then rest else s
    | [] => s
  match s with
  | 48 :: c :: rest =>
    if lowerByte c = 98 ∨ lowerByte c = 111 ∨ lowerByte c = 120 then
      underscoreLoop (lowerByte c = 120) 1 rest
    else underscoreLoop false 0 s
  | _ => underscoreLoop false 0 s

/-- The accumulation loop of `strconv.ParseUint` with base 0 and 64 bits: `n` so far, whether
an underscore was seen. The two overflow tests of the Go code amount to `n * base + d`
not fitting in 64 bits.
Part of `strconv.ParseUint` and `ParseInt`, called at parser/parser.go:300, 429, 485, 490, 608. -/
def parseUintLoop (base : Nat) : Nat → Bool → Bytes → Except NumErr (Nat × Bool)
  | n, us, [] => .ok (n, us)
  | n, us, c :: rest =>
    if c = 95 then parseUintLoop base n true rest
    else match digitVal c with
      | none => .error .syntax
      | some d =>
        if base ≤ d then .error .syntax
        else if 2 ^ 64 ≤ n * base + d then .error .range
        else parseUintLoop base (n * base + d) us rest

/-- models Go's `strconv.ParseUint(s, 0, 64)` (called at parser/parser.go:300, 429, 485, 490). -/
def parseUint (s : Bytes) : Except NumErr Nat :=
  match s with
  | [] => .error .syntax
  | _ =>
    let (base, body) : Nat × Bytes :=
      match s with
      | 48 :: c :: d :: rest =>
        if lowerByte c = 98 then (2, d :: rest)
        else if lowerByte c = 111 then (8, d :: rest)
        else if lowerByte c = 120 then (16, d :: rest)
        else (8, c :: d :: rest)
      | 48 :: rest => (8, rest)
      | _ => (10, s)
    match parseUintLoop base 0 false body with
    | .error e => .error e
    | .ok (n, us) => if us && !underscoreOK s then .error .syntax else .ok n

/-- models Go's `strconv.ParseInt(s, 0, 64)` (called at parser/parser.go:608). -/
def parseInt (s : Bytes) : Except NumErr Int :=
  match s with
  | [] => .error .syntax
  | c :: rest =>
    let neg : Bool := c = 45
    let body := if c = 43 ∨ c = 45 then rest else s
    match parseUint body with
    | .error .syntax => .error .syntax
    | .error .range => .error .range
    | .ok un =>
      if !neg && 2 ^ 63 ≤ un then .error .range
      else if neg && 2 ^ 63 < un then .error .range
      else .ok (if neg then -(un : Int) else un)

/-- `mant` extended by a run of ASCII digits; `none` at any other byte.
Part of `strconv.ParseFloat`, called at parser/parser.go:278. -/
def decRun : Nat → Bytes → Option Nat
  | n, [] => some n
  | n, c :: rest => if 48 ≤ c ∧ c ≤ 57 then decRun (n * 10 + (c.toNat - 48)) rest else none

/-- Split at the first dot, if any. Part of `strconv.ParseFloat`, called at parser/parser.go:278. -/
def splitDot : Bytes → Bytes × Option Bytes
  | [] => ([], none)
  | c :: rest =>
    if c = 46 then ([], some rest)
    else ((c :: (splitDot rest).1), (splitDot rest).2)

/-- models Go's `strconv.ParseFloat(s, 64)` (called at parser/parser.go:278) on the strings the
lexer produces for FLOAT tokens: digits (possibly non-ASCII) and dots, starting with an ASCII
digit. At most one dot and only ASCII digits are accepted; the result overflows when it
rounds to infinity, i.e. from `2^1024 - 2^970` on. The value is kept exact. -/
def parseFloat (s : Bytes) : Except NumErr FloatVal :=
  let (ip, fp) := splitDot s
  let fp' := fp.getD []
  if ip = [] ∧ fp' = [] then .error .syntax
  else match decRun 0 (ip ++ fp') with
    | none => .error .syntax
    | some m =>
      if (2 ^ 1024 - 2 ^ 970) * 10 ^ fp'.length ≤ m then .error .range
      else .ok { mant := m, scale := fp'.length }

/-- models Go's `strings.Split(s, ".")` (parser/parser.go:480). -/
def splitDots : Bytes → List Bytes
  | [] => [[]]
  | c :: rest =>
    if c = 46 then [] :: splitDots rest
    else match splitDots rest with
      | [] => [[c]]
      | s :: ss => (c :: s) :: ss

end Cddlc
