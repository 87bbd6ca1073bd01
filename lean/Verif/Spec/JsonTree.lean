import Verif.Spec.Json
import Verif.Spec.Scans
import Verif.Model.Ast

/-! How a program can rebuild the syntax tree from what `cddlc parse` prints: only from the names of
members and the numbers of tokens, not from the order of members. -/

namespace Cddlc.Spec

/-- The value of the first member with a name. -/
def Json.get (j : Json) (k : String) : Option Json :=
  match j with
  | .obj ms => find ms
  | _ => none
where
  find : List Member → Option Json
    | [] => none
    | .mk n v :: ms => if n = k.toList then some v else find ms

/-- Is there a member with the name? -/
def Json.has (j : Json) (k : String) : Bool := (j.get k).isSome

/-- The number written with decimal digits. -/
def natOf (t : Bytes) : Nat := t.foldl (fun v c => v * 10 + (c.toNat - 48)) 0

/-- The number written with decimal digits and perhaps a sign. -/
def intOf : Bytes → Int
  | 45 :: t => - (natOf t : Int)
  | t => natOf t

def Json.asText : Json → Option Bytes
  | .str s => some (enc s)
  | _ => none

def Json.asInt : Json → Option Int
  | .num t => some (intOf t)
  | _ => none

def Json.asNum : Json → Option Bytes
  | .num t => some t
  | _ => none

def Json.asBool : Json → Option Bool
  | .bool b => some b
  | _ => none

/-- `null`, or what `f` reads. -/
def orNull {α : Type} (f : Json → Option α) : Json → Option (Option α)
  | .null => some none
  | j => (f j).map some

/-- All elements of an array. -/
def readAll {α : Type} (f : Json → Option α) : List Json → Option (List α)
  | [] => some []
  | x :: xs => do
    let y ← f x
    let ys ← readAll f xs
    some (y :: ys)

/-- The elements of an array; `null` is an empty one. -/
def readSlice {α : Type} (f : Json → Option α) : Json → Option (List α)
  | .null => some []
  | .arr xs => readAll f xs
  | _ => none

def readPos (j : Json) : Option Pos := do
  some ⟨← j.get "Offset" >>= Json.asInt, ← j.get "Line" >>= Json.asInt, ← j.get "Column" >>= Json.asInt,
    ← j.get "Filename" >>= Json.asText⟩

def readRange (j : Json) : Option PosRange := do
  some ⟨← j.get "Start" >>= readPos, ← j.get "End" >>= readPos⟩

def readTok (j : Json) : Option Tok := do
  let v ← j.asInt
  Tok.all.find? fun t => (t.val : Int) = v

def readIdent (j : Json) : Option Ident := do
  some ⟨← j.get "Pos" >>= readPos, ← j.get "Name" >>= Json.asText⟩

def readComment (j : Json) : Option Comment := do
  some ⟨← j.get "Pos" >>= readPos, ← j.get "Text" >>= Json.asText⟩

def readUint (j : Json) : Option UintLit := do
  some ⟨← j.get "Pos" >>= readPos, ← j.get "Token" >>= readTok, (← j.get "Literal" >>= Json.asInt).toNat⟩

def readTstr (j : Json) : Option Tstr := do
  some ⟨← j.get "Pos" >>= readPos, ← j.get "Token" >>= readTok⟩

/-- A node that has a token `t`. `kid` reads a node, `kids` a list of nodes. -/
def readTokNode (kid : String → Option Node) (kids : String → Option (List Node)) (j : Json) (pos : Pos)
    (t : Tok) : Option Node :=
  match t with
  | .ILLEGAL => if j.has "Rules" then do some (.map pos (← kids "Rules"))
      else do some (.range pos t (← kid "From") (← kid "To"))
  | .INCLUSIVE_BOUND | .EXCLUSIVE_BOUND => do some (.range pos t (← kid "From") (← kid "To"))
  | .BOOL => some (.boolType pos t)
  | .BSTR => some (.bstr pos t)
  | .BYTES => some (.bytes pos t)
  | .NULL | .NIL => some (.null pos t)
  | .NINT => some (.nintType pos t)
  | .TSTR | .TEXT => some (.tstr ⟨pos, t⟩)
  | .INT => if j.has "Literal" then do some (.intLit pos t (← j.get "Literal" >>= Json.asInt))
      else some (.intType pos t)
  | .FLOAT | .FLOAT16 | .FLOAT32 | .FLOAT64 => some (.floatType pos t)
  | .TEXT_LITERAL => do some (.textLit pos t (← j.get "Literal" >>= Json.asText))
  | .OPTIONAL => do some (.optional pos t (← kid "Item"))
  | .UNWRAP => do some (.unwrap pos t (← kid "Item"))
  | .AMPERSAND => do some (.enumeration pos t (← kid "Value"))
  | .HASH => do some (.tag pos t (← j.get "Major" >>= orNull readUint) (← j.get "TagNumber" >>= orNull readUint)
      (← kid "Item"))
  | .TYPE_CHOICE | .GROUP_CHOICE => do some (.typeChoice pos t (← kid "First") (← kid "Second"))
  | .SIZE => do some (.size pos t (← kid "Size") (← kid "Type"))
  | .REGEXP => do some (.regexp pos t (← j.get "Base" >>= readTstr) (← kid "Regex"))
  | .BITS => do some (.bits pos t (← kid "Base") (← kid "Contstraint"))
  | .LT | .LE | .GT | .GE | .EQ | .NE => do
    some (.comparator pos t (← j.get "Operator" >>= Json.asText) (.typedNil .intType) (← kid "Right"))
  | .ZERO_OR_MORE | .ONE_OR_MORE => do
    some (.nm pos t (← j.get "N" >>= orNull readUint) (← j.get "M" >>= orNull readUint) (← kid "Item"))
  | _ => none

/-- The node below a rule that a value shows; `float` reads floating point numbers, and the count bounds
the depth. -/
def readNode (float : Bytes → FloatVal) : Nat → Json → Option Node
  | 0, _ => none
  | _ + 1, .null => some .nil
  | n + 1, j =>
    let kid (k : String) := j.get k >>= readNode float n
    let kids (k : String) := j.get k >>= readSlice (readNode float n)
    if j.has "Range" then do
      let r ← j.get "Range" >>= readRange
      if j.has "Bool" then some (.boolLit r (← j.get "Bool" >>= Json.asBool))
      else
        let t ← j.get "Token" >>= readTok
        if j.has "Literal" then some (.floatLit r t (float (← j.get "Literal" >>= Json.asNum)))
        else some (.uintType r t)
    else do
      let pos ← j.get "Pos" >>= readPos
      if j.has "Token" then readTokNode kid kids j pos (← j.get "Token" >>= readTok)
      else if j.has "Entries" then some (.group pos (← kids "Entries"))
      else if j.has "Rules" then some (.array pos (← kids "Rules"))
      else
        let name ← j.get "Name"
        if j.has "Value" then
          some (.entry pos (← readIdent name) (← kid "Value") (← j.get "TrailingComment" >>= orNull readComment))
        else some (.ident ⟨pos, ← name.asText⟩)

/-- A rule or comment. -/
def readTop (float : Bytes → FloatVal) (n : Nat) (j : Json) : Option Node :=
  if j.has "List" then do some (.commentGroup (← j.get "List" >>= readSlice readComment))
  else if j.has "Text" then do some (.comment (← readComment j))
  else do
    some (.rule (← j.get "Pos" >>= readPos) (← j.get "Name" >>= readIdent) (← j.get "Value" >>= readNode float n)
      (← j.get "TrailingComment" >>= orNull readComment))

/-- The tree, or that there is none. -/
def readFile (float : Bytes → FloatVal) (n : Nat) : Json → Option (Option (List Node))
  | .null => some none
  | j => (j.get "Rules" >>= readSlice (readTop float n)).map some

mutual
/-- A tree with its floating point numbers replaced. -/
def floats (f : FloatVal → FloatVal) : Node → Node
  | .array p rs => .array p (floatsL f rs)
  | .badNode p t b e => .badNode p t (floats f b) e
  | .cddl p rs => .cddl p (floatsL f rs)
  | .bits p t a b => .bits p t (floats f a) (floats f b)
  | .comparator p t o a b => .comparator p t o (floats f a) (floats f b)
  | .regexp p t b r => .regexp p t b (floats f r)
  | .size p t s ty => .size p t (floats f s) (floats f ty)
  | .entry p n v c => .entry p n (floats f v) c
  | .enumeration p t v => .enumeration p t (floats f v)
  | .floatLit r t v => .floatLit r t (f v)
  | .group p es => .group p (floatsL f es)
  | .groupChoice p t a b => .groupChoice p t (floats f a) (floats f b)
  | .map p rs => .map p (floatsL f rs)
  | .optional p t i => .optional p t (floats f i)
  | .nm p t n m i => .nm p t n m (floats f i)
  | .range p t a b => .range p t (floats f a) (floats f b)
  | .rule p n v c => .rule p n (floats f v) c
  | .tag p t a b i => .tag p t a b (floats f i)
  | .typeChoice p t a b => .typeChoice p t (floats f a) (floats f b)
  | .unwrap p t i => .unwrap p t (floats f i)
  | x => x
/-- Trees with their floating point numbers replaced. -/
def floatsL (f : FloatVal → FloatVal) : List Node → List Node
  | [] => []
  | x :: xs => floats f x :: floatsL f xs
end

mutual
/-- How many nodes stand on the longest way down a tree. -/
def height : Node → Nat
  | .array _ rs | .cddl _ rs | .group _ rs | .map _ rs => heightL rs + 1
  | .badNode _ _ x _ | .regexp _ _ _ x | .entry _ _ x _ | .enumeration _ _ x | .optional _ _ x | .nm _ _ _ _ x
  | .rule _ _ x _ | .tag _ _ _ _ x | .unwrap _ _ x => height x + 1
  | .bits _ _ a b | .comparator _ _ _ a b | .size _ _ a b | .groupChoice _ _ a b | .range _ _ a b
  | .typeChoice _ _ a b => max (height a) (height b) + 1
  | .commentGroup _ => 2
  | _ => 1
/-- The height of the highest tree. -/
def heightL : List Node → Nat
  | [] => 0
  | x :: xs => max (height x) (heightL xs)
end

/-- The lexer finds no error in `src`: every string is terminated. -/
def NoLexErrors [Unicode] (src : Bytes) : Prop := ∀ ts l, Scans (Lexer.new src) ts l → l.errors = []

end Cddlc.Spec
