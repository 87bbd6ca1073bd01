import Verif.Model.Codegen
import Verif.Spec.Source
import Verif.Spec.Tree

/-! What generated Go code should look like, independently of the generator: Go identifiers, how a
name is translated, which Go type stands for a CDDL type, and the meaning of a method body. -/

namespace Cddlc.Spec
variable [Unicode]

/-! ### Names -/

/-- A letter of the Go specification: a Unicode letter or an underscore. -/
def goLetter (c : Char) : Prop := c = '_' ∨ uniIsLetter (c.toNat : Int) = true

/-- An identifier of the Go specification: a letter, then letters and digits; not a keyword. -/
def GoIdent (name : Bytes) : Prop :=
  name ∉ goKeywords ∧ ∃ c cs, name = enc (c :: cs) ∧ goLetter c ∧
    ∀ d ∈ cs, goLetter d ∨ uniIsDigit (d.toNat : Int) = true

omit [Unicode] in
/-- A byte that may stand in a Go identifier: an ASCII letter, digit or underscore. -/
def wordByte (c : UInt8) : Bool :=
  (65 ≤ c && c ≤ 90) || (97 ≤ c && c ≤ 122) || c = 95 || (48 ≤ c && c ≤ 57)

/-- U+FFFD, what Go reads for broken UTF-8, is neither a letter nor a digit. -/
def NoReplacement : Prop := Unicode.letterHi 0xFFFD = false ∧ Unicode.digitHi 0xFFFD = false

/-- The name with the dollars in front removed. -/
inductive Undollared : Bytes → Bytes → Prop
  | more {a b : Bytes} : Undollared a b → Undollared (36 :: a) b
  | done {a : Bytes} : a.head? ≠ some 36 → Undollared a a

/-- What a name looks like before it is made an identifier: sockets and plugs (names beginning with
a dollar) lose their dollars, other names are put in camel case. -/
def Formatted (lib : GoLib) (i : Ident) (f : Bytes) : Prop :=
  if i.name.head? = some 36 then Undollared i.name f else f = lib.toCamel i.name

/-- The Go name of a CDDL name. -/
inductive Named (lib : GoLib) (i : Ident) : Bytes → Prop
  | asIs {f : Bytes} : Formatted lib i f → GoIdent f → Named lib i f
  | key {f : Bytes} {v : Int} : Formatted lib i f → ¬ GoIdent f → parseInt f = .ok v →
      Named lib i (b!"IntKey_" ++ f)

/-! ### Types and values -/

mutual
/-- The Go expression of a CDDL type or value, for those that have one. -/
inductive Denotes (lib : GoLib) : Node → GoExpr → Prop
  | bool {n : Node} : n.kind = .boolType → Denotes lib n (.ident b!"bool")
  | tstr {n : Node} : n.kind = .tstr → Denotes lib n (.ident b!"string")
  | bytes {n : Node} : n.kind = .bytes → Denotes lib n (.array (.ident b!"byte"))
  | null {n : Node} : n.kind = .null → Denotes lib n (.ident b!"nil")
  | int {n : Node} : n.kind = .intType → Denotes lib n (.ident b!"int")
  | uint {n : Node} : n.kind = .uintType → Denotes lib n (.ident b!"uint")
  | intLit {p t v} : Denotes lib (.intLit p t v) (.basic .int (decInt v))
  | true {p} : Denotes lib (.boolLit p true) (.ident b!"true")
  | false {p} : Denotes lib (.boolLit p false) (.ident b!"false")
  | textLit {p t s} : Denotes lib (.textLit p t s) (.basic .string s)
  | floatLit {p t v} : Denotes lib (.floatLit p t v) (.basic .float (lib.float v))
  | ident {i n} : Named lib i n → Denotes lib (.ident i) (.ident n)
  | nm {p t a b i e} : Denotes lib i e → Denotes lib (.nm p t a b i) (.array e)
  | size {p t q u v ty e} : ty.kind ∈ [NodeKind.uintType, .bytes, .tstr] → Denotes lib ty e →
      Denotes lib (.size p t (.intLit q u v) ty) e
  | group {p es fs} : DenotesFields lib es fs → Denotes lib (.group p es) (.struct fs)
  | array {p es fs} : DenotesFields lib es fs →
      Denotes lib (.array p es) (.struct (.mk [b!"_"] (.struct []) (some b!"`cbor:\",toarray\"`") :: fs))
/-- The fields of the entries of a group or array, one for each, in order. -/
inductive DenotesFields (lib : GoLib) : List Node → List GoField → Prop
  | nil : DenotesFields lib [] []
  | cons {e f es fs} : DenotesField lib e f → DenotesFields lib es fs →
      DenotesFields lib (e :: es) (f :: fs)
/-- The field of an entry. -/
inductive DenotesField (lib : GoLib) : Node → GoField → Prop
  | entry {p i v c n e} : Named lib i n → Denotes lib v e →
      DenotesField lib (.entry p i v c) (.mk [n] e none)
  | optional {q t p i v c n e} : Named lib i n → Denotes lib v e →
      DenotesField lib (.optional q t (.entry p i v c)) (.mk [n] e (some b!"`cbor:\",omitempty\"`"))
  | ident {i n} : Named lib i n → DenotesField lib (.ident i) (.mk [] (.ident n) none)
  | nm {p t a b i e} : Denotes lib i e → DenotesField lib (.nm p t a b i) (.mk [] (.array e) none)
end

omit [Unicode] in
/-- What the field of an entry of a group or array is for: the value behind its key, or the entry
itself if it has no key. -/
def fieldOf : Node → Node
  | .entry _ _ v _ => v
  | .optional _ _ (.entry _ _ v _) => v
  | x => x

omit [Unicode] in
/-- The key of an entry, if it has one. -/
def keyOf : Node → Option Ident
  | .entry _ i _ _ => some i
  | .optional _ _ (.entry _ i _ _) => some i
  | _ => none

omit [Unicode] in
/-- `Within v e w f`: taking apart the tree `v` and the expression `e` in step, the `k`-th entry of a
group with the `k`-th field of a struct (the one after it in an array) and a repeated type with the
elements of a slice, one gets to `w` and `f`. -/
inductive Within : Node → GoExpr → Node → GoExpr → Prop
  | here {v e} : Within v e v e
  | group {p es} {fs : List GoField} {k : Nat} {x ns t tag w f} : es[k]? = some x → fs[k]? = some (.mk ns t tag) →
      Within (fieldOf x) t w f → Within (.group p es) (.struct fs) w f
  | array {p es} {fs : List GoField} {k : Nat} {x ns t tag w f} : es[k]? = some x → fs[k + 1]? = some (.mk ns t tag) →
      Within (fieldOf x) t w f → Within (.array p es) (.struct fs) w f
  | nm {p t a b i e w f} : Within i e w f → Within (.nm p t a b i) (.array e) w f

/-- The fields follow the entries: one for each, in order, with the Go name of the key if there is
one and without a name otherwise, and with a tag, which says `omitempty`, exactly if the entry is
optional. -/
def Follow (lib : GoLib) (es : List Node) (fs : List GoField) : Prop :=
  fs.length = es.length ∧ ∀ (k : Nat) (x : Node), es[k]? = some x → ∃ ns t tag, fs[k]? = some (.mk ns t tag) ∧
    (∀ i, keyOf x = some i → ∃ m, Named lib i m ∧ ns = [m]) ∧ (keyOf x = none → ns = []) ∧
    (x.kind = .optional → tag = some b!"`cbor:\",omitempty\"`") ∧ (x.kind ≠ .optional → tag = none)

omit [Unicode] in
/-- The values that become variables. -/
def IsLiteral (n : Node) : Prop :=
  n.kind ∈ [NodeKind.boolLit, .floatLit, .intLit, .textLit, .uintLit]

omit [Unicode] in
/-- The checks written next to a type: a size with a literal. -/
def checks : Node → List GoCall
  | .size _ _ (.intLit _ _ v) _ => [⟨b!"validators", b!"CheckSize", [b!"self", decInt v]⟩]
  | _ => []

omit [Unicode] in
/-- The kinds of nodes there is a Go expression or a struct field for. -/
def hasGo (k : NodeKind) : Prop :=
  k ∈ [NodeKind.boolType, .tstr, .bytes, .null, .intType, .uintType, .intLit, .boolLit, .textLit, .floatLit,
    .ident, .nm, .size, .group, .array, .entry, .optional]

omit [Unicode] in
/-- The value of a rule. -/
def valueOf : Node → Option Node
  | .rule _ _ v _ => some v
  | _ => none

omit [Unicode] in
/-- The number of size controls in a tree. -/
def sizeControls (n : Node) : Nat := ((subs n).filter fun x => x.kind = .size).length

/-! ### Declarations -/

omit [Unicode] in
/-- The name a declaration declares at the top level of the package, and whether it is a type. -/
def declared : GoDecl → Option (Bytes × Bool)
  | .var _ n _ => some (n, false)
  | .type _ n _ => some (n, true)
  | _ => none

/-- The two declarations of a rule: a variable or a type with its name and expression, and the
method `Valid` on that name, without parameters, which returns an error: it makes the checks written
next to the value and returns nil. -/
inductive RuleDecls (lib : GoLib) (name : Ident) (value : Node) : GoDecl → GoDecl → Prop
  | mk {d doc doc' n e} :
      Named lib name n → Denotes lib value e →
      (d = .var doc n e ∧ IsLiteral value ∨ d = .type doc n e ∧ ¬ IsLiteral value) →
      RuleDecls lib name value d (.method doc' (lib.toLower name.name) n b!"Valid" [b!"error"]
        ((checks value).map .expr ++ [.ret [b!"nil"]]))

/-- A list of top-level nodes of a file, as the Go type of `CDDL.Rules` allows (ast/comment.go:21, 54,
rule.go:23); nil pointers are excluded. -/
def TopLevel (rules : List Node) : Prop :=
  ∀ r ∈ rules, r.kind ≠ .cddl ∧ r ≠ .typedNil .rule

/-- The declarations of the rules of a file, in order; anything else, such as a comment, has
none. -/
inductive FileDecls (lib : GoLib) : List Node → List GoDecl → Prop
  | nil : FileDecls lib [] []
  | rule {p i v c rest a b ds} : RuleDecls lib i v a b → FileDecls lib rest ds →
      FileDecls lib (.rule p i v c :: rest) (a :: b :: ds)
  | skip {n rest ds} : n.kind ≠ .rule → FileDecls lib rest ds → FileDecls lib (n :: rest) ds

/-! ### Go types -/

mutual
/-- The identifiers in an expression, except for the names of fields. -/
def uses : GoExpr → List Bytes
  | .ident n => [n]
  | .basic .. => []
  | .array e => uses e
  | .struct fs => usesFields fs
/-- The identifiers in the types of fields. -/
def usesFields : List GoField → List Bytes
  | [] => []
  | .mk _ t _ :: rest => uses t ++ usesFields rest
end

omit [Unicode] in
/-- The identifiers a declaration uses for its value or type; the receiver of a method is its
type. -/
def declUses : GoDecl → List Bytes
  | .var _ _ e => uses e
  | .type _ _ e => uses e
  | .method _ _ t _ rs _ => t :: rs
  | .imports _ => []

/-- The predeclared identifiers of Go that stand for types, and those of constants and nil, among
the ones the generator writes. -/
def goTypes : List Bytes := [b!"bool", b!"string", b!"byte", b!"int", b!"uint", b!"error"]
@[inherit_doc goTypes] def goConsts : List Bytes := [b!"nil", b!"true", b!"false"]

mutual
/-- The syntax of Go types: an identifier that is not one of the constants, a slice of a type, or a
struct of fields. -/
inductive IsType : GoExpr → Prop
  | ident {n} : n ∉ goConsts → IsType (.ident n)
  | array {e} : IsType e → IsType (.array e)
  | struct {fs} : AreFields fs → IsType (.struct fs)
/-- Fields of a struct: names with a type, or an embedded field, which must be a type name. -/
inductive AreFields : List GoField → Prop
  | nil : AreFields []
  | named {n ns e t fs} : IsType e → AreFields fs → AreFields (.mk (n :: ns) e t :: fs)
  | embedded {n t fs} : n ∉ goConsts → AreFields fs → AreFields (.mk [] (.ident n) t :: fs)
end

mutual
/-- The tree has no null and no literal where a type is needed, and no occurrence directly in a
group or array. -/
def typeLike : Node → Bool
  | .nm _ _ _ _ i => typeLike i
  | .size _ _ _ ty => typeLike ty
  | .group _ es => typesLike es
  | .array _ es => typesLike es
  | .entry _ _ v _ => typeLike v
  | .optional _ _ i => typeLike i
  | .null .. | .typedNil .null | .intLit .. | .boolLit .. | .textLit .. | .floatLit .. => false
  | _ => true
@[inherit_doc typeLike] def typesLike : List Node → Bool
  | [] => true
  | .nm .. :: _ => false
  | e :: es => typeLike e && typesLike es
end

/-! ### String literals -/

omit [Unicode] in
/-- The value of a digit in base 16. -/
def hexVal (c : UInt8) : Option Nat :=
  if 48 ≤ c ∧ c ≤ 57 then some (c.toNat - 48)
  else if 97 ≤ c ∧ c ≤ 102 then some (c.toNat - 87)
  else if 65 ≤ c ∧ c ≤ 70 then some (c.toNat - 55)
  else none

omit [Unicode] in
/-- The number written by digits in the base given. -/
def digitsNum (base : Nat) : List UInt8 → Option Nat
  | [] => some 0
  | c :: cs => do
    let d ← hexVal c
    let r ← digitsNum base cs
    if d < base then some (d * base ^ cs.length + r) else none

omit [Unicode] in
/-- The letters after a backslash and the bytes they mean in Go. -/
def goEscapes : List (UInt8 × UInt8) :=
  [(97, 7), (98, 8), (102, 12), (110, 10), (114, 13), (116, 9), (118, 11), (92, 92), (34, 34)]

omit [Unicode] in
/-- What stands between the quotes of an interpreted string literal of Go, and the text it means. -/
inductive GoText : Bytes → Bytes → Prop
  | nil : GoText [] []
  | plain {c b t} : c ∉ [10, 34, 92] → GoText b t → GoText (c :: b) (c :: t)
  | escape {c d b t} : (c, d) ∈ goEscapes → GoText b t → GoText (92 :: c :: b) (d :: t)
  | octal {x y z v b t} : digitsNum 8 [x, y, z] = some v → v < 256 → GoText b t →
      GoText (92 :: x :: y :: z :: b) (UInt8.ofNat v :: t)
  | hex {x y v b t} : digitsNum 16 [x, y] = some v → GoText b t →
      GoText (92 :: 120 :: x :: y :: b) (UInt8.ofNat v :: t)
  | u4 {ds c b t} : ds.length = 4 → digitsNum 16 ds = some c.toNat → GoText b t →
      GoText (92 :: 117 :: (ds ++ b)) (enc [c] ++ t)
  | u8 {ds c b t} : ds.length = 8 → digitsNum 16 ds = some c.toNat → GoText b t →
      GoText (92 :: 85 :: (ds ++ b)) (enc [c] ++ t)

omit [Unicode] in
/-- `lit` is a string literal of Go that means `text`. -/
inductive GoString : Bytes → Bytes → Prop
  | raw {t} : (96 : UInt8) ∉ t → (13 : UInt8) ∉ t → GoString (96 :: (t ++ [96])) t
  | interpreted {b t} : GoText b t → GoString (34 :: (b ++ [34])) t

/-! ### Method bodies -/

omit [Unicode] in
/-- The result of a statement list, where `call` says what the calls do: `some` the identifiers
returned, `none` if it runs to the end without returning. The value of a call in an expression
statement is not used. -/
def runBody {R : Type} (call : GoCall → Out R) : List GoStmt → Out (Option (List Bytes))
  | [] => .ok none
  | .expr c :: rest => (call c).bind fun _ => runBody call rest
  | .ret rs :: _ => .ok (some rs)

end Cddlc.Spec
