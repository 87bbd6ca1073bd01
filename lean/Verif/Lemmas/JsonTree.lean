import Verif.Spec.JsonTree
import Verif.Lemmas.JsonPrint

/-! Trees are read back from the values encoding/json is given. -/

namespace Cddlc
open Spec

/-! ### Parts -/

theorem ofNat_digit {n : Nat} (h : n < 10) : (UInt8.ofNat (48 + n)).toNat = 48 + n := by
  rw [UInt8.toNat_ofNat']; omega

theorem natOf_decNat (n : Nat) : natOf (decNat n) = n := by
  induction n using Nat.strongRecOn with
  | _ n ih =>
    by_cases h : n < 10
    · rw [decNat_small h]
      simp only [natOf, List.foldl_cons, List.foldl_nil, ofNat_digit h]
      omega
    · rw [decNat_step (by omega)]
      have := ih (n / 10) (by omega)
      unfold natOf at this ⊢
      rw [List.foldl_append, this]
      simp only [List.foldl_cons, List.foldl_nil, ofNat_digit (show n % 10 < 10 by omega)]
      omega

theorem intOf_decInt (v : Int) : intOf (decInt v) = v := by
  cases v with
  | ofNat n =>
    have hd : ∀ c ∈ (decNat n).head?, c ≠ 45 := by
      intro c hc
      have := (decNat_int n).1.1.2 c (List.mem_of_mem_head? hc)
      rintro rfl
      exact absurd this (by decide)
    simp only [decInt]
    unfold intOf
    split
    · rename_i t he
      rw [he] at hd
      exact (hd 45 (by simp) rfl).elim
    · rw [natOf_decNat]; rfl
  | negSucc n =>
    simp only [decInt, intOf, natOf_decNat]
    omega

theorem chars_enc (cs : List Char) : chars (enc cs) = cs := utf8Chars_enc cs _ (Nat.le_refl _)

/-- Valid UTF-8. -/
def Utf8 (s : Bytes) : Prop := ∃ cs, s = enc cs

theorem enc_chars {s : Bytes} (h : Utf8 s) : enc (chars s) = s := by
  obtain ⟨cs, rfl⟩ := h; rw [chars_enc]

theorem jget_eq (k : String) (v : Json) (ms) : Json.get (.obj (.mk k.toList v :: ms)) k = some v := by
  simp [Json.get, Json.get.find]

theorem jget_ne {k k' : String} (v : Json) (ms) (h : k' ≠ k) :
    Json.get (.obj (.mk k'.toList v :: ms)) k = Json.get (.obj ms) k := by
  have : k'.toList ≠ k.toList := fun e => h (String.toList_inj.mp e)
  simp [Json.get, Json.get.find, this]

theorem jget_nil (k : String) : Json.get (.obj []) k = none := rfl

theorem k_Filename : chars b!"Filename" = "Filename".toList := by decide +kernel
theorem k_Offset : chars b!"Offset" = "Offset".toList := by decide +kernel
theorem k_Line : chars b!"Line" = "Line".toList := by decide +kernel
theorem k_Column : chars b!"Column" = "Column".toList := by decide +kernel
theorem k_Start : chars b!"Start" = "Start".toList := by decide +kernel
theorem k_End : chars b!"End" = "End".toList := by decide +kernel
theorem k_Pos : chars b!"Pos" = "Pos".toList := by decide +kernel
theorem k_Name : chars b!"Name" = "Name".toList := by decide +kernel
theorem k_Text : chars b!"Text" = "Text".toList := by decide +kernel
theorem k_Token : chars b!"Token" = "Token".toList := by decide +kernel
theorem k_Literal : chars b!"Literal" = "Literal".toList := by decide +kernel
theorem k_Rules : chars b!"Rules" = "Rules".toList := by decide +kernel
theorem k_Base : chars b!"Base" = "Base".toList := by decide +kernel
theorem k_Range : chars b!"Range" = "Range".toList := by decide +kernel
theorem k_Bool : chars b!"Bool" = "Bool".toList := by decide +kernel
theorem k_List : chars b!"List" = "List".toList := by decide +kernel
theorem k_Contstraint : chars b!"Contstraint" = "Contstraint".toList := by decide +kernel
theorem k_Operator : chars b!"Operator" = "Operator".toList := by decide +kernel
theorem k_Left : chars b!"Left" = "Left".toList := by decide +kernel
theorem k_Right : chars b!"Right" = "Right".toList := by decide +kernel
theorem k_Regex : chars b!"Regex" = "Regex".toList := by decide +kernel
theorem k_Size : chars b!"Size" = "Size".toList := by decide +kernel
theorem k_Type : chars b!"Type" = "Type".toList := by decide +kernel
theorem k_Value : chars b!"Value" = "Value".toList := by decide +kernel
theorem k_TrailingComment : chars b!"TrailingComment" = "TrailingComment".toList := by decide +kernel
theorem k_Entries : chars b!"Entries" = "Entries".toList := by decide +kernel
theorem k_First : chars b!"First" = "First".toList := by decide +kernel
theorem k_Second : chars b!"Second" = "Second".toList := by decide +kernel
theorem k_Item : chars b!"Item" = "Item".toList := by decide +kernel
theorem k_N : chars b!"N" = "N".toList := by decide +kernel
theorem k_M : chars b!"M" = "M".toList := by decide +kernel
theorem k_From : chars b!"From" = "From".toList := by decide +kernel
theorem k_To : chars b!"To" = "To".toList := by decide +kernel
theorem k_Major : chars b!"Major" = "Major".toList := by decide +kernel
theorem k_TagNumber : chars b!"TagNumber" = "TagNumber".toList := by decide +kernel

/-- The simplifications that compute readers on values. -/
macro "read_simp" "[" ls:Lean.Parser.Tactic.simpLemma,* "]" : tactic =>
  `(tactic| simp [-Char.reduceToNat, -String.reduceToList, JVal.toJson, toMembers, toJsons, Json.has, jget_eq, jget_ne, jget_nil, k_Filename, k_Offset, k_Line, k_Column,
    k_Start, k_End, k_Pos, k_Name, k_Text, k_Token, k_Literal, k_Rules, k_Base, k_Range, k_Bool, k_List, k_Contstraint,
    k_Operator, k_Left, k_Right, k_Regex, k_Size, k_Type, k_Value, k_TrailingComment, k_Entries, k_First, k_Second,
    k_Item, k_N, k_M, k_From, k_To, k_Major, k_TagNumber, Json.asInt, Json.asText, Json.asBool, Json.asNum,
    intOf_decInt, JVal.int, $ls,*])

theorem readPos_json {p : Pos} (h : p.file = []) : readPos p.json.toJson = some p := by
  cases p
  cases h
  read_simp [readPos, Pos.json]
  decide

theorem readRange_json {r : PosRange} (h : r.start.file = []) (h' : r.stop.file = []) :
    readRange r.json.toJson = some r := by
  read_simp [readRange, PosRange.json, readPos_json, h, h']

theorem tok_find : ∀ t ∈ Tok.all, (Tok.all.find? fun t' => decide ((t'.val : Int) = (t.val : Int))) = some t := by
  decide +kernel

theorem tok_all (t : Tok) : t ∈ Tok.all := by cases t <;> decide

theorem readTok_json (t : Tok) : readTok t.json.toJson = some t := by
  simp only [readTok, Tok.json, JVal.int, JVal.toJson, Json.asInt, intOf_decInt, Option.bind_eq_bind, Option.bind_some]
  exact tok_find t (tok_all t)

/-- An identifier whose parts can be read back. -/
def OkIdent (i : Ident) : Prop := i.pos.file = [] ∧ Utf8 i.name
def OkComment (c : Comment) : Prop := c.pos.file = [] ∧ Utf8 c.text

theorem readIdent_json {i : Ident} (h : OkIdent i) : readIdent i.json.toJson = some i := by
  read_simp [readIdent, Ident.json, readPos_json h.1, enc_chars h.2]

theorem readComment_json {c : Comment} (h : OkComment c) : readComment c.json.toJson = some c := by
  read_simp [readComment, Comment.json, readPos_json h.1, enc_chars h.2]

theorem readUint_json {u : UintLit} (h : u.pos.file = []) : readUint u.json.toJson = some u := by
  read_simp [readUint, UintLit.json, readPos_json h, readTok_json]

theorem readTstr_json {t : Tstr} (h : t.pos.file = []) : readTstr t.json.toJson = some t := by
  read_simp [readTstr, Tstr.json, readPos_json h, readTok_json]

theorem orNull_comment {c : Option Comment} (h : ∀ x ∈ c, OkComment x) :
    orNull readComment (commentJson c).toJson = some c := by
  cases c with
  | none => rfl
  | some c =>
    have := readComment_json (h c rfl)
    simp only [commentJson, Comment.json, JVal.toJson, toMembers, orNull] at this ⊢
    rw [this]; rfl

theorem orNull_uint {u : Option UintLit} (h : ∀ x ∈ u, x.pos.file = []) :
    orNull readUint (uintJson u).toJson = some u := by
  cases u with
  | none => rfl
  | some u =>
    have := readUint_json (h u rfl)
    simp only [uintJson, UintLit.json, JVal.toJson, toMembers, orNull] at this ⊢
    rw [this]; rfl

theorem readSlice_json {α : Type} {f : Json → Option α} {xs : List JVal} {ys : List α}
    (h : readAll f (toJsons xs) = some ys) : readSlice f (sliceJson xs).toJson = some ys := by
  cases xs with
  | nil => exact h
  | cons x xs => exact h

/-! ### Nodes -/

mutual
/-- A tree that can be read back. -/
def Fit : Node → Prop
  | .nil => True
  | .array p es => p.file = [] ∧ FitL es
  | .boolType p t => p.file = [] ∧ t = .BOOL
  | .boolLit r _ => r.start.file = [] ∧ r.stop.file = []
  | .bstr p t => p.file = [] ∧ t = .BSTR
  | .bytes p t => p.file = [] ∧ t = .BYTES
  | .bits p t a b => p.file = [] ∧ t = .BITS ∧ Fit a ∧ Fit b
  | .comparator p t o a b => p.file = [] ∧ t ∈ [Tok.LT, .LE, .GT, .GE, .EQ, .NE] ∧ Utf8 o ∧
      a = .typedNil .intType ∧ Fit b
  | .regexp p t b r => p.file = [] ∧ t = .REGEXP ∧ b.pos.file = [] ∧ Fit r
  | .size p t s ty => p.file = [] ∧ t = .SIZE ∧ Fit s ∧ Fit ty
  | .entry p n v c => p.file = [] ∧ OkIdent n ∧ (∀ x ∈ c, OkComment x) ∧ Fit v
  | .enumeration p t v => p.file = [] ∧ t = .AMPERSAND ∧ Fit v
  | .floatType p t => p.file = [] ∧ t ∈ [Tok.FLOAT, .FLOAT16, .FLOAT32, .FLOAT64]
  | .floatLit r _ _ => r.start.file = [] ∧ r.stop.file = []
  | .group p es => p.file = [] ∧ FitL es
  | .ident i => OkIdent i
  | .intType p t => p.file = [] ∧ t = .INT
  | .nintType p t => p.file = [] ∧ t = .NINT
  | .intLit p t _ => p.file = [] ∧ t = .INT
  | .map p es => p.file = [] ∧ FitL es
  | .null p t => p.file = [] ∧ (t = .NULL ∨ t = .NIL)
  | .optional p t i => p.file = [] ∧ t = .OPTIONAL ∧ Fit i
  | .nm p t n m i => p.file = [] ∧ (t = .ZERO_OR_MORE ∨ t = .ONE_OR_MORE) ∧ (∀ x ∈ n, x.pos.file = []) ∧
      (∀ x ∈ m, x.pos.file = []) ∧ Fit i
  | .range p t a b => p.file = [] ∧ (t = .ILLEGAL ∨ t = .INCLUSIVE_BOUND ∨ t = .EXCLUSIVE_BOUND) ∧ Fit a ∧ Fit b
  | .tag p t a b i => p.file = [] ∧ t = .HASH ∧ (∀ x ∈ a, x.pos.file = []) ∧ (∀ x ∈ b, x.pos.file = []) ∧ Fit i
  | .textLit p t l => p.file = [] ∧ t = .TEXT_LITERAL ∧ Utf8 l
  | .tstr t => t.pos.file = [] ∧ (t.tok = .TSTR ∨ t.tok = .TEXT)
  | .typeChoice p t a b => p.file = [] ∧ (t = .TYPE_CHOICE ∨ t = .GROUP_CHOICE) ∧ Fit a ∧ Fit b
  | .uintType r _ => r.start.file = [] ∧ r.stop.file = []
  | .unwrap p t i => p.file = [] ∧ t = .UNWRAP ∧ Fit i
  | _ => False
/-- Trees that can be read back. -/
def FitL : List Node → Prop
  | [] => True
  | x :: xs => Fit x ∧ FitL xs
end

section
variable {float : FloatVal → Bytes} {unfloat : Bytes → FloatVal} {rep : FloatVal → FloatVal}
variable (hf : ∀ v, unfloat (float v) = rep v)
include hf

mutual
theorem readNode_json : ∀ (x : Node) (n : Nat), sizeOf x < n → Fit x →
    readNode unfloat n (x.json float).toJson = some (floats rep x)
  | x, 0, hn, _ => by omega
  | .nil, n + 1, _, _ => rfl
  | .array p es, n + 1, hn, h => by
    have := readNodes_json es n (by simp at hn; omega) h.2
    read_simp [Node.json, readNode, readPos_json h.1, readSlice_json this, floats]
  | .boolType p t, n + 1, hn, h => by
    obtain ⟨h1, rfl⟩ := h
    read_simp [Node.json, readNode, readPos_json h1, readTok_json, readTokNode, floats]
  | .boolLit r b, n + 1, hn, h => by
    read_simp [Node.json, readNode, readRange_json h.1 h.2, floats]
  | .bstr p t, n + 1, hn, h => by
    obtain ⟨h1, rfl⟩ := h
    read_simp [Node.json, readNode, readPos_json h1, readTok_json, readTokNode, floats]
  | .bytes p t, n + 1, hn, h => by
    obtain ⟨h1, rfl⟩ := h
    read_simp [Node.json, readNode, readPos_json h1, readTok_json, readTokNode, floats]
  | .bits p t a b, n + 1, hn, h => by
    obtain ⟨h1, rfl, h2, h3⟩ := h
    have ha := readNode_json a n (by simp at hn; omega) h2
    have hb := readNode_json b n (by simp at hn; omega) h3
    read_simp [Node.json, readNode, readPos_json h1, readTok_json, readTokNode, floats, ha, hb]
  | .comparator p t o a b, n + 1, hn, h => by
    obtain ⟨h1, ht, h2, rfl, h3⟩ := h
    have hb := readNode_json b n (by simp at hn; omega) h3
    simp only [List.mem_cons, List.not_mem_nil, or_false] at ht
    rcases ht with rfl | rfl | rfl | rfl | rfl | rfl <;>
    read_simp [Node.json, readNode, readPos_json h1, readTok_json, readTokNode, floats, hb, enc_chars h2]
  | .regexp p t b r, n + 1, hn, h => by
    obtain ⟨h1, rfl, h2, h3⟩ := h
    have hb := readNode_json r n (by simp at hn; omega) h3
    read_simp [Node.json, readNode, readPos_json h1, readTok_json, readTokNode, floats, hb, readTstr_json h2]
  | .size p t s ty, n + 1, hn, h => by
    obtain ⟨h1, rfl, h2, h3⟩ := h
    have ha := readNode_json s n (by simp at hn; omega) h2
    have hb := readNode_json ty n (by simp at hn; omega) h3
    read_simp [Node.json, readNode, readPos_json h1, readTok_json, readTokNode, floats, ha, hb]
  | .entry p nm v c, n + 1, hn, h => by
    obtain ⟨h1, h2, h3, h4⟩ := h
    have hb := readNode_json v n (by simp at hn; omega) h4
    read_simp [Node.json, readNode, readPos_json h1, floats, hb, readIdent_json h2, orNull_comment h3]
  | .enumeration p t v, n + 1, hn, h => by
    obtain ⟨h1, rfl, h2⟩ := h
    have ha := readNode_json v n (by simp at hn; omega) h2
    read_simp [Node.json, readNode, readPos_json h1, readTok_json, readTokNode, floats, ha]
  | .floatType p t, n + 1, hn, h => by
    obtain ⟨h1, ht⟩ := h
    simp only [List.mem_cons, List.not_mem_nil, or_false] at ht
    rcases ht with rfl | rfl | rfl | rfl <;>
    read_simp [Node.json, readNode, readPos_json h1, readTok_json, readTokNode, floats]
  | .floatLit r t v, n + 1, hn, h => by
    read_simp [Node.json, readNode, readRange_json h.1 h.2, readTok_json, floats, hf]
  | .group p es, n + 1, hn, h => by
    have := readNodes_json es n (by simp at hn; omega) h.2
    read_simp [Node.json, readNode, readPos_json h.1, readSlice_json this, floats]
  | .ident i, n + 1, hn, h => by
    read_simp [Node.json, Ident.json, readNode, readPos_json h.1, floats, enc_chars h.2]
  | .intType p t, n + 1, hn, h => by
    obtain ⟨h1, rfl⟩ := h
    read_simp [Node.json, readNode, readPos_json h1, readTok_json, readTokNode, floats]
  | .nintType p t, n + 1, hn, h => by
    obtain ⟨h1, rfl⟩ := h
    read_simp [Node.json, readNode, readPos_json h1, readTok_json, readTokNode, floats]
  | .intLit p t v, n + 1, hn, h => by
    obtain ⟨h1, rfl⟩ := h
    read_simp [Node.json, readNode, readPos_json h1, readTok_json, readTokNode, floats]
  | .map p es, n + 1, hn, h => by
    have := readNodes_json es n (by simp at hn; omega) h.2
    read_simp [Node.json, readNode, readPos_json h.1, readTok_json, readTokNode, readSlice_json this, floats]
  | .null p t, n + 1, hn, h => by
    obtain ⟨h1, rfl | rfl⟩ := h <;>
    read_simp [Node.json, readNode, readPos_json h1, readTok_json, readTokNode, floats]
  | .optional p t i, n + 1, hn, h => by
    obtain ⟨h1, rfl, h2⟩ := h
    have ha := readNode_json i n (by simp at hn; omega) h2
    read_simp [Node.json, readNode, readPos_json h1, readTok_json, readTokNode, floats, ha]
  | .nm p t a b i, n + 1, hn, h => by
    obtain ⟨h1, ht, h2, h3, h4⟩ := h
    have ha := readNode_json i n (by simp at hn; omega) h4
    rcases ht with rfl | rfl <;>
    read_simp [Node.json, readNode, readPos_json h1, readTok_json, readTokNode, floats, ha, orNull_uint h2, orNull_uint h3]
  | .range p t a b, n + 1, hn, h => by
    obtain ⟨h1, ht, h2, h3⟩ := h
    have ha := readNode_json a n (by simp at hn; omega) h2
    have hb := readNode_json b n (by simp at hn; omega) h3
    rcases ht with rfl | rfl | rfl <;>
    read_simp [Node.json, readNode, readPos_json h1, readTok_json, readTokNode, floats, ha, hb]
  | .tag p t a b i, n + 1, hn, h => by
    obtain ⟨h1, rfl, h2, h3, h4⟩ := h
    have ha := readNode_json i n (by simp at hn; omega) h4
    read_simp [Node.json, readNode, readPos_json h1, readTok_json, readTokNode, floats, ha, orNull_uint h2, orNull_uint h3]
  | .textLit p t l, n + 1, hn, h => by
    obtain ⟨h1, rfl, h2⟩ := h
    read_simp [Node.json, readNode, readPos_json h1, readTok_json, readTokNode, floats, enc_chars h2]
  | .tstr ⟨p, t⟩, n + 1, hn, h => by
    obtain ⟨h1, ht⟩ := h
    rcases ht with rfl | rfl <;>
    read_simp [Node.json, Tstr.json, readNode, readPos_json h1, readTok_json, readTokNode, floats]
  | .typeChoice p t a b, n + 1, hn, h => by
    obtain ⟨h1, ht, h2, h3⟩ := h
    have ha := readNode_json a n (by simp at hn; omega) h2
    have hb := readNode_json b n (by simp at hn; omega) h3
    rcases ht with rfl | rfl <;>
    read_simp [Node.json, readNode, readPos_json h1, readTok_json, readTokNode, floats, ha, hb]
  | .uintType r t, n + 1, hn, h => by
    read_simp [Node.json, readNode, readRange_json h.1 h.2, readTok_json, floats]
  | .unwrap p t i, n + 1, hn, h => by
    obtain ⟨h1, rfl, h2⟩ := h
    have ha := readNode_json i n (by simp at hn; omega) h2
    read_simp [Node.json, readNode, readPos_json h1, readTok_json, readTokNode, floats, ha]
  | .typedNil _, n + 1, _, h | .badNode .., n + 1, _, h | .cddl .., n + 1, _, h | .comment _, n + 1, _, h
  | .commentGroup _, n + 1, _, h | .groupChoice .., n + 1, _, h | .rule .., n + 1, _, h | .uintLit _, n + 1, _, h => h.elim
theorem readNodes_json : ∀ (xs : List Node) (n : Nat), sizeOf xs < n → FitL xs →
    readAll (readNode unfloat n) (toJsons (nodesJson float xs)) = some (floatsL rep xs)
  | [], _, _, _ => rfl
  | x :: xs, n, hn, h => by
    have h1 := readNode_json x n (by simp at hn; omega) h.1
    have h2 := readNodes_json xs n (by simp at hn; omega) h.2
    simp [nodesJson, toJsons, readAll, floatsL, h1, h2]
end
end

end Cddlc
