import Verif.Props.Round

/-! How operators nest (C93). -/

namespace Cddlc
open Spec

variable [Unicode]

/-- Control operators and ranges, which by RFC 8610 (section 3.8 and appendix B, `type = type1 *("/" type1)`)
bind their operands before any choice does. -/
def Spec.Bin.inType1 (o : Bin) : Bool := o.isCmp || o.isRange || o ∈ [.size, .regexp, .bits]

omit [Unicode] in
/-- The token texts of `l o m / u` are the same however the operators nest. -/
theorem same_pieces (o : Bin) (l m u : Ty) :
    (Ty.bin o l (.bin .choice m u)).pieces = (Ty.bin .choice (.bin o l m) u).pieces := by
  simp [Ty.pieces]

/-- **C93** is false for all types and layouts: `l o m / u`, where `o` is a control or a range, is never
read as the choice between `l o m` and `u`. It is one alternative, whose right operand is the choice `m / u`. -/
theorem C93_refuted {s : Schema} (hs : s.WF) {src : Bytes} (hw : s.WrittenAs src) {i : Nat} {r : SRule}
    (hr : s.rules[i]? = some r) {o : Bin} (ho : o.inType1 = true) {l m u : Ty}
    (hbody : r.body = .bin o l (.bin .choice m u)) :
    ∃ N, ∀ n, N ≤ n → ∃ rules res x, parseSource n src = .ok res ∧ res.cddl = some rules ∧
      ruleValue rules i = some (enc r.name, x) ∧ alternatives x = [x] ∧
      noPos x = (Ty.bin o l (.bin .choice m u)).node true ∧ noPos x ≠ (Ty.bin .choice (.bin o l m) u).node true := by
  obtain ⟨N, h⟩ := C23_rule_read_back hs hw hr
  refine ⟨N, fun n hn => ?_⟩
  obtain ⟨rules, res, x, h1, h2, h3, h4⟩ := h n hn
  rw [hbody] at h4
  have hk : x.kind ≠ .typeChoice := by
    have : (noPos x).kind ≠ .typeChoice := by
      rw [h4, Ty.node]
      cases o <;> first | (cases ho; done) | simp [Bin.node, Node.kind]
    rwa [noPos_kind] at this
  refine ⟨rules, res, x, h1, h2, h3, alternatives_single hk, h4, fun he => hk ?_⟩
  rw [← noPos_kind, he]
  rfl

/-- **C93**, what holds: behind the last alternative a control or range applies to it alone: `t / ... / l o m`
is read as the choice between exactly these alternatives. (Missing: controls and ranges in the other
alternatives.) -/
theorem C93_last_partial {s : Schema} (hs : s.WF) {src : Bytes} (hw : s.WrittenAs src) {i : Nat} {r : SRule}
    (hr : s.rules[i]? = some r) {o : Bin} (ho : o.inType1 = true) {l m t : Ty} {us : List Ty}
    (hbody : r.body = .choices t (us ++ [.bin o l m])) :
    ∃ N, ∀ n, N ≤ n → ∃ rules res x, parseSource n src = .ok res ∧ res.cddl = some rules ∧
      ruleValue rules i = some (enc r.name, x) ∧
      (alternatives x).map noPos = (t :: us).map (·.node true) ++ [(Ty.bin o l m).node true] := by
  have h := C25_alternatives_in_order hs hw hr hbody fun u hu => by
    have : u = .bin o l m := by
      rw [List.getLast?_cons, List.getLast?_append] at hu
      simpa [eq_comm] using hu
    subst this
    rw [Ty.node]
    cases o <;> first | (cases ho; done) | simp [Bin.node, Node.kind]
  obtain ⟨N, h⟩ := h
  exact ⟨N, fun n hn => let ⟨rules, res, x, h1, h2, h3, h4⟩ := h n hn
    ⟨rules, res, x, h1, h2, h3, by rw [h4]; simp⟩⟩

omit [Unicode] in
/-- `tstr .size 3 / int`: there is no error, and the value is a size control. The parentheses of
`(tstr .size 3) / int` do not help, since the group loses its entry (C28). -/
example : letI := asciiOnly
    parses 60 b!"a = tstr .size 3 / int" (fun rs es => es.isEmpty &&
      rs.all fun | .rule _ _ (.size _ _ (.typeChoice _ _ (.intLit _ _ 3) (.intType ..)) (.tstr _)) _ => true | _ => false) = true ∧
    parses 60 b!"a = (tstr .size 3) / int" (fun rs es => es.isEmpty &&
      rs.all fun | .rule _ _ (.typeChoice _ _ (.group _ []) (.intType ..)) _ => true | _ => false) = true ∧
    parses 60 b!"a = int / tstr .size 3" (fun rs es => es.isEmpty &&
      rs.all fun | .rule _ _ (.typeChoice _ _ (.intType ..) (.size _ _ (.intLit _ _ 3) (.tstr _))) _ => true | _ => false) = true := by
  decide_cbv

omit [Unicode] in
/-- Such schemas exist. -/
example : (Ty.bin .size (.kw .TSTR) (.bin .choice (.int (.dec ['3'])) (.kw .INT))).WF ∧
    (Ty.choices (.kw .INT) ([] ++ [.bin .size (.kw .TSTR) (.int (.dec ['3']))])).WF := by
  simp only [Ty.WF, Bin.fits, Ty.atom, Int63, numeral, Ty.choices, List.nil_append]
  exact ⟨⟨by decide, by decide, ⟨by decide, ⟨3, by decide⟩, by decide, by decide⟩, by simp⟩,
    by decide, by decide, ⟨by decide, by decide, ⟨3, by decide⟩, by simp⟩, by decide⟩

end Cddlc
