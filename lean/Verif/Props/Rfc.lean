import Verif.Lemmas.RfcFile
import Verif.Props.Redeclare

/-! C115: the CDDL of RFC 8610 and what the parser accepts. -/

namespace Cddlc
open Spec PState
variable [Unicode]

/-- A source is accepted. -/
def Accepted (src : Bytes) : Prop := ∃ n res rules, parseSource n src = .ok res ∧ res.cddl = some rules ∧ res.errs = []

/-- The tokens of the source are a file of the RFC (or of its part that the parser can read), which declares each name once
and no other names are used. -/
def RfcSource (strict : Bool) (src : Bytes) : Prop :=
  ∃ ts eof L rs, Scans (Lexer.new src) (ts ++ [eof]) L ∧ eof.tok = .EOF ∧ (∀ t ∈ ts, t.tok ≠ .EOF) ∧ RfcFile strict ts rs ∧
    (rs.map (·.2)).Nodup ∧ ∀ k, Uses (ts ++ [eof]) k → k ∈ rs.map (·.2)

/-- **C115**, the part of the RFC that is read: a file that follows the grammar of RFC 8610 and the conditions of
Spec/Rfc.lean (`strict = true`), and declares no name twice with `=`, is read without panics; the tree has its rules in order, and
what is reported are names that are not declared and ends of ranges that do not fit. Nothing is reported if every name
that is used is declared with `=` and there are no ranges. -/
theorem C115_read_partial {src : Bytes} {ts eof L rs} (hs : Scans (Lexer.new src) (ts ++ [eof]) L) (he : eof.tok = .EOF)
    (hf : RfcFile true ts rs) (hd : (assigned rs).Nodup) :
    ∃ N, ∀ n, N ≤ n → ∃ res rules, parseSource n src = .ok res ∧ res.cddl = some rules ∧
      rules.map ruleName = rs.map (some ·.2) ∧ (∀ d ∈ res.errs, aboutNames d.msg = true) ∧
      ((∀ k, Uses (ts ++ [eof]) k → k ∈ assigned rs) → (∀ t ∈ ts, t.tok ≠ .INCLUSIVE_BOUND ∧ t.tok ≠ .EXCLUSIVE_BOUND) → res.errs = []) := by
  obtain ⟨rules, ds, cs, h1, h2, h3⟩ := rfc_rules he hf
  obtain ⟨N, h⟩ := C112_checks (env := .new) hs he h1 (h3 ▸ hd) (by simp [Env.new])
  refine ⟨N, fun n hn => ?_⟩
  obtain ⟨res, k1, k2, k3, -⟩ := h n hn
  refine ⟨res, rules, k1, k2, h2, ?_, fun hu hr => ?_⟩
  · intro d hm
    have hm : noPosMsg d.msg ∈ res.errs.map (noPosMsg ·.msg) := List.mem_map_of_mem hm
    rw [k3] at hm
    obtain ⟨c, -, hc⟩ := List.mem_filterMap.mp hm
    have : aboutNames (noPosMsg d.msg) = true := by
      revert hc
      generalize noPosMsg d.msg = m
      intro hc
      cases c <;> simp only [Check.failure] at hc <;> repeat (first | (split at hc) | (cases hc; rfl) | cases hc)
    revert this
    cases d.msg <;> exact id
  · rw [← List.map_eq_nil_iff, k3, List.filterMap_eq_nil_iff]
    intro c hc
    rcases rules_checked h1 c hc with ⟨k, rfl, hk⟩ | ⟨t, ht, h⟩
    · have := hu k hk
      rw [← h3, List.mem_map] at this
      obtain ⟨d, hd, rfl⟩ := this
      have : declaredKind (ds ++ Env.new.symbols) d.1 ≠ none := by
        unfold declaredKind
        simp only [ne_eq, Option.map_eq_none_iff, List.find?_eq_none, List.mem_append, decide_eq_true_eq]
        exact fun h => h d (.inl hd) rfl
      simp [Check.failure, this]
    · exact absurd h (by simp [hr t ht])

/-- The used names, to compute them. -/
def usedNames : List Token → List Bytes
  | t :: u :: ts => (if t.tok = .IDENT ∧ u.tok ≠ .COLON ∧ t.lit.head? ≠ some 36 then [t.lit] else []) ++ usedNames (u :: ts)
  | _ => []

omit [Unicode] in
theorem uses_computed {ts k} (h : Uses ts k) : k ∈ usedNames ts := by
  obtain ⟨pre, t, u, post, rfl, h⟩ := h
  induction pre with
  | nil => exact List.mem_append_left _ (by rw [if_pos ⟨h.1, h.2.1, h.2.2.1⟩]; simp [h.2.2.2])
  | cons a pre ih =>
    cases pre with
    | nil => exact List.mem_append_right _ ih
    | cons b pre => exact List.mem_append_right _ ih

/-- The tokens in front of the end are determined by the source. -/
theorem tokens_unique {src : Bytes} {ts us : List Token} {e e' : Token} {l l'} (h : Scans (Lexer.new src) (ts ++ [e]) l) (he : e.tok = .EOF)
    (hn : ∀ t ∈ ts, t.tok ≠ .EOF) (h' : Scans (Lexer.new src) (us ++ [e']) l') (he' : e'.tok = .EOF) (hn' : ∀ t ∈ us, t.tok ≠ .EOF) :
    ts = us := by
  have key : ∀ {ts us : List Token} {e e' : Token} {l l'}, Scans (Lexer.new src) (ts ++ [e]) l → e.tok = .EOF →
      Scans (Lexer.new src) (us ++ [e']) l' → (∀ t ∈ us, t.tok ≠ .EOF) → (ts ++ [e]).length ≤ (us ++ [e']).length → ts = us := by
    intro ts us e e' l l' h he h' hn' hl
    obtain ⟨vs, hv⟩ := scans_det h h' hl
    rcases List.eq_nil_or_concat vs with rfl | ⟨ws, w, rfl⟩
    · rw [List.append_nil] at hv
      exact (List.append_inj' hv rfl).1
    · rw [List.concat_eq_append, ← List.append_assoc] at hv
      have := (List.append_inj' hv rfl).1
      exact absurd he (hn' e (by simp [← this]))
  rcases Nat.le_total (ts ++ [e]).length (us ++ [e']).length with hl | hl
  · exact key h he h' hn' hl
  · exact (key h' he' h hn hl).symm

theorem not_accepted {n : Nat} {src : Bytes} (h : parses n src (fun _ es => !es.isEmpty) = true) : ¬ Accepted src := by
  obtain ⟨res, rules, h1, -, h3⟩ := of_parses h
  rintro ⟨n', res', rules', k1, -, k3⟩
  obtain rfl := parse_unique h1 k1
  simp [k3] at h3

theorem accepted_of {n : Nat} {src : Bytes} (h : parses n src (fun _ es => es.isEmpty) = true) : Accepted src := by
  obtain ⟨res, rules, h1, h2, h3⟩ := of_parses h
  exact ⟨n, res, rules, h1, h2, by simpa using h3⟩

/-- A file that ends with a comma or a range operator is not in the RFC. -/
theorem not_rfc {n : Nat} {src : Bytes} {ts} (h : tokensOf n src = some ts)
    (hl : ∃ l, ts.getLast? = some l ∧ l.tok ∉ rfcEnders) : ¬ RfcSource false src := by
  rintro ⟨us, eof, L, rs, h1, h2, h3, h4, -⟩
  obtain ⟨e', L', k1, k2, k3⟩ := tokensOf_scans h
  obtain rfl := tokens_unique h1 h2 h3 k1 k2 k3
  obtain ⟨l, h5, h6⟩ := hl
  obtain ⟨l', h7, h8⟩ := rfcFile_last h4 (by rintro rfl; cases h5)
  rw [h5] at h7
  cases h7
  exact h6 h8

/-- A token on the first line. -/
abbrev tokAt (tok : Tok) (off : Int) (lit : Bytes) : Token := ⟨tok, ⟨off, 1, off + 1, []⟩, lit⟩

/-- A file of the RFC with one rule. -/
theorem rfc_one {n : Nat} {src : Bytes} {nm a eof : Token} {ts : List Token} {L} (h : scanList n (Lexer.new src) = some (nm :: a :: ts ++ [eof], L))
    (hn : nm.tok = .IDENT) (ha : a.tok = .ASSIGN) (he : eof.tok = .EOF) (ht : Rfc false .type ts)
    (hk : ∀ t ∈ ts, t.tok ≠ .EOF) (hu : usedNames (nm :: a :: ts ++ [eof]) = [nm.lit]) : RfcSource false src := by
  refine ⟨nm :: a :: ts, eof, L, [(a.tok, nm.lit)], scanList_scans h, he, ?_, ?_, by simp, fun k hu' => ?_⟩
  · intro t hm
    simp only [List.mem_cons] at hm
    rcases hm with rfl | rfl | hm
    · rw [hn]; decide
    · rw [ha]; decide
    · exact hk t hm
  · have := RfcFile.rule (strict := false) (n := nm) (params := []) (us := []) (.inl (by simp [hn])) (.inl rfl) (.inl ⟨ha, .inl rfl⟩) ht nofun .nil
    simpa using this
  · have := uses_computed hu'
    rw [hu] at this
    simpa using this

set_option maxRecDepth 100000 in
omit [Unicode] in
/-- **C115** is false in both directions. These files of RFC 8610 are not accepted: text as a key, a key that is the name of a
type, a size of `bytes`, `any`, a repeated entry that no comma precedes, a name that is only declared with `/=`. And
these are accepted although the RFC does not allow them: a comma behind a rule, a range without an end. -/
theorem C115_refuted : letI := asciiOnly
    (∀ src ∈ [b!"a = {\"x\": tstr}", b!"a = {text: tstr}", b!"a = bytes .size 4", b!"a = any", b!"a = [int * tstr]", b!"a = b b /= int"],
      RfcSource false src ∧ ¬ Accepted src) ∧
    ∀ src ∈ [b!"a = int,", b!"a = tstr .."], Accepted src ∧ ¬ RfcSource false src := by
  let := asciiOnly
  constructor
  · intro src h
    simp only [List.mem_cons, List.not_mem_nil, or_false] at h
    rcases h with rfl | rfl | rfl | rfl | rfl | rfl
    · refine ⟨rfc_one (n := 8) (nm := tokAt .IDENT 0 b!"a") (a := tokAt .ASSIGN 2 b!"=") (eof := tokAt .EOF 15 []) rfl rfl rfl rfl
        (.last (.plain (.map (o := tokAt .LBRACE 4 b!"{") (c := tokAt .RBRACE 14 b!"}") rfl rfl (.lastGroup (.more (sep := []) (us := [])
          (.once (.colon (k := tokAt .TEXT_LITERAL 5 b!"x") (c := tokAt .COLON 8 b!":") (.inr (.inr (.inr rfl))) rfl
            (.last (.plain (.name (t := tokAt .TSTR 10 b!"tstr") (.inl (by decide)) nofun))) nofun)) (.inl rfl) .noMore nofun)))))
        (by decide) (by decide), not_accepted (n := 60) (by decide_cbv)⟩
    · refine ⟨rfc_one (n := 8) (nm := tokAt .IDENT 0 b!"a") (a := tokAt .ASSIGN 2 b!"=") (eof := tokAt .EOF 16 []) rfl rfl rfl rfl
        (.last (.plain (.map (o := tokAt .LBRACE 4 b!"{") (c := tokAt .RBRACE 15 b!"}") rfl rfl (.lastGroup (.more (sep := []) (us := [])
          (.once (.colon (k := tokAt .TEXT 5 b!"text") (c := tokAt .COLON 9 b!":") (.inl (.inl (by decide))) rfl
            (.last (.plain (.name (t := tokAt .TSTR 11 b!"tstr") (.inl (by decide)) nofun))) nofun)) (.inl rfl) .noMore nofun)))))
        (by decide) (by decide), not_accepted (n := 60) (by decide_cbv)⟩
    · refine ⟨rfc_one (n := 6) (nm := tokAt .IDENT 0 b!"a") (a := tokAt .ASSIGN 2 b!"=") (eof := tokAt .EOF 17 []) rfl rfl rfl rfl
        (.last (.operator (op := tokAt .SIZE 10 b!".size") (.name (t := tokAt .BYTES 4 b!"bytes") (.inl (by decide)) nofun) (by decide)
          (.value (t := tokAt .INT 16 b!"4") (.inl ⟨rfl, by decide⟩) nofun) nofun))
        (by decide) (by decide), not_accepted (n := 60) (by decide_cbv)⟩
    · refine ⟨rfc_one (n := 4) (nm := tokAt .IDENT 0 b!"a") (a := tokAt .ASSIGN 2 b!"=") (eof := tokAt .EOF 7 []) rfl rfl rfl rfl
        (.last (.plain (.name (t := tokAt .ANY 4 b!"any") (.inl (by decide)) nofun)))
        (by decide) (by decide), not_accepted (n := 60) (by decide_cbv)⟩
    · refine ⟨rfc_one (n := 8) (nm := tokAt .IDENT 0 b!"a") (a := tokAt .ASSIGN 2 b!"=") (eof := tokAt .EOF 16 []) rfl rfl rfl rfl
        (.last (.plain (.array (o := tokAt .LBRACK 4 b!"[") (c := tokAt .RBRACK 15 b!"]") rfl rfl (.lastGroup (.more (sep := [])
          (.once (.keyless (.last (.plain (.name (t := tokAt .INT 5 b!"int") (.inr (.inl (by decide))) nofun))))) (.inl rfl)
          (.more (sep := []) (us := []) (.between (lo := []) (hi := []) (m := tokAt .ZERO_OR_MORE 9 b!"*") nofun (by decide) (by decide) rfl
            (.keyless (.last (.plain (.name (t := tokAt .TSTR 11 b!"tstr") (.inl (by decide)) nofun)))) nofun) (.inl rfl) .noMore nofun) nofun)))))
        (by decide) (by decide), not_accepted (n := 60) (by decide_cbv)⟩
    · have hr := RfcFile.rule (strict := false) (n := tokAt .IDENT 0 b!"a") (params := []) (a := tokAt .ASSIGN 2 b!"=") (.inl (by decide)) (.inl rfl)
          (.inl ⟨rfl, .inl rfl⟩) (.last (.plain (.name (t := tokAt .IDENT 4 b!"b") (.inl (by decide)) nofun))) nofun
          (RfcFile.rule (strict := false) (n := tokAt .IDENT 6 b!"b") (params := []) (us := []) (a := tokAt .TYPE_CHOICE_ASSIGN 8 b!"/=")
            (.inl (by decide)) (.inl rfl) (.inr (.inl ⟨rfl, rfl⟩))
            (.last (.plain (.name (t := tokAt .INT 11 b!"int") (.inr (.inl (by decide))) nofun))) nofun .nil)
      refine ⟨⟨_, tokAt .EOF 14 [], _, _, scanList_scans (n := 7) rfl, rfl, by decide, hr, by decide, fun k h => ?_⟩,
        not_accepted (n := 60) (by decide_cbv)⟩
      have := uses_computed h
      clear h
      revert k
      decide
  · intro src h
    simp only [List.mem_cons, List.not_mem_nil, or_false] at h
    rcases h with rfl | rfl
    · exact ⟨accepted_of (n := 60) (by decide_cbv), not_rfc (n := 4) (ts := [_, _, _, tokAt .COMMA 7 b!","]) rfl ⟨_, rfl, by decide⟩⟩
    · exact ⟨accepted_of (n := 60) (by decide_cbv), not_rfc (n := 4) (ts := [_, _, _, tokAt .INCLUSIVE_BOUND 9 b!".."]) rfl ⟨_, rfl, by decide⟩⟩

set_option maxRecDepth 100000 in
omit [Unicode] in
/-- A file with an option, a size, an integer key, a repetition and a tag is read. -/
example : letI := asciiOnly; ∃ N, ∀ n, N ≤ n → ∃ res rules, parseSource n b!"a = {? n: tstr .size 4, 1 => [+ b]} b = #6.32(tstr)" = .ok res ∧
    res.cddl = some rules ∧ rules.map ruleName = [some b!"a", some b!"b"] ∧ res.errs = [] := by
  let := asciiOnly
  have hb := Rfc.tagged (strict := true) (h := tokAt .HASH 40 b!"#") (n := tokAt .FLOAT 41 b!"6.32") (o := tokAt .LPAREN 45 b!"(")
    (c := tokAt .RPAREN 50 b!")") rfl ⟨.inr rfl, 54, _, rfl, by decide, by decide, .inr ⟨51, [50], rfl, by decide⟩⟩ rfl rfl rfl
    (.last (.plain (.name (t := tokAt .TSTR 46 b!"tstr") (.inl (by decide)) fun _ => .inr ⟨_, .text (.inl rfl)⟩)))
    (fun _ => ⟨_, _, .both (a := b!"6") (b := b!"32") (v := 6) (w := 32) rfl rfl rfl rfl⟩)
  have h2 := Rfc.array (strict := true) (o := tokAt .LBRACK 29 b!"[") (c := tokAt .RBRACK 33 b!"]") rfl rfl (.lastGroup (.more (sep := []) (us := [])
    (.oneOrMore (m := tokAt .ONE_OR_MORE 30 b!"+") rfl (.keyless (.last (.plain (.name (t := tokAt .IDENT 32 b!"b") (.inl (by decide)) fun _ => .inl rfl))))
      (fun _ f hf => by cases hf; exact fun h => nomatch h.1)) (.inl rfl) .noMore (fun _ _ _ _ _ h => nomatch h)))
  have h1 := Rfc.operator (strict := true) (op := tokAt .SIZE 15 b!".size") (.name (t := tokAt .TSTR 10 b!"tstr") (.inl (by decide)) fun _ => .inr ⟨_, .text (.inl rfl)⟩)
    (by decide) (.value (t := tokAt .INT 21 b!"4") (.inl ⟨rfl, by decide⟩) fun _ => .inr ⟨_, .number (v := 4) rfl (by decide) rfl⟩)
    (fun _ => .size rfl (by decide))
  have ha := Rfc.map (strict := true) (o := tokAt .LBRACE 4 b!"{") (c := tokAt .RBRACE 34 b!"}") rfl rfl (.lastGroup
    (.more (sep := [tokAt .COMMA 22 b!","]) (.optional (m := tokAt .OPTIONAL 5 b!"?") rfl
      (.colon (k := tokAt .IDENT 7 b!"n") (c := tokAt .COLON 8 b!":") (.inl (.inl (by decide))) rfl (.last h1) fun _ => ⟨.inl rfl, .inl rfl⟩))
      (.inr ⟨_, rfl, rfl⟩)
      (.more (sep := []) (us := []) (.once (.arrow (a := tokAt .ARROW_MAP 26 b!"=>")
        (.plain (.value (t := tokAt .INT 24 b!"1") (.inl ⟨rfl, by decide⟩) fun _ => .inr ⟨_, .number (v := 1) rfl (by decide) rfl⟩)) rfl
        (.last (.plain h2)) fun _ => ⟨_, rfl, .inr ⟨rfl, by decide⟩, .inr ⟨_, .number (v := 1) rfl (by decide) rfl⟩⟩))
        (.inl rfl) .noMore (fun _ _ _ _ _ h => nomatch h)) fun _ h => nomatch h))
  have hr := RfcFile.rule (n := tokAt .IDENT 0 b!"a") (params := []) (a := tokAt .ASSIGN 2 b!"=") (.inl (by decide)) (.inl rfl)
    (.inl ⟨rfl, .inl rfl⟩) (.last (.plain ha)) (fun _ => rfl)
    (RfcFile.rule (n := tokAt .IDENT 36 b!"b") (params := []) (us := []) (a := tokAt .ASSIGN 38 b!"=") (.inl (by decide)) (.inl rfl)
      (.inl ⟨rfl, .inl rfl⟩) (.last (.plain hb)) (fun _ => rfl) .nil)
  obtain ⟨eof, L, hs, he, -⟩ := tokensOf_scans (n := 24) (src := b!"a = {? n: tstr .size 4, 1 => [+ b]} b = #6.32(tstr)") (ts := _) (by
    refine Eq.trans (b := some [tokAt .IDENT 0 b!"a", tokAt .ASSIGN 2 b!"=", tokAt .LBRACE 4 b!"{", tokAt .OPTIONAL 5 b!"?", tokAt .IDENT 7 b!"n",
      tokAt .COLON 8 b!":", tokAt .TSTR 10 b!"tstr", tokAt .SIZE 15 b!".size", tokAt .INT 21 b!"4", tokAt .COMMA 22 b!",", tokAt .INT 24 b!"1",
      tokAt .ARROW_MAP 26 b!"=>", tokAt .LBRACK 29 b!"[", tokAt .ONE_OR_MORE 30 b!"+", tokAt .IDENT 32 b!"b", tokAt .RBRACK 33 b!"]",
      tokAt .RBRACE 34 b!"}", tokAt .IDENT 36 b!"b", tokAt .ASSIGN 38 b!"=", tokAt .HASH 40 b!"#", tokAt .FLOAT 41 b!"6.32",
      tokAt .LPAREN 45 b!"(", tokAt .TSTR 46 b!"tstr", tokAt .RPAREN 50 b!")"]) (by decide_cbv) rfl)
  obtain ⟨N, h⟩ := C115_read_partial hs he hr (by decide)
  refine ⟨N, fun n hn => ?_⟩
  obtain ⟨res, rules, k1, k2, k3, -, k4⟩ := h n hn
  refine ⟨res, rules, k1, k2, k3, k4 (fun k h => ?_) (by decide)⟩
  have := uses_computed h
  simp [usedNames] at this
  rcases this with rfl | rfl | rfl <;> decide

end Cddlc
