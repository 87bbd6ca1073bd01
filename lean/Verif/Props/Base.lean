import Verif.Model.Slice
import Verif.Model.Env
import Verif.Lemmas.Pieces
import Verif.Spec.TokenLine

/-! Properties of `NewLexer`'s memory use (C11), of scanning rendered token texts (C12), of the
environment (C14) and of positions (C55). -/

namespace Cddlc
open Spec

/-! ### C11 -/

theorem read_append {grow : Nat} {h : Heap} {s : GoSlice} {b : UInt8} (hv : s.Valid h) :
    (s.append grow h b).2.read (s.append grow h b).1 = s.read h ++ [b] := by
  obtain ⟨h1, h2, h3⟩ := hv
  unfold GoSlice.append
  split
  · rename_i hlt
    have hlen : s.off + s.len < (h.getD s.arr []).length := by omega
    simp only [GoSlice.read]
    rw [show (h.set s.arr ((h.getD s.arr []).set (s.off + s.len) b)).getD s.arr [] =
      (h.getD s.arr []).set (s.off + s.len) b by simp [List.getD, h1]]
    generalize h.getD s.arr [] = a at *
    apply List.ext_getElem
    · simp; omega
    · intro i hi1 hi2
      simp only [List.length_take, List.length_drop, List.length_set] at hi1
      rw [List.getElem_take, List.getElem_drop, List.getElem_set]
      rw [List.getElem_append]
      split
      · have : i = s.len := by omega
        subst this
        rw [dif_neg (by simp; omega)]
        simp
      · rename_i hne
        rw [dif_pos (by simp; omega)]
        rw [List.getElem_take, List.getElem_drop]
  · rename_i hge
    have hr : (s.read h).length = s.len := by
      simp only [GoSlice.read, List.length_take, List.length_drop]; omega
    simp only [GoSlice.read] at hr ⊢
    rw [show (h ++ [((h.getD s.arr []).drop s.off).take s.len ++ b :: List.replicate grow 0]).getD h.length [] =
      ((h.getD s.arr []).drop s.off).take s.len ++ b :: List.replicate grow 0 by simp [List.getD]]
    rw [List.drop_zero, List.take_append, hr, List.take_of_length_le (by omega),
      show s.len + 1 - s.len = 1 by omega]
    rfl

/-- **C11**: `NewLexer` leaves every byte of the caller's slice as it was, changes at most the one
byte just behind it in its backing array (and none when the slice has no spare capacity), touches no
other array, and lexes exactly the caller's bytes. -/
theorem C11_caller_bytes {grow : Nat} {h : Heap} {s : GoSlice} (hv : s.Valid h) :
    let r := newLexerMem grow h s
    s.read r.1 = s.read h ∧
    (∀ a i, a < h.length → (a ≠ s.arr ∨ i ≠ s.off + s.len ∨ s.len = s.cap) →
      (r.1.getD a [])[i]? = (h.getD a [])[i]?) ∧
    r.2.2 = Lexer.new (s.read h) := by
  have hr := read_append (grow := grow) (b := 32) hv
  refine ⟨?_, ?_, ?_⟩
  · obtain ⟨h1, h2, h3⟩ := hv
    show s.read (s.append grow h 32).1 = _
    unfold GoSlice.append
    split
    · simp only [GoSlice.read]
      rw [show (h.set s.arr ((h.getD s.arr []).set (s.off + s.len) 32)).getD s.arr [] =
        (h.getD s.arr []).set (s.off + s.len) 32 by simp [List.getD, h1]]
      rw [List.drop_set, if_neg (by omega), show s.off + s.len - s.off = s.len by omega,
        List.take_set, List.set_eq_of_length_le (by simp; omega)]
    · simp only [GoSlice.read]
      congr 2
      simp [List.getD, List.getElem?_append_left h1]
  · intro a i ha hne
    show ((s.append grow h 32).1.getD a [])[i]? = _
    unfold GoSlice.append
    split
    · rename_i hlt
      by_cases hx : s.arr = a
      · subst hx
        rw [show (h.set s.arr ((h.getD s.arr []).set (s.off + s.len) 32)).getD s.arr [] =
          (h.getD s.arr []).set (s.off + s.len) 32 by simp [List.getD, ha]]
        rw [List.getElem?_set_ne]
        rcases hne with h | h | h
        · exact absurd rfl h
        · exact fun hh => h hh.symm
        · omega
      · simp [List.getD, List.getElem?_set_ne hx]
    · simp [List.getD, List.getElem?_append_left ha]
  · generalize hA : s.append grow h 32 = A at hr
    simp only [newLexerMem, hA, hr, Lexer.new]

/-- The byte behind the slice really can change: a slice of one byte of a two-byte array. -/
theorem C11_overwrites_spare_capacity :
    let h : Heap := [[97, 98]]
    let s : GoSlice := ⟨0, 0, 1, 2⟩
    s.Valid h ∧ (newLexerMem 0 h s).1 = [[97, 32]] := by
  refine ⟨⟨by decide, by decide, by decide⟩, rfl⟩

example : (newLexerMem 3 [[1], [97, 98, 99]] ⟨1, 1, 2, 2⟩).1 = [[1], [97, 98, 99], [98, 99, 32, 0, 0, 0]] :=
  rfl

/-! ### C12 -/

variable [Unicode]

omit [Unicode] in
theorem placed_starts : (ps : List (Piece × List Char)) → (pre : List Char) →
    (placed pre ps ++ [(⟨.EOF, Lexer.posAfter (pre ++ renderAll ps), []⟩ : Token)]).map (fun t : Token => t.pos.offset) =
      (starts (blen pre) ps).map Int.ofNat
  | [], pre => by simp [placed, renderAll, starts, Lexer.posAfter]
  | (p, g) :: ps, pre => by
    have := placed_starts ps (pre ++ p.render ++ g)
    rw [blen_append, blen_append] at this
    simp only [placed, renderAll, starts, List.cons_append, List.map_cons]
    rw [show pre ++ (p.render ++ g ++ renderAll ps) = pre ++ p.render ++ g ++ renderAll ps by simp [List.append_assoc],
      this]
    rfl

omit [Unicode] in
theorem placed_toks : (ps : List (Piece × List Char)) → (pre : List Char) →
    (placed pre ps).map (fun t => (t.tok, t.lit)) = ps.map (fun e => (e.1.tok, enc e.1.lit))
  | [], _ => rfl
  | (p, g) :: ps, pre => by simp [placed, placed_toks ps]

/-- **C12**: any list of token texts, written with white space between them (and any before the
first), is scanned to exactly those tokens with those literals and at the offsets where they stand, then
EOF, without errors. -/
theorem C12_scan_rendered (ps : List (Piece × List Char)) (g : List Char) (hp : PiecesWF ps)
    (hg : ∀ c ∈ g, ws c = true) :
    ∃ ts l, Scans (Lexer.new (enc (g ++ renderAll ps))) ts l ∧
      ts.map (fun t => (t.tok, t.lit)) = ps.map (fun e => (e.1.tok, enc e.1.lit)) ++ [(.EOF, [])] ∧
      ts.map (·.pos.offset) = (starts (enc g).length ps).map Int.ofNat ∧
      l.errors = [] := by
  have hbad : '�' ∉ g ++ renderAll ps := by
    rw [List.mem_append, not_or]
    exact ⟨fun hm => absurd (hg _ hm) (by decide), renderAll_no_bad hp⟩
  obtain ⟨l, h1, h3⟩ := scans_placed hg ps hp (Lexer.clean_new hbad)
  rw [List.nil_append] at h1
  refine ⟨_, l, h1, by simp [placed_toks], placed_starts ps g, ?_⟩
  rw [h3]
  have : (Lexer.new (enc (g ++ renderAll ps))).errors = [] := by
    unfold Lexer.new Lexer.next
    simp only []
    split
    · rfl
    · split <;> rfl
  exact this

omit [Unicode] in
/-- Twelve texts of different kinds meeting the hypotheses of C12. -/
example : PiecesWF [(.word "my-type".toList, [' ']), (.op "=" .ASSIGN, ['\n']), (.dec "042".toList, [' ']),
    (.frac "1".toList "50".toList, ['\t']), (.hex "fF".toList, [' ']), (.oct "17".toList, [' ']),
    (.bin "101".toList, [' ', ' ']), (.str "a ; b".toList, ['\r']), (.ctl "size".toList, [' ']),
    (.word "int".toList, [' ']), (.comment " end".toList true, ['\n']), (.op "..." .EXCLUSIVE_BOUND, [])] := by
  simp only [PiecesWF, Piece.WF, Piece.Gap]
  repeat' constructor
  all_goals first | decide | simp

omit [Unicode] in
/-- The classification of those texts. -/
example : (Piece.word "int".toList).tok = .INT ∧ (Piece.ctl "size".toList).tok = .SIZE ∧
    (Piece.word "my-type".toList).tok = .IDENT := by decide

/-! ### C97 -/

/-- The text of a token. -/
def pieceOf (t : Tok) : Piece :=
  match operators.find? (·.2 = t) with
  | some e => .op e.1 t
  | none =>
    match reserved.find? (·.2 = t) with
    | some e => if e.1.toList.head? = some '.' then .ctl e.1.toList.tail else .word e.1.toList
    | none => .word "IDENT".toList

/-- The text of an item. -/
def Spec.LineItem.piece : LineItem → Piece
  | .tok t => pieceOf t
  | .int ds => .dec ds
  | .float a b => .frac a b
  | .text s => .str s

omit [Unicode] in
theorem printed_piece {x : LineItem} (h : x.Ok) : x.piece.WF ∧ enc x.piece.render = x.source ∧
    (x.piece.tok, enc x.piece.lit) = x.scanned ∧ '\n' ∉ x.piece.render := by
  have key : x.piece.WF ∧ enc x.piece.render = x.source ∧ (x.piece.tok, enc x.piece.lit) = x.scanned := by
    cases x with
    | tok t =>
      cases t <;> first
        | exact absurd h (by simp only [LineItem.Ok]; decide)
        | exact ⟨by decide, by decide, by decide⟩
    | int ds => exact ⟨h, rfl, rfl⟩
    | float a b => exact ⟨h, rfl, rfl⟩
    | text s => exact ⟨h, rfl, rfl⟩
  exact ⟨key.1, key.2.1, key.2.2, piece_line key.1⟩

/-- The items as texts on one line. -/
def spaced : List LineItem → List (Piece × List Char)
  | [] => []
  | [x] => [(x.piece, [])]
  | x :: xs => (x.piece, [' ']) :: spaced xs

omit [Unicode] in
theorem spaced_wf : (xs : List LineItem) → (∀ x ∈ xs, x.Ok) → PiecesWF (spaced xs) ∧
    enc (renderAll (spaced xs)) = printAll xs ∧ (xs = [] ↔ spaced xs = [])
  | [], _ => ⟨trivial, rfl, by simp [spaced]⟩
  | [x], h => by
    obtain ⟨h1, h2, h3, -⟩ := printed_piece (h x (by simp))
    refine ⟨⟨h1, ⟨by simp, by simp, ?_⟩, trivial⟩, by simp [spaced, renderAll, printAll, h2], by simp [spaced]⟩
    cases x.piece <;> simp
  | x :: y :: xs, h => by
    obtain ⟨h1, h2, h3, -⟩ := printed_piece (h x (by simp))
    obtain ⟨i1, i2, i3⟩ := spaced_wf (y :: xs) fun z hz => h z (by simp [hz])
    have hc : ∀ b s, x.piece ≠ .comment b s := by
      intro b s hb
      have : x.scanned.1 = .COMMENT := by rw [← h3, hb]; rfl
      cases x with
      | tok t =>
        have ht : t = .COMMENT := this
        have := (h (.tok t) (by simp)).1
        rw [ht] at this
        exact absurd this (by decide)
      | int ds => cases this
      | float a b => cases this
      | text s => cases this
    refine ⟨⟨h1, ⟨by simp [ws], by simp, ?_⟩, i1⟩, ?_, by simp [spaced]⟩
    · cases hx : x.piece with
      | comment b s => exact absurd hx (hc b s)
      | _ => trivial
    · simp only [spaced, renderAll, printAll, enc_append, h2, i2]
      simp [enc, String.utf8EncodeChar]

omit [Unicode] in
theorem posAfter_line {cs : List Char} (h : '\n' ∉ cs) : Lexer.posAfter cs = ⟨blen cs, 1, (blen cs : Int) + 1, []⟩ := by
  have h1 : cs.count '\n' = 0 := List.count_eq_zero.mpr h
  have h2 : trail cs = cs := by
    unfold trail
    have : cs.reverse.takeWhile (· ≠ '\n') = cs.reverse := by
      have h : ∀ c ∈ cs.reverse, c ≠ '\n' := by
        rintro c hc rfl
        exact h (List.mem_reverse.mp hc)
      generalize cs.reverse = r at h
      induction r with
      | nil => rfl
      | cons c r ih => rw [List.takeWhile_cons_of_pos (by simpa using h c (by simp)), ih fun d hd => h d (by simp [hd])]
    rw [this, List.reverse_reverse]
  unfold Lexer.posAfter
  rw [h1, h2]
  rfl

omit [Unicode] in
theorem placed_spaced : (xs : List LineItem) → (∀ x ∈ xs, x.Ok) → ∀ pre, '\n' ∉ pre →
    placed pre (spaced xs) ++ [⟨.EOF, Lexer.posAfter (pre ++ renderAll (spaced xs)), []⟩] = scanAll (blen pre) xs
  | [], _, pre, hp => by simp [spaced, placed, renderAll, scanAll, posAfter_line hp]
  | [x], h, pre, hp => by
    obtain ⟨h1, h2, h3, h4⟩ := printed_piece (h x (by simp))
    have e : '\n' ∉ pre ++ x.piece.render := by simp [hp, h4]
    simp only [spaced, placed, renderAll, List.append_nil, scanAll, posAfter_line hp, posAfter_line e, ← h3, blen_append,
      List.cons_append, List.nil_append]
    have : blen x.piece.render = x.source.length := by rw [← h2]; rfl
    rw [this, Int.natCast_add]
  | x :: y :: xs, h, pre, hp => by
    obtain ⟨h1, h2, h3, h4⟩ := printed_piece (h x (by simp))
    have e : '\n' ∉ pre ++ x.piece.render ++ [' '] := by simp [hp, h4]
    have := placed_spaced (y :: xs) (fun z hz => h z (by simp [hz])) _ e
    have hl : blen (pre ++ x.piece.render ++ [' ']) = blen pre + x.source.length + 1 := by
      rw [blen_append, blen_append, ← h2]; rfl
    rw [hl] at this
    simp only [spaced, placed, List.cons_append, scanAll, posAfter_line hp, ← h3, ← this, renderAll, List.append_assoc]

/-- **C97**: the tokens of any sequence of items, written on one line with blanks between them, are exactly
those items, with their texts and at their places, and no errors. (`TestLexerFuzz`, for all sequences.) -/
theorem C97_printed_tokens (xs : List LineItem) (h : ∀ x ∈ xs, x.Ok) :
    ∃ l, Scans (Lexer.new (printAll xs)) (scanAll 0 xs) l ∧ l.errors = [] := by
  obtain ⟨h1, h2, -⟩ := spaced_wf xs h
  have hbad : '�' ∉ [] ++ renderAll (spaced xs) := by simpa using renderAll_no_bad h1
  obtain ⟨l, h3, h4⟩ := scans_placed (g := []) (by simp) _ h1 (Lexer.clean_new hbad)
  rw [List.nil_append, h2] at h3
  refine ⟨l, ?_, ?_⟩
  · have := placed_spaced xs h [] (by simp)
    simp only [List.nil_append] at this h3
    rwa [this] at h3
  · rw [h4]
    unfold Lexer.new Lexer.next
    simp only []
    split
    · rfl
    · split <;> rfl

omit [Unicode] in
/-- Items of all kinds. -/
example : ∀ x ∈ [LineItem.tok .IDENT, .tok .CBORSEQ, .tok .PERIOD, .int "042".toList, .tok .GROUP_CHOICE_ASSIGN, .tok .FLOAT16,
    .float "1".toList "50".toList, .text "a ; b".toList, .tok .FEATURE], x.Ok := by
  simp only [List.mem_cons, List.not_mem_nil, or_false, forall_eq_or_imp, forall_eq, LineItem.Ok]
  decide

/-! ### C14 -/

/-- The environment after a sequence of `Add`s. -/
def Env.run (adds : List (Bytes × Node)) : Env := adds.foldl (fun e x => (e.add x.1 x.2).1) Env.new

/-- The first value added under a name. -/
def Spec.firstAdded (adds : List (Bytes × Node)) (k : Bytes) : Option Node :=
  (adds.find? (fun x => x.1 = k)).map (·.2)

omit [Unicode] in
theorem run_snoc (adds : List (Bytes × Node)) (x : Bytes × Node) :
    Env.run (adds ++ [x]) = ((Env.run adds).add x.1 x.2).1 := by
  simp [Env.run, List.foldl_append]

omit [Unicode] in
theorem find_run (adds : List (Bytes × Node)) (k : Bytes) :
    assocFind k (Env.run adds).symbols = firstAdded adds k := by
  suffices h : ∀ r : List (Bytes × Node),
      assocFind k (Env.run r.reverse).symbols = firstAdded r.reverse k by
    simpa using h adds.reverse
  intro r
  induction r with
  | nil => rfl
  | cons x r ih =>
    obtain ⟨k', v⟩ := x
    rw [List.reverse_cons, run_snoc]
    unfold Env.add
    simp only [firstAdded, List.find?_append] at ih ⊢
    by_cases he : (Env.run r.reverse).exists? k' = true
    · rw [if_pos he, ih]
      by_cases hk : k' = k
      · subst hk
        unfold Env.exists? at he
        rw [ih] at he
        cases hf : List.find? (fun x => decide (x.1 = k')) r.reverse with
        | none => rw [hf] at he; cases he
        | some y => simp
      · simp [hk]
    · rw [if_neg he]
      simp only [assocFind]
      by_cases hk : k' = k
      · subst hk
        unfold Env.exists? at he
        rw [ih] at he
        rw [if_pos rfl]
        cases hf : List.find? (fun x => decide (x.1 = k')) r.reverse with
        | none => simp
        | some y => rw [hf] at he; simp at he
      · rw [if_neg hk, ih]; simp [hk]

omit [Unicode] in
/-- **C14**: after any sequence of `Add`s, a name has for ever the first value added under it; `Get`
of another name is nil; `Exists` says whether it was ever added; and the next `Add` fails exactly
if the name was added before. -/
theorem C14_write_once (adds : List (Bytes × Node)) (k : Bytes) :
    (Env.run adds).get k = (firstAdded adds k).getD .nil ∧
    ((Env.run adds).exists? k = true ↔ k ∈ adds.map (·.1)) ∧
    (∀ v, ((Env.run adds).add k v).2 = true ↔ k ∈ adds.map (·.1)) ∧
    (∀ more v, firstAdded adds k = some v → (Env.run (adds ++ more)).get k = v) := by
  have hex : (Env.run adds).exists? k = true ↔ k ∈ adds.map (·.1) := by
    unfold Env.exists?
    rw [find_run, firstAdded, Option.isSome_map, List.find?_isSome]
    simp only [List.mem_map, decide_eq_true_eq]
  refine ⟨?_, hex, ?_, ?_⟩
  · unfold Env.get
    rw [find_run]
    cases firstAdded adds k <;> rfl
  · intro v
    rw [← hex]
    unfold Env.add
    split <;> simp_all
  · intro more v hv
    unfold Env.get
    rw [find_run]
    have : firstAdded (adds ++ more) k = some v := by
      unfold firstAdded at hv ⊢
      rw [List.find?_append]
      cases hf : List.find? (fun x => decide (x.1 = k)) adds with
      | none => rw [hf] at hv; cases hv
      | some y => rw [hf] at hv; simpa using hv
    rw [this]

omit [Unicode] in
example : (Env.run [(b!"a", .null default .NIL), (b!"b", .nil), (b!"a", .nil)]).get b!"a" =
    .null default .NIL := rfl

/-! ### C55 -/

omit [Unicode] in
/-- **C55**: moving a position by `a` then by `b` is moving it by `a + b`, moving by 0 does
nothing, and moving changes neither the file nor the line. -/
theorem C55_to (p : Pos) (a b : Int) :
    (p.to a).to b = p.to (a + b) ∧ p.to 0 = p ∧ (p.to a).line = p.line ∧ (p.to a).file = p.file ∧
    (p.to a).offset - p.offset = (p.to a).column - p.column := by
  refine ⟨?_, ?_, rfl, rfl, ?_⟩
  · simp only [Pos.to, Int.add_assoc]
  · simp [Pos.to]
  · simp only [Pos.to]; omega

omit [Unicode] in
example : (Pos.to ⟨3, 1, 4, []⟩ 5).string = b!"1:9" := rfl

end Cddlc
