import Verif.Spec.Exit
import Verif.Props.Json
import Verif.Props.Total

/-! C95 (exit statuses of `cddlc lex` and `cddlc parse`) and C96 (`cddlc parse` as a validator). -/

namespace Cddlc
open Spec
variable [Unicode]

omit [Unicode] in
theorem withSource_traces {args : List Bytes} {cmd : Bytes → Out CmdResult} {t e}
    (h : Traces (withSource args cmd) t e) :
    e = .cut ∨ (args.length ≠ 1 ∧ t = [] ∧ e = .done (refused b!"filename required")) ∨
    ∃ f, args = [f] ∧ ((t = [⟨.readFile f, .error ()⟩] ∧ e = .done (refused [])) ∨
      ∃ src, t = [⟨.readFile f, .ok src⟩] ∧ ((∃ r, cmd src = .ok r ∧ e = .done r) ∨
        (∃ w, cmd src = .panic w ∧ e = .panic w) ∨ (cmd src = .hang ∧ e = .hang))) := by
  unfold withSource at h
  split at h
  · cases h with
    | cut => exact .inl rfl
    | op a h =>
      cases a with
      | error u =>
        cases h with
        | cut => exact .inl rfl
        | ret => exact .inr (.inr ⟨_, rfl, .inl ⟨rfl, rfl⟩⟩)
      | ok src =>
        simp only at h
        cases hc : cmd src with
        | ok r =>
          rw [hc] at h
          cases h with
          | cut => exact .inl rfl
          | ret => exact .inr (.inr ⟨_, rfl, .inr ⟨src, rfl, .inl ⟨r, hc, rfl⟩⟩⟩)
        | panic w =>
          rw [hc] at h
          cases h with
          | cut => exact .inl rfl
          | panic => exact .inr (.inr ⟨_, rfl, .inr ⟨src, rfl, .inr (.inl ⟨w, hc, rfl⟩)⟩⟩)
        | hang =>
          rw [hc] at h
          cases h with
          | cut => exact .inl rfl
          | hang => exact .inr (.inr ⟨_, rfl, .inr ⟨src, rfl, .inr (.inr ⟨hc, rfl⟩)⟩⟩)
  · rename_i hne
    cases h with
    | cut => exact .inl rfl
    | ret =>
      refine .inr (.inl ⟨fun hl => ?_, rfl, rfl⟩)
      obtain ⟨f, rfl⟩ := List.length_eq_one_iff.mp hl
      exact hne f rfl

theorem lexLoop_panics {w} (n : Nat) (l : Lexer) (k : Nat) (out : List Bytes)
    (h : loopOut lexStep n (l, k, out) = .panic w) : ∃ ts l', Scans l ts l' ∧ l'.scan = .panic w := by
  induction n generalizing l k out with
  | zero => simp [loopOut] at h
  | succ n ih =>
    unfold loopOut lexStep at h
    cases hs : l.scan with
    | panic w' =>
      simp only [hs, Out.bind_def, Out.bind] at h
      cases h
      exact ⟨[], l, .nil _, hs⟩
    | hang => simp only [hs, Out.bind_def, Out.bind] at h; cases h
    | ok r =>
      obtain ⟨tok, pos, lit, l1⟩ := r
      simp only [hs, Out.bind_def, Out.bind] at h
      by_cases he : tok = .EOF
      · rw [if_pos he] at h; cases h
      · rw [if_neg he] at h
        obtain ⟨ts, l', h1, h2⟩ := ih l1 _ _ h
        exact ⟨_, l', .cons hs h1, h2⟩

theorem lexLoop_hangs (n : Nat) (l : Lexer) (k : Nat) (out : List Bytes)
    (h : loopOut lexStep n (l, k, out) = .hang) : ∃ ts l', Scans l ts l' ∧ (∀ u ∈ ts, u.tok ≠ .EOF) ∧
      (l'.scan = .hang ∨ ts.length = n) := by
  induction n generalizing l k out with
  | zero => exact ⟨[], l, .nil _, by simp, .inr rfl⟩
  | succ n ih =>
    unfold loopOut lexStep at h
    cases hs : l.scan with
    | panic w' => simp only [hs, Out.bind_def, Out.bind] at h; cases h
    | hang => exact ⟨[], l, .nil _, by simp, .inl hs⟩
    | ok r =>
      obtain ⟨tok, pos, lit, l1⟩ := r
      simp only [hs, Out.bind_def, Out.bind] at h
      by_cases he : tok = .EOF
      · rw [if_pos he] at h; cases h
      · rw [if_neg he] at h
        obtain ⟨ts, l', h1, h2, h3⟩ := ih l1 _ _ h
        refine ⟨_, l', .cons hs h1, ?_, ?_⟩
        · intro u hu
          rcases List.mem_cons.mp hu with rfl | hu
          · exact he
          · exact h2 u hu
        · rcases h3 with h3 | h3
          · exact .inl h3
          · exact .inr (by simp [h3])

theorem scans_end {l l1 l2 : Lexer} {ts} (h : Scans l ts l1) (h' : Scans l ts l2) : l1 = l2 := by
  induction h with
  | nil => cases h'; rfl
  | cons h1 _ ih =>
    cases h' with
    | cons h2 h3 =>
      rw [h1] at h2
      cases h2
      exact ih h3

/-- What the lexer does on a source it gets to the end of. -/
theorem scans_ended {src : Bytes} {ts us t l l'} (h : Scans (Lexer.new src) (ts ++ [t]) l) (ht : t.tok = .EOF)
    (h' : Scans (Lexer.new src) us l') : (∀ u ∈ us, u ∈ ts ∨ u = t) ∧ ∀ w, l'.scan ≠ .panic w := by
  by_cases hl : us.length ≤ ts.length
  · obtain ⟨vs, hv⟩ := scans_det h' h (by simp; omega)
    have hp : ∃ ws, ts = us ++ ws := by
      rcases List.append_eq_append_iff.mp hv with ⟨a, h1, _⟩ | ⟨a, h1, h2⟩
      · exact ⟨a, h1⟩
      · have : a = [] := List.length_eq_zero_iff.mp (by rw [h1, List.length_append] at hl; omega)
        exact ⟨[], by rw [h1, this]; simp⟩
    obtain ⟨ws, rfl⟩ := hp
    refine ⟨fun u hu => .inl (by simp [hu]), fun w hw => ?_⟩
    rw [List.append_assoc] at h
    obtain ⟨m, h1, h2⟩ := scans_split h
    cases scans_end h1 h'
    cases ws <;> (cases h2; simp_all)
  · obtain ⟨vs, rfl⟩ := scans_det h h' (by simp; omega)
    obtain ⟨m, h1, h2⟩ := scans_split h'
    cases scans_end h1 h
    obtain ⟨_, _, _, _, h3⟩ := C03_eof_absorbing h ht
    have h4 := (h3 _ _ h2).1
    refine ⟨fun u hu => ?_, fun w hw => ?_⟩
    · simp only [List.mem_append, List.mem_singleton] at hu
      rcases hu with (hu | hu) | hu
      · exact .inl hu
      · exact .inr hu
      · exact .inr (h4 u hu)
    · rcases List.eq_nil_or_concat vs with rfl | ⟨vs', v, rfl⟩
      · rw [List.append_nil] at h'
        obtain ⟨_, _, h5, _⟩ := C03_eof_absorbing h' ht
        rw [hw] at h5; cases h5
      · rw [List.concat_eq_append, ← List.append_assoc] at h'
        obtain ⟨_, _, h5, _⟩ := C03_eof_absorbing h' ((h4 v (by simp)) ▸ ht)
        rw [hw] at h5; cases h5

/-! ### C95 -/

/-- **C95**: the exit status of `cddlc lex` is one that the lexer explains. -/
theorem C95_lex {n : Nat} {args : List Bytes} {t e k} (h : Traces (lexMain n args) t e)
    (hk : exitStatus e = some k) : LexExit args t k := by
  rcases withSource_traces h with rfl | ⟨h1, rfl, rfl⟩ | ⟨f, hf, ⟨rfl, rfl⟩ | ⟨src, rfl, h2⟩⟩
  · cases hk
  · cases hk; exact .usage h1
  · cases hk; exact .unreadable hf
  · rcases h2 with ⟨r, hr, rfl⟩ | ⟨w, hw, rfl⟩ | ⟨_, rfl⟩
    · obtain ⟨ts, t, l, h1, _, h3, _, h5, _⟩ := C60_lex hr
      simp only [exitStatus] at hk
      by_cases he : r.err = none
      · rw [if_pos he] at hk
        cases hk
        exact .fine hf h1 h3 (h5.mp he)
      · rw [if_neg he] at hk
        cases hk
        have : ¬ ∀ u ∈ ts, u.tok ≠ .ILLEGAL := fun hc => he (h5.mpr hc)
        simp only [ne_eq, Classical.not_forall, Decidable.not_not] at this
        obtain ⟨u, hu, hi⟩ := this
        exact .illegal hf h1 h3 hu hi
    · cases hk
      unfold lexCmd at hw
      cases hl : loopOut lexStep n (Lexer.new src, 0, []) with
      | ok v => rw [hl] at hw; cases hw
      | hang => rw [hl] at hw; cases hw
      | panic w' =>
        obtain ⟨ts, l, h1, h2⟩ := lexLoop_panics _ _ _ _ hl
        exact .panics hf h1 h2
    · cases hk

/-- **C95**: the explanations exclude each other. -/
theorem C95_lex_unique {args : List Bytes} {t k k'} (h : LexExit args t k) (h' : LexExit args t k') : k = k' := by
  have one : ∀ {f : Bytes} {n : Nat}, args = [f] → args.length ≠ 1 → n = 1 := fun h h' => absurd (by rw [h]; rfl) h'
  cases h with
  | usage => cases h'; rfl
  | unreadable => cases h'; rfl
  | fine _ h1 h2 h3 =>
    cases h' with
    | fine => rfl
    | illegal _ h4 h5 h6 h7 =>
      rcases (scans_ended h1 h2 h4).1 _ (List.mem_append_left _ h6) with h | rfl
      · exact absurd h7 (h3 _ h)
      · rw [h7] at h2; cases h2
    | panics _ h4 h5 => exact absurd h5 ((scans_ended h1 h2 h4).2 _)
  | illegal _ h1 h2 h3 h4 =>
    cases h' with
    | illegal => rfl
    | fine _ h5 h6 h7 =>
      rcases (scans_ended h5 h6 h1).1 _ (List.mem_append_left _ h3) with h | rfl
      · exact absurd h4 (h7 _ h)
      · rw [h4] at h6; cases h6
    | panics _ h4 h5 => exact absurd h5 ((scans_ended h1 h2 h4).2 _)
  | panics _ h1 h2 =>
    cases h' with
    | panics => rfl
    | fine _ h4 h5 => exact absurd h2 ((scans_ended h4 h5 h1).2 _)
    | illegal _ h4 h5 => exact absurd h2 ((scans_ended h4 h5 h1).2 _)

/-- **C95**: on a file that is well-formed UTF-8 without U+FFFD, `cddlc lex` exits unless it is killed. -/
theorem C95_lex_exits {n : Nat} {args : List Bytes} {t e} (h : Traces (lexMain n args) t e) (hc : e ≠ .cut)
    (hr : ∀ f src, ⟨Op.readFile f, Except.ok src⟩ ∈ t → Clean src ∧ src.length < n) :
    (exitStatus e).isSome := by
  rcases withSource_traces h with rfl | ⟨h1, rfl, rfl⟩ | ⟨f, hf, ⟨rfl, rfl⟩ | ⟨src, rfl, h2⟩⟩
  · exact absurd rfl hc
  · rfl
  · rfl
  · rcases h2 with ⟨r, hr, rfl⟩ | ⟨w, hw, rfl⟩ | ⟨hh, rfl⟩
    · rfl
    · rfl
    · obtain ⟨hcl, hn⟩ := hr f src (by simp)
      unfold lexCmd at hh
      cases hl : loopOut lexStep n (Lexer.new src, 0, []) with
      | ok v => rw [hl] at hh; cases hh
      | panic w => rw [hl] at hh; cases hh
      | hang =>
        obtain ⟨ts, l, h1, h2, h3 | h3⟩ := lexLoop_hangs _ _ _ _ hl
        · exact absurd h3 (C01_scan_returns hcl h1)
        · have := C01_bound hcl h1 h2
          omega

/-- **C95**: on any other file it does not exit, except by panicking. -/
theorem C95_lex_stuck {n : Nat} {f : Bytes} {src : Bytes} {e} (hc : ¬ Clean src)
    (h : Traces (lexMain n [f]) [⟨Op.readFile f, Except.ok src⟩] e) : exitStatus e = none ∨ exitStatus e = some 2 := by
  rcases withSource_traces h with rfl | ⟨h1, h2, rfl⟩ | ⟨f', hf, ⟨h1, rfl⟩ | ⟨src', h1, h2⟩⟩
  · exact .inl rfl
  · cases h2
  · cases h1
  · cases h1
    rcases h2 with ⟨r, hr, rfl⟩ | ⟨w, hw, rfl⟩ | ⟨hh, rfl⟩
    · obtain ⟨ts, t, l, h1, _, h3, _⟩ := C60_lex hr
      exact absurd h3 (C02_malformed_no_eof hc h1 t (by simp))
    · exact .inr rfl
    · exact .inl rfl

/-- **C95**: the exit status of `cddlc parse` is one that the parser explains. -/
theorem C95_parse {text : Msg → Bytes} {lib : JsonLib} {n : Nat} {args : List Bytes} {t e k}
    (h : Traces (parseMain text lib n args) t e) (hk : exitStatus e = some k) : ParseExit lib.float args t k := by
  rcases withSource_traces h with rfl | ⟨h1, rfl, rfl⟩ | ⟨f, hf, ⟨rfl, rfl⟩ | ⟨src, rfl, h2⟩⟩
  · cases hk
  · cases hk; exact .usage h1
  · cases hk; exact .unreadable hf
  · cases hp : parseSource n src with
    | ok res =>
      obtain ⟨r, h1, h3, _⟩ := C61_parse_partial text lib hp
      rcases h2 with ⟨r', hr, rfl⟩ | ⟨w, hw, rfl⟩ | ⟨hh, rfl⟩
      · rw [h1] at hr
        cases hr
        simp only [exitStatus] at hk
        by_cases he : r.err = none
        · rw [if_pos he] at hk
          cases hk
          exact .fine hf hp (h3.mp he)
        · rw [if_neg he] at hk
          cases hk
          exact .deep hf hp (Nat.lt_of_not_le fun hd => he (h3.mpr hd))
      · rw [h1] at hw; cases hw
      · rw [h1] at hh; cases hh
    | panic w =>
      have hc : parseCmd text lib n src = .panic w := by unfold parseCmd; rw [hp]; rfl
      rcases h2 with ⟨r', hr, rfl⟩ | ⟨w, hw, rfl⟩ | ⟨hh, rfl⟩
      · rw [hc] at hr; cases hr
      · cases hk; exact .panics hf hp
      · cases hk
    | hang =>
      have hc : parseCmd text lib n src = .hang := by unfold parseCmd; rw [hp]; rfl
      rcases h2 with ⟨r', hr, rfl⟩ | ⟨w, hw, rfl⟩ | ⟨hh, rfl⟩
      · rw [hc] at hr; cases hr
      · rw [hc] at hw; cases hw
      · cases hk

/-- A source is parsed in one way, however long one waits. -/
theorem parse_det {n m : Nat} {src : Bytes} (h : parseSource n src ≠ .hang) (h' : parseSource m src ≠ .hang) :
    parseSource n src = parseSource m src := by
  rcases Nat.le_total n m with hl | hl
  · exact ((parseSource_le hl).of_ne h).symm
  · exact (parseSource_le hl).of_ne h'

/-- **C95**: the explanations exclude each other. -/
theorem C95_parse_unique {float : FloatVal → Bytes} {args : List Bytes} {t k k'} (h : ParseExit float args t k)
    (h' : ParseExit float args t k') : k = k' := by
  have two : ∀ {n m : Nat} {src : Bytes} {o o'}, parseSource n src = o → parseSource m src = o' → o ≠ .hang →
      o' ≠ .hang → o = o' := by
    intro n m src o o' h1 h2 h3 h4
    subst h1 h2
    exact parse_det h3 h4
  cases h with
  | usage => cases h'; rfl
  | unreadable => cases h'; rfl
  | fine _ h1 h2 =>
    cases h' with
    | fine => rfl
    | deep _ h4 h5 => cases two h1 h4 nofun nofun; omega
    | panics _ h4 => cases two h1 h4 nofun nofun
  | deep _ h1 h2 =>
    cases h' with
    | deep => rfl
    | fine _ h4 h5 => cases two h1 h4 nofun nofun; omega
    | panics _ h4 => cases two h1 h4 nofun nofun
  | panics _ h1 =>
    cases h' with
    | panics => rfl
    | fine _ h4 h5 => cases two h1 h4 nofun nofun
    | deep _ h4 h5 => cases two h1 h4 nofun nofun

/-- **C95**: on a file that is well-formed UTF-8 without U+FFFD, `cddlc parse` exits unless it is killed. -/
theorem C95_parse_exits {text : Msg → Bytes} {lib : JsonLib} {n : Nat} {args : List Bytes} {t e}
    (h : Traces (parseMain text lib n args) t e) (hc : e ≠ .cut)
    (hr : ∀ f src, ⟨Op.readFile f, Except.ok src⟩ ∈ t → Clean src ∧ src.length + 2 ≤ n) :
    (exitStatus e).isSome := by
  rcases withSource_traces h with rfl | ⟨h1, rfl, rfl⟩ | ⟨f, hf, ⟨rfl, rfl⟩ | ⟨src, rfl, h2⟩⟩
  · exact absurd rfl hc
  · rfl
  · rfl
  · rcases h2 with ⟨r, hr, rfl⟩ | ⟨w, hw, rfl⟩ | ⟨hh, rfl⟩
    · rfl
    · rfl
    · obtain ⟨hcl, hn⟩ := hr f src (by simp)
      obtain ⟨o, h1, h2⟩ := C15_terminates (env := Env.new) hcl
      cases o with
      | ok res =>
        obtain ⟨r, h3, _⟩ := C61_parse_partial text lib (h2 n hn)
        rw [h3] at hh; cases hh
      | panic w =>
        unfold parseCmd at hh
        rw [h2 n hn] at hh; cases hh
      | hang => exact absurd rfl h1

/-! ### C96 -/

/-- **C96** (partial): as long as the file has at most 4998 bytes and the parser does not panic, `cddlc parse`
exits with status 0, and writes to standard error exactly if the parser reports something. What is missing:
a status that says so (`C96_refuted`). -/
theorem C96_stderr_partial {text : Msg → Bytes} {lib : JsonLib} {n : Nat} {f src : Bytes} {res e}
    (h : Traces (parseMain text lib n [f]) [⟨Op.readFile f, Except.ok src⟩] e) (hc : e ≠ .cut)
    (hp : parseSource n src = .ok res) (hl : src.length ≤ 4998) :
    ∃ r, e = .done r ∧ exitStatus e = some 0 ∧ (r.stderr = [] ↔ res.errs = []) := by
  rcases withSource_traces h with rfl | ⟨h1, h2, rfl⟩ | ⟨f', hf, ⟨h1, rfl⟩ | ⟨src', h1, h2⟩⟩
  · exact absurd rfl hc
  · cases h2
  · cases h1
  · cases h1
    obtain ⟨r, h1, h3, _, h4⟩ := C61_parse_partial text lib hp
    obtain ⟨r', h5, h6⟩ := C61_short text lib hp hl
    rcases h2 with ⟨r'', hr, rfl⟩ | ⟨w, hw, rfl⟩ | ⟨hh, rfl⟩
    · rw [h1] at hr h5
      cases hr; cases h5
      refine ⟨r, rfl, by simp [exitStatus, h6], ?_⟩
      rw [h4]
      split <;> simp_all
    · rw [h1] at hw; cases hw
    · rw [h1] at hh; cases hh

omit [Unicode] in
/-- **C96 is false as stated**: `cddlc parse` exits with status 0 on a file with five errors. -/
theorem C96_refuted (text : Msg → Bytes) (lib : JsonLib) (f : Bytes) : letI := asciiOnly;
    ∃ res r, parseSource 30 demoE = .ok res ∧ res.errs.length = 5 ∧
      Traces (parseMain text lib 30 [f]) [⟨.readFile f, .ok demoE⟩] (.done r) ∧ exitStatus (.done r) = some 0 := by
  letI := asciiOnly
  obtain ⟨res, rules, h1, _, h3⟩ := demoE_parse
  obtain ⟨r, h4, h5⟩ := C61_short text lib h1 (by decide +kernel)
  have h6 := congrArg List.length h3
  refine ⟨res, r, h1, by simpa using h6, ?_, by simp [exitStatus, h5]⟩
  refine .op (o := .readFile f) (Except.ok demoE) ?_
  show Traces (Prog.of (parseCmd text lib 30 demoE)) [] _
  rw [h4]
  exact .ret

/-! ### Examples -/

omit [Unicode] in
/-- All the ways out of `cddlc lex` are taken: on `a`, on `a %`, on a quote at the end of a line, without
arguments, and with a file that cannot be read. -/
example : letI := asciiOnly;
    LexExit [b!"f"] [⟨.readFile b!"f", .ok b!"a"⟩] 0 ∧ LexExit [b!"f"] [⟨.readFile b!"f", .ok b!"a %"⟩] 1 ∧
    LexExit [b!"f"] [⟨.readFile b!"f", .ok b!"\"\n"⟩] 2 ∧ LexExit [] [] 1 ∧
    LexExit [b!"f"] [⟨.readFile b!"f", .error ()⟩] 1 := by
  letI := asciiOnly
  refine ⟨?_, ?_, ?_, .usage (by simp), .unreadable rfl⟩
  · exact .fine (ts := [⟨.IDENT, ⟨0, 1, 1, []⟩, b!"a"⟩]) (t := ⟨.EOF, ⟨1, 1, 2, []⟩, []⟩) rfl
      (scanList_scans (n := 2) rfl) rfl (by simp)
  · exact .illegal (ts := [⟨.IDENT, ⟨0, 1, 1, []⟩, b!"a"⟩, ⟨.ILLEGAL, ⟨2, 1, 3, []⟩, b!"%"⟩]) (t := ⟨.EOF, ⟨3, 1, 4, []⟩, []⟩)
      (u := ⟨.ILLEGAL, ⟨2, 1, 3, []⟩, b!"%"⟩) rfl (scanList_scans (n := 3) rfl) rfl (by simp) rfl
  · exact .panics (ts := []) (w := .sliceBounds) rfl (.nil _) rfl

omit [Unicode] in
/-- All the ways out of `cddlc parse` are taken on files: by a schema with errors, by a tree that is too deep
(`C61_refuted`), and by a panic. -/
example (float : FloatVal → Bytes) : letI := asciiOnly;
    ParseExit float [b!"f"] [⟨.readFile b!"f", .ok demoE⟩] 0 ∧
    (∃ src, ParseExit float [b!"f"] [⟨.readFile b!"f", .ok src⟩] 1) ∧
    ParseExit float [b!"f"] [⟨.readFile b!"f", .ok b!"a = uint .bits"⟩] 2 := by
  letI := asciiOnly
  refine ⟨?_, ?_, ?_⟩
  · obtain ⟨res, rules, h1, _⟩ := demoE_parse
    have hb := C61_short (fun _ => []) ⟨float, true, fun _ => []⟩ h1 (by decide +kernel)
    obtain ⟨r, h2, h3⟩ := hb
    obtain ⟨r', h4, h5, _⟩ := C61_parse_partial (fun _ => []) ⟨float, true, fun _ => []⟩ h1
    rw [h2] at h4
    cases h4
    exact .fine rfl h1 (h5.mp h3)
  · obtain ⟨src, N, h⟩ := C61_refuted (fun _ => []) ⟨float, true, fun _ => []⟩
    obtain ⟨res, r, h1, _, _, h2, h3⟩ := h N (Nat.le_refl _)
    obtain ⟨r', h4, h5, _⟩ := C61_parse_partial (fun _ => []) ⟨float, true, fun _ => []⟩ h1
    rw [h2] at h4
    cases h4
    exact ⟨src, .deep rfl h1 (Nat.lt_of_not_le fun hd => h3 (h5.mpr hd))⟩
  · obtain ⟨_, h⟩ := C16_refuted b!"a = uint .bits" (by simp)
    obtain ⟨w, h⟩ := h 30 (Nat.le_refl _)
    exact .panics rfl h

end Cddlc
