import Verif.Lemmas.Term
import Verif.Lemmas.FileFacts
import Verif.Lemmas.Fuel

/-! `ParseFile` terminates on clean sources and does not panic on safe ones. -/

namespace Cddlc
open Spec
variable [Unicode]

namespace PState
variable {s : Prop} {l : Lexer} {k n : Nat} {p : PState}

theorem st_congr {p q : PState} (h : St l k p) (h1 : q.lx = p.lx) (h2 : q.curTok = p.curTok)
    (h3 : q.peekTok = p.peekTok) : St l k q := by
  obtain ⟨⟨ts, hs⟩, cs, done, r, hl⟩ := h
  refine ⟨⟨ts, synced_congr hs h1 h2 h3⟩, cs, done, r, ?_⟩
  unfold curTok at h2
  unfold peekTok at h3
  simp only [Token.mk.injEq] at h2 h3
  rw [h1, h2.1, h2.2.2, h3.1, h3.2.2]
  exact hl

theorem ruleTrailing_tot (hs : s → Tame l) (h : St l k p) :
    (ruleTrailing p).tot s (fun r => St l k r.2 ∧ Reach p r.2) := by
  refine Out.tot.and ?_ (ruleTrailing_step.mono fun r hr => ruleTrail_reach hr)
  unfold ruleTrailing
  split
  · refine (next_tot hs h).bind ?_
    rintro q ⟨hq, _⟩
    refine (next_tot hs hq).bind ?_
    rintro r ⟨hr, _⟩
    exact .ok hr
  · exact .ok h

theorem declare_tot {name : Ident} {x : Node} (h : St l k p)
    (hd : s → p.env.exists? name.name = true → ∃ pos, (p.env.get name.name).start = .ok pos) :
    (declare name x p).tot s (fun q => St l k q) := by
  unfold declare
  cases hadd : p.env.add name.name x with
  | mk env b =>
    cases b with
    | false => exact .ok (st_congr h rfl rfl rfl)
    | true =>
      have hex : p.env.exists? name.name = true := by
        unfold Env.add at hadd
        split at hadd
        · assumption
        · cases hadd
      refine Out.tot.bind (P := fun _ => True) ⟨start_ne_hang _, fun hsx w => ?_, Out.wp_true⟩
        fun _ _ => .ok (st_congr h rfl rfl rfl)
      obtain ⟨pos, hpos⟩ := hd hsx hex
      rw [env_add_true hadd, hpos]; nofun

/-- What holds after a rule: something was read, or something is left to read; and the value of a rule has
a start. -/
def RulePost (l : Lexer) (k : Nat) (r : Node × Option Diag × PState) : Prop :=
  ((St l k r.2.2 ∧ r.2.2.cur ≠ .EOF) ∨ ∃ j, j < k ∧ St l j r.2.2) ∧
  (Comparable l → r.2.1 = none → ∀ pos name x tc, r.1 = .rule pos name x tc → HasStart x)

theorem parseRule_tot (hs : s → Tame l) (h : St l k p) (hk : k + 2 ≤ n) (hcur : p.cur ≠ .EOF)
    (hd : s → ∀ q, p.cur = .IDENT → p.next = .ok q → q.cur = .ASSIGN → p.env.exists? p.lit = true →
      ∃ pos, (p.env.get p.lit).start = .ok pos) :
    (parseRule n p).tot s (RulePost l k) := by
  have choice : ∀ {j p1} {t : Tok} {name : Ident}, St l j p1 → p1.cur = t → j + 1 = k → t ≠ .EOF →
      (do
        let p2 ← p1.next
        let (entry, err, p3) ← parseEntry n 0 p2
        match err with
        | some e => .ok (.rule {} name .nil none, some e, p3)
        | none => do
          let (tc, p4) ← p3.ruleTrailing
          .ok (.rule {} name entry tc, none, p4) : PRes).tot s (RulePost l k) := by
    rintro j p1 t name hj ht rfl hne
    refine (next_tot hs hj).bind ?_
    rintro p2 ⟨_, _, h2⟩
    obtain ⟨i, rfl, hi⟩ := h2 (by rw [ht]; exact hne)
    refine (parseEntry_tot hs n i 0 p2 (by omega) hi (Or.inl rfl)).bind ?_
    rintro ⟨x, e, p3⟩ ⟨hp3, _⟩
    dsimp only
    cases e with
    | some d => exact .ok ⟨Or.inr ⟨i, by omega, hp3.1⟩, nofun⟩
    | none =>
      refine (ruleTrailing_tot hs hp3.1).bind ?_
      rintro ⟨tc, p4⟩ ⟨hp4, _⟩
      exact .ok ⟨Or.inr ⟨i, by omega, hp4⟩, fun hc _ _ _ _ _ h => by cases h; exact (hp3.2 rfl).2.2 hc⟩
  unfold parseRule
  split
  · rename_i hc
    refine ((parseComment_tot hs h (by omega) hc).and parseComment_der).mono ?_
    rintro r ⟨⟨h1, h2⟩, _, cs, _, h3⟩
    exact ⟨Or.inl ⟨h1.1, by rw [h2]; simp⟩, fun _ _ _ _ _ _ h => by
      rw [h3] at h; cases cs <;> cases h⟩
  · rename_i hc
    refine ((next_tot hs h).and fun q hq => hq).bind ?_
    rintro p1 ⟨⟨_, _, h1⟩, hn1⟩
    obtain ⟨j, rfl, hj⟩ := h1 hcur
    dsimp only
    split
    · rename_i ha
      refine ((nextEntry_tot' hs (parseEntry_tot hs n) hj (by omega) (by rw [ha]; simp)).and
        (nextEntry_reach (parseEntry_reach n) (.refl p1))).bind ?_
      rintro ⟨x, e, p3⟩ ⟨hp3, hr3⟩
      dsimp only
      split
      · exact .ok ⟨Or.inr ⟨j, by omega, hp3.1⟩, nofun⟩
      · refine (ruleTrailing_tot hs hp3.1).bind ?_
        rintro ⟨tc, p4⟩ ⟨hp4, hr4⟩
        dsimp only at hp4 hr4 ⊢
        have henv : p4.env = p.env :=
          (hr3.trans hr4).frame.1.trans (next_fields hn1).2.2.2.1
        refine (declare_tot hp4 ?_).bind fun q hq =>
          .ok ⟨Or.inr ⟨j, by omega, hq⟩, fun hc _ _ _ _ _ h => by cases h; exact (hp3.2 rfl).2.2 hc⟩
        intro hsx hex
        rw [henv] at hex ⊢
        exact hd hsx p1 hc hn1 ha hex
    · rename_i ha
      exact choice hj ha rfl nofun
    · rename_i ha
      exact choice hj ha rfl nofun
    · exact .ok ⟨Or.inr ⟨j, by omega, hj⟩, nofun⟩
  · exact .ok ⟨Or.inl ⟨h, hcur⟩, nofun⟩

/-! ### The file -/

/-- What is bound has a start, or there are comparisons and it was declared (once) before the `m`-th token. -/
def EnvOK (l : Lexer) (m : Nat) (env : Env) : Prop := ∀ k, env.exists? k = true →
  (∃ pos, (env.get k).start = .ok pos) ∨
  (¬ Comparable l ∧ DeclaredOnce l ∧ ∃ ts pos a l', ts.length < m ∧
    Scans l (ts ++ [⟨.IDENT, pos, k⟩, a]) l' ∧ a.tok = .ASSIGN)

theorem EnvOK.mono {m m' : Nat} {env : Env} (h : EnvOK l m env) (hm : m ≤ m') : EnvOK l m' env := by
  intro k hk
  rcases h k hk with h | ⟨h', h, ts, pos, a, l', h1, h2⟩
  · exact Or.inl h
  · exact Or.inr ⟨h', h, ts, pos, a, l', by omega, h2⟩

theorem envOK_start {src : Bytes} (hc : Clean src) {ts} (hp : Synced (Lexer.new src) ts p)
    (h : EnvOK (Lexer.new src) ts.length p.env) {q} (hcur : p.cur = .IDENT) (hn : p.next = .ok q)
    (ha : q.cur = .ASSIGN) (hex : p.env.exists? p.lit = true) :
    ∃ pos, (p.env.get p.lit).start = .ok pos := by
  rcases h _ hex with h | ⟨_, ho, us, pos, a, l', h1, h2, h3⟩
  · exact h
  · exfalso
    have hpk : p.peek = .ASSIGN := (next_cur hn).symm.trans ha
    have hpos := ho ⟨pos, p.lit⟩ ⟨p.pos, p.lit⟩ ⟨us, a, l', h2, h3⟩
      ⟨ts, p.peekTok, p.lx, by unfold Synced at hp; simpa [curTok, hcur] using hp, hpk⟩ rfl
    dsimp only at hpos
    have split : ∀ {ts a b l}, Scans (Lexer.new src) (ts ++ [a, b]) l →
        ∃ m, Scans (Lexer.new src) (ts ++ [a]) m := by
      intro ts a b l h
      have : Scans (Lexer.new src) ((ts ++ [a]) ++ [b]) l := by simpa using h
      obtain ⟨m, hm, _⟩ := scans_split this
      exact ⟨m, hm⟩
    obtain ⟨m1, g1⟩ := split h2
    obtain ⟨m2, g2⟩ := split hp
    have := offset_lt hc g1 g2 h1 (by simp) (by simp [curTok, hcur])
    simp only [curTok, hpos] at this
    omega

theorem round_env {e err q ts} (hp : Synced l ts p) (h : RuleStep p e err q)
    (hx : Comparable l → err = none → ∀ pos name x tc, e = .rule pos name x tc → HasStart x)
    (hw : Comparable l ∨ DeclaredOnce l) (hj : EnvOK l ts.length p.env) :
    EnvOK l (ts.length + 1) q.env := by
  have same : q.env = p.env → EnvOK l (ts.length + 1) q.env := by
    intro h; rw [h]; exact hj.mono (by omega)
  cases h with
  | comment _ h => exact same (comments_reach h).frame.1
  | @bound p1 p2 p3 p4 x tc env hcur h1 ha h2 hd ht hadd =>
    have hr := (Reach.step h1 (.step h2 ((der_reach hd).trans (ruleTrail_reach ht)))).frame.1
    rw [hr] at hadd
    unfold Env.add at hadd
    split at hadd
    · cases hadd
    · cases hadd
      intro k hk
      by_cases hkk : p.lit = k
      · subst hkk
        by_cases hcx : Comparable l
        · left
          obtain ⟨pos, hpos⟩ := hx hcx rfl _ _ _ _ rfl
          exact ⟨pos, by simp [Env.get, assocFind, hpos]⟩
        · right
          refine ⟨hcx, hw.resolve_left hcx, ts, p.pos, p.peekTok, p.lx, by omega, ?_, (next_cur h1).symm.trans ha⟩
          unfold Synced at hp; simpa [curTok, hcur] using hp
      · have := hj.mono (Nat.le_succ _) k (by simpa [Env.exists?, assocFind, hkk] using hk)
        simpa [Env.get, assocFind, hkk] using this
  | @dup p1 p2 p3 p4 x tc env s hcur h1 ha h2 hd ht hadd hs =>
    exact same (Reach.step h1 (.step h2 ((der_reach hd).trans (ruleTrail_reach ht)))).frame.1
  | choice _ h1 _ h2 hd ht =>
    exact same (Reach.step h1 (.step h2 ((der_reach hd).trans (ruleTrail_reach ht)))).frame.1
  | failed _ h1 _ h2 _ hp' =>
    exact same (Reach.step h1 (.step h2 (parseEntry_reach _ _ _ _ hp'))).frame.1
  | noAssign _ h1 => exact same (next_fields h1).2.2.2.1
  | noIdent => exact same rfl

theorem fileLoop_tot {src : Bytes} (hc : Clean src) (hs : s → Safe (Lexer.new src)) {ts}
    (h : St (Lexer.new src) k p) (hp : Synced (Lexer.new src) ts p) (hk : k + 2 ≤ n)
    (hj : s → EnvOK (Lexer.new src) ts.length p.env) (acc : List Node) :
    (loopOut (fileStep n) n (acc, p)).tot s (fun r => s → ∃ m, EnvOK (Lexer.new src) m r.2.env) := by
  have hst : s → Tame (Lexer.new src) := fun h => (hs h).1
  refine loopOut_tot (I := fun j (x : List Node × PState) => St (Lexer.new src) j x.2 ∧ j ≤ k ∧
    ∃ ts, Synced (Lexer.new src) ts x.2 ∧ (s → EnvOK (Lexer.new src) ts.length x.2.env)) ?_ k n _
    ⟨h, Nat.le_refl _, ts, hp, hj⟩ (by omega)
  clear h hp hj
  rintro j ⟨acc, p⟩ ⟨h, hjk, ts, hp, hj⟩
  dsimp only at h hp hj
  unfold fileStep
  dsimp only
  split
  · exact .ok fun hsx => ⟨_, hj hsx⟩
  · rename_i hcur
    refine ((parseRule_tot hst h (n := n) (by omega) hcur fun hsx q h1 h2 h3 h4 =>
      envOK_start hc hp (hj hsx) h1 h2 h3 h4).and parseRule_step).bind ?_
    rintro ⟨e, err, q⟩ ⟨hq, hstep⟩
    dsimp only at hq hstep ⊢
    change (do
      let p2 ← (q.record err).next
      .ok (Sum.inl (if e.isNil = true then acc else acc ++ [e], p2))).tot s _
    have hf := record_fields q err
    have hq' : ∃ i, i ≤ j ∧ St (Lexer.new src) i (q.record err) ∧
        ((q.record err).cur = .EOF → i < j) := by
      rcases hq.1 with ⟨h1, h2⟩ | ⟨i, h1, h2⟩
      · refine ⟨j, Nat.le_refl _, st_congr h1 hf.2.1 hf.2.2.1 hf.2.2.2.1, fun he => absurd ?_ h2⟩
        have := hf.2.2.1
        unfold curTok at this
        simp only [Token.mk.injEq] at this
        rw [← this.1]; exact he
      · exact ⟨i, by omega, st_congr h2 hf.2.1 hf.2.2.1 hf.2.2.2.1, fun _ => h1⟩
    obtain ⟨i, hij, hi, hlt⟩ := hq'
    refine ((next_tot hst hi).and fun r hr => hr).bind ?_
    rintro r ⟨⟨hr1, _, hr2⟩, hr3⟩
    obtain ⟨_, ext, hext, hsy⟩ := round_reach hp hstep hr3
    have hlen : ts.length + 1 ≤ (ts ++ ext).length := by
      have := List.length_pos_iff.mpr hext
      rw [List.length_append]; omega
    have henv : r.env = q.env := (next_fields hr3).2.2.2.1.trans hf.2.2.2.2.1
    have hE : s → EnvOK (Lexer.new src) (ts ++ ext).length r.env := by
      intro hsx
      rw [henv]
      exact (round_env hp hstep hq.2 (hs hsx).2 (hj hsx)).mono hlen
    by_cases hce : (q.record err).cur = .EOF
    · exact .ok ⟨i, hlt hce, hr1, by omega, _, hsy, hE⟩
    · obtain ⟨m, rfl, hm⟩ := hr2 hce
      exact .ok ⟨m, by omega, hm, by omega, _, hsy, hE⟩

end PState

/-- `NewParser` and `ParseFile` on a clean source. Unless there are comparisons, what is bound afterwards has
a start. -/
theorem parseSource_tot {s : Prop} {src : Bytes} {env : Env} (hc : Clean src)
    (hs : s → Safe (Lexer.new src))
    (henv : s → ∀ k, env.exists? k = true → ∃ pos, (env.get k).start = .ok pos) {n : Nat}
    (hn : src.length + 2 ≤ n) : (parseSource n src env).tot s (fun res => s → Comparable (Lexer.new src) →
      ∀ k, res.final.env.exists? k = true → ∃ pos, (res.final.env.get k).start = .ok pos) := by
  obtain ⟨cs, hg, rfl⟩ := id hc
  have hlen : cs.length ≤ (enc cs).length := by
    clear hc hs hn hg
    induction cs with
    | nil => simp
    | cons c cs ih =>
      have := encChar_length_pos c
      simp only [enc, List.flatMap_cons, List.length_append, List.length_cons] at ih ⊢
      omega
  have hnew : (PState.new (Lexer.new (enc cs)) env).tot s (fun p => Left cs.length p) := by
    unfold PState.new
    dsimp only
    generalize hp0 : (⟨Lexer.new (enc cs), [], {}, {}, .ILLEGAL, .ILLEGAL, [], [], env, []⟩ : PState) = p0
    have h0 : Left (cs.length + 2) p0 := by
      subst hp0
      exact ⟨cs, [], cs, Lexer.clean_new hg, nofun, nofun, by simp [cnt]; omega, nofun, nofun⟩
    have step : ∀ {k : Nat} {p : PState} {ts}, Left k p → Scans (Lexer.new (enc cs)) ts p.lx →
        p.next.tot s (fun q => Left k q ∧ p.next = .ok q) := by
      intro k p ts hl hsc
      refine ⟨?_, ?_, fun q hq => ⟨(next_left hl hq).1, hq⟩⟩
      · obtain ⟨_, _, _, h1, _⟩ := hl
        have := Lexer.clean_not_hang h1
        unfold PState.next
        cases hx : p.lx.scan with
        | ok r => nofun
        | panic w => nofun
        | hang => exact absurd hx this
      · intro hsx w
        have := (hs hsx).1.scan _ _ hsc
        unfold PState.next
        cases hx : p.lx.scan with
        | ok r => nofun
        | panic w' => exact absurd hx (this w')
        | hang => nofun
    have hsc0 : Scans (Lexer.new (enc cs)) [] p0.lx := by subst hp0; exact .nil _
    have hc0 : p0.cur ≠ .EOF ∧ p0.peek ≠ .EOF := by subst hp0; exact ⟨nofun, nofun⟩
    refine (step h0 hsc0).bind ?_
    rintro p1 ⟨_, hn1⟩
    obtain ⟨j, hj, h1⟩ := (next_left h0 hn1).2 hc0.1
    have hsc1 := scans_push hsc0 (next_fields hn1).2.2.2.2.2.2
    refine (step h1 hsc1).mono ?_
    rintro p ⟨_, hn2⟩
    obtain ⟨i, hi, h2⟩ := (next_left h1 hn2).2 (by rw [next_cur hn1]; exact hc0.2)
    have : i = cs.length := by omega
    exact this ▸ h2
  unfold parseSource
  refine (hnew.and PState.new_synced).bind ?_
  rintro p ⟨hl, hsy, he, _⟩
  unfold PState.parseFile
  split
  · exact .ok fun hsx _ => by rw [he]; exact henv hsx
  · refine (PState.fileLoop_tot hc hs ⟨⟨[], hsy⟩, hl⟩ hsy (by omega) ?_ []).bind fun r hr => .ok fun hsx hc k hk => ?_
    · intro hsx k hk
      rw [he] at hk ⊢
      exact Or.inl (henv hsx k hk)
    · obtain ⟨m, hm⟩ := hr hsx
      rcases hm k hk with h | ⟨h, _⟩
      · exact h
      · exact absurd hc h

end Cddlc
