import Verif.Lemmas.Errs

/-! The diagnostics of a whole file. -/

namespace Cddlc
open Spec PState
variable [Unicode] {l : Lexer}

theorem occHead_onT {p q : PState} {m} (h : OccHead p m q) (hp : OnT l p) : OnT l q := by
  cases h with
  | none _ h => exact hp.next h
  | some _ _ h => exact hp.next h

theorem tagHead_onT {p q : PState} {a b} (h : TagHead p a b q) (hp : OnT l p) : OnT l q := by
  cases h with
  | none => exact hp
  | major _ h => exact hp.next h
  | both _ h => exact hp.next h

theorem trail_onT {p q : PState} {t} (h : Trail p t q) (hp : OnT l p) : OnT l q := by
  cases h with
  | none => exact hp
  | some _ _ h => exact hp.next h

theorem ruleTrail_onT {p q : PState} {t} (h : RuleTrail p t q) (hp : OnT l p) : OnT l q := by
  cases h with
  | none => exact hp
  | some _ _ h h' => exact (hp.next h).next h'

theorem der_onT {b} {p q : PState} {xs} (h : Der b p xs q) : OnT l p → OnT l q := by
  induction h with
  | nil => exact id
  | cons _ hn _ ih1 ih2 => exact fun h => ih2 ((ih1 h).next hn)
  | skip _ hc hn _ ih => exact fun h => ih ((comments_onT hc h).next hn)
  | leaf => exact id
  | ref hc => exact fun h => h.task (by have := h.1.tk; rw [hc] at this; exact this)
  | socket => exact id
  | field _ _ hn hn' _ ht ih => exact fun h => trail_onT ht (ih ((h.next hn).next hn'))
  | group _ hn _ _ ih => exact fun h => ih (h.next hn)
  | array _ hn _ _ ih => exact fun h => ih (h.next hn)
  | map _ hn _ _ ih => exact fun h => ih (h.next hn)
  | optional _ hn _ ih => exact fun h => ih (h.next hn)
  | unwrap _ hn _ ih => exact fun h => ih (h.next hn)
  | enumeration _ hn _ ih => exact fun h => ih (h.next hn)
  | occ0 _ ho _ ih => exact fun h => ih (occHead_onT ho h)
  | occ1 _ ho _ ih => exact fun h => ih (occHead_onT ho h)
  | tag _ ht _ => exact tagHead_onT ht
  | tagItem _ ht _ hn hn' _ hc ih =>
    intro h
    have := ih (((tagHead_onT ht h).next hn).next hn')
    rcases hc with ⟨_, rfl⟩ | ⟨_, hc⟩
    · exact this
    · exact this.next hc
  | colon _ _ hn _ hn' _ ht ih1 ih2 => exact fun h => trail_onT ht (ih2 (((ih1 h).next hn).next hn'))
  | comma _ _ hn ih => exact fun h => (ih h).next hn
  | choice _ _ hn hn' _ ih1 ih2 => exact fun h => ih2 (((ih1 h).next hn).next hn')
  | size _ _ hn _ hn' _ ih1 ih2 => exact fun h => ih2 (((ih1 h).next hn).next hn')
  | regexp _ _ hn _ hn' _ ih1 ih2 => exact fun h => ih2 (((ih1 h).next hn).next hn')
  | bits _ _ hn hn' _ ih1 ih2 => exact fun h => ih2 (((ih1 h).next hn).next hn')
  | compare _ _ hn _ hn' _ ih1 ih2 => exact fun h => ih2 (((ih1 h).next hn).next hn')
  | occ _ _ hn _ ho _ ih1 ih2 => exact fun h => ih2 (occHead_onT ho ((ih1 h).next hn))
  | rangeEmpty _ _ hn _ _ _ ih => exact fun h => (ih h).next hn
  | rangeIdent h1 hb hn hn' h2 ih1 ih2 =>
    intro h
    have hq := ((ih1 h).next hn).next hn'
    refine (ih2 hq).task ⟨by rw [next_cur hn]; exact hb, (der_good h1 h.1 _ (List.mem_singleton.mpr rfl)).self, fun i hi => ?_⟩
    subst hi
    exact (der_good h2 hq.1 _ (List.mem_singleton.mpr rfl)).self
  | rangeInt _ _ hn hn' _ ih1 ih2 => exact fun h => ih2 (((ih1 h).next hn).next hn')
  | rangeIntIdent _ _ hn hn' h2 ih1 ih2 =>
    intro h
    have hq := ((ih1 h).next hn).next hn'
    exact (ih2 hq).task (der_good h2 hq.1 _ (List.mem_singleton.mpr rfl)).self
  | rangeIntOther _ _ hn hn' _ _ _ _ ih1 ih2 => exact fun h => ih2 (((ih1 h).next hn).next hn')
  | rangeFloat _ _ hn hn' _ ih1 ih2 => exact fun h => ih2 (((ih1 h).next hn).next hn')
  | rangeFloatIdent _ _ hn hn' h2 ih1 ih2 =>
    intro h
    have hq := ((ih1 h).next hn).next hn'
    exact (ih2 hq).task (der_good h2 hq.1 _ (List.mem_singleton.mpr rfl)).self
  | rangeFloatOther _ _ hn hn' _ _ _ _ ih1 ih2 => exact fun h => ih2 (((ih1 h).next hn).next hn')

/-- What is bound stays bound. -/
def Kept (a b : Env) : Prop := ∀ k, a.exists? k = true → b.exists? k = true ∧ b.get k = a.get k

omit [Unicode] in
theorem kept_add {a b : Env} {k v} (h : a.add k v = (b, false)) : Kept a b := by
  unfold Env.add at h
  split at h
  · cases h
  · rename_i hk
    cases h
    intro k' hk'
    have hne : k ≠ k' := by rintro rfl; exact hk hk'
    unfold Env.exists? Env.get at *
    simp only [assocFind, if_neg hne]
    exact ⟨hk', trivial⟩

theorem redeclared_kept {a b : Env} (h : Kept a b) {d} : Redeclared l a d → Redeclared l b d := by
  rintro ⟨k, s, h1, h2, h3, h4, h5⟩
  obtain ⟨h6, h7⟩ := h k h4
  exact ⟨k, s, h1, h2, h3, h6, by rw [h7]; exact h5⟩

/-- The parser is on the tokens of `l`, and so are the deferred checks and the diagnostics. -/
def Sound (l : Lexer) (p : PState) : Prop := OnT l p ∧ ∀ d ∈ p.errors, DiagOK l d ∨ Redeclared l p.env d

theorem Sound.immediate {p : PState} (h : Sound l p) : ∀ d ∈ p.errors, onlyDeferred d.msg = false := by
  intro d hd
  rcases h.2 d hd with h | ⟨k, s, h, _⟩
  · exact h.2.1
  · rw [h]; rfl

theorem reach_sound {p q : PState} (h : Sound l p) (hr : Reach p q) (hq : OnT l q) : Sound l q :=
  ⟨hq, by rw [hr.frame.2.1, hr.frame.1]; exact h.2⟩

theorem Sound.add {p : PState} {d} (h : Sound l p) (hd : DiagOK l d ∨ Redeclared l p.env d) : Sound l (p.addError d) :=
  ⟨⟨h.1.1, h.1.2⟩, fun e he => by
    rcases List.mem_append.mp he with he | he
    · exact h.2 e he
    · rw [List.mem_singleton.mp he]; exact hd⟩

theorem Sound.err {p : PState} {d} (h : Sound l p) (hd : DiagOK l d) : Sound l (p.addError d) :=
  h.add (Or.inl hd)

theorem Sound.next {p q : PState} (h : Sound l p) (hn : p.next = .ok q) : Sound l q :=
  reach_sound h (.next (.refl _) hn) (h.1.next hn)

theorem ruleStep_sound {p q : PState} {e err} (hp : Sound l p) (he : p.cur ≠ .EOF) (h : RuleStep p e err q) :
    Sound l (q.record err) := by
  cases h with
  | comment _ h => exact reach_sound hp (comments_reach h) (comments_onT h hp.1)
  | bound _ h1 _ h2 hd ht hadd =>
    have := reach_sound hp (.step h1 (.step h2 ((der_reach hd).trans (ruleTrail_reach ht))))
      (ruleTrail_onT ht (der_onT hd ((hp.1.next h1).next h2)))
    exact ⟨⟨this.1.1, this.1.2⟩, fun d hd => (this.2 d hd).imp_right (redeclared_kept (kept_add hadd))⟩
  | dup hc h1 ha h2 hd ht hadd hs =>
    have := reach_sound hp (.step h1 (.step h2 ((der_reach hd).trans (ruleTrail_reach ht))))
      (ruleTrail_onT ht (der_onT hd ((hp.1.next h1).next h2)))
    refine this.add (Or.inr ⟨_, _, rfl, rfl, ?_, ?_, hs⟩)
    · obtain ⟨ts, l', hf⟩ := hp.1.followed h1
      rw [hc] at hf
      exact ⟨ts, _, l', hf, ha⟩
    · unfold Env.add at hadd
      split at hadd
      · assumption
      · cases hadd
  | choice _ h1 _ h2 hd ht =>
    exact reach_sound hp (.step h1 (.step h2 ((der_reach hd).trans (ruleTrail_reach ht))))
      (ruleTrail_onT ht (der_onT hd ((hp.1.next h1).next h2)))
  | @failed p1 p2 q n prec y d _ h1 _ h2 hprec hpe =>
    have hE := parseEntry_err (l := l) n prec p2 hprec ((hp.1.next h1).next h2) _ hpe
    exact (reach_sound hp (.step h1 (.step h2 (parseEntry_reach n prec p2 _ hpe))) hE.2.2).err (hE.2.1 _ rfl)
  | noAssign hc h1 ha ht hg =>
    have hf := hp.1.followed h1
    rw [hc] at hf
    exact (hp.next h1).err ⟨hp.1.atCur, rfl, rfl, _, hf, ha, ht, hg⟩
  | noIdent hc hi => exact hp.err ⟨hp.1.atCur, rfl, rfl, rfl, _, hp.1.1.tkAt, hi, hc, he⟩

theorem run_sound {p q : PState} {rules} (h : FileRun p rules q) : Sound l p → Sound l q := by
  induction h with
  | stop => exact id
  | step he hst hn _ ih => exact fun hp => ih ((ruleStep_sound hp he hst).next hn)

/-- What a deferred check can report. -/
theorem runTask_diag {env : Env} {t : Task} {d : Diag} (ht : TaskOK l t)
    (h : PState.runTask env t = some d) : CheckDiag l env d := by
  unfold PState.runTask at h
  split at h
  · split at h
    · cases h
    · rename_i hx
      cases h
      exact ⟨_, ht, rfl, by simpa using hx⟩
  · split at h
    · dsimp only at h
      split at h
      · cases h
      · rename_i hk
        cases h; exact ⟨_, ht.2.1, rfl, ht.2.2 _ rfl, hk, rfl, rfl, ht.1⟩
    · cases h
  all_goals
    split at h
    · rename_i hx
      cases h
      exact ⟨_, ht, rfl, by simpa using hx⟩
    · rename_i hx
      split at h
      · cases h
      · rename_i hk
        cases h; exact ⟨_, ht, hk⟩
      · rename_i hk hk'
        cases h; exact ⟨_, ht, by simpa using hx,
          by first | simpa using hk | simpa using hk', by first | simpa using hk' | simpa using hk⟩

end Cddlc
