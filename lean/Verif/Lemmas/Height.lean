import Verif.Lemmas.FileFacts
import Verif.Spec.JsonTree

/-! A tree is at most as high as the source is long. -/

namespace Cddlc
open Spec
variable [Unicode]

/-- The parser comes from `p` to `q` by reading `k` tokens. -/
def Reads (p : PState) (k : Nat) (q : PState) : Prop :=
  ∀ l0 ts, Synced l0 ts p → ∃ ext, ext.length = k ∧ Synced l0 (ts ++ ext) q

namespace Reads
variable {p q r : PState} {i k : Nat}

theorem refl (p : PState) : Reads p 0 p := fun _ _ h => ⟨[], rfl, by simpa using h⟩

theorem one (h : p.next = .ok q) : Reads p 1 q := fun _ _ hs => ⟨[p.curTok], rfl, synced_next hs h⟩

theorem trans (h : Reads p i q) (h' : Reads q k r) : Reads p (i + k) r := by
  intro l0 ts hs
  obtain ⟨e, h1, h2⟩ := h l0 ts hs
  obtain ⟨e', h3, h4⟩ := h' l0 _ h2
  exact ⟨e ++ e', by simp [h1, h3], by simpa using h4⟩

theorem task (h : Reads p k q) (t) : Reads p k (q.addTask t) := h

end Reads

variable {p q r : PState}

theorem comments_reads {cs} (h : Comments p cs q) : Reads p cs.length q ∧ (cs ≠ [] → q.cur = .COMMENT) := by
  induction h with
  | stop => exact ⟨.refl _, fun h => absurd rfl h⟩
  | @more p q r cs hc hn hcs ih =>
    refine ⟨by simpa [Nat.add_comm] using (Reads.one hn).trans ih.1, fun _ => ?_⟩
    cases hcs with
    | stop _ => exact (next_cur hn).trans hc
    | more h1 h2 h3 => exact ih.2 nofun

theorem occHead_reads {m} (h : OccHead p m q) : Reads p 1 q := by
  cases h with
  | none _ h => exact .one h
  | some _ _ h => exact .one h

theorem tagHead_reads {a b} (hc : p.cur ≠ .EOF) (h : TagHead p a b q) : (∃ k, Reads p k q) ∧ q.cur ≠ .EOF := by
  cases h with
  | none => exact ⟨⟨_, .refl _⟩, hc⟩
  | major hp h => exact ⟨⟨_, .one h⟩, by rw [next_cur h, hp]; nofun⟩
  | both hp h => exact ⟨⟨_, .one h⟩, by rw [next_cur h, hp]; nofun⟩

theorem trail_reads {t} (hc : p.cur ≠ .EOF) (h : Trail p t q) : (∃ k, Reads p k q) ∧ q.cur ≠ .EOF := by
  cases h with
  | none => exact ⟨⟨_, .refl _⟩, hc⟩
  | some hp _ h => exact ⟨⟨_, .one h⟩, by rw [next_cur h, hp]; nofun⟩

omit [Unicode] in
theorem heightL_filter (f : Node → Bool) : ∀ xs, heightL (xs.filter f) ≤ heightL xs
  | [] => Nat.le_refl _
  | x :: xs => by
    have := heightL_filter f xs
    rw [List.filter_cons]
    split <;> simp only [heightL] <;> omega

omit [Unicode] in
theorem heightL_one (x : Node) : heightL [x] = height x := by simp [heightL]

omit [Unicode] in
theorem leaf_height {x} (h : Leaf p x) : height x = 1 ∧ p.cur ≠ .EOF := by
  cases h <;> (refine ⟨by simp [height], ?_⟩) <;> (intro e; simp_all)

/-- What is said of a derivation: how high its trees are, by the tokens read. -/
def HighBy (b : Bool) (p : PState) (xs : List Node) (q : PState) : Prop :=
  ∃ k, Reads p k q ∧ (if b then heightL xs ≤ k + 1 else q.cur ≠ .EOF ∧ heightL xs ≤ k + 2)

theorem highBy_single {x : Node} : HighBy false p [x] q ↔
    ∃ k, Reads p k q ∧ q.cur ≠ .EOF ∧ height x ≤ k + 2 := by
  simp [HighBy, heightL_one]

theorem der_high {b p xs q} (h : Der b p xs q) : HighBy b p xs q := by
  induction h with
  | nil => exact ⟨0, .refl _, by simp [heightL]⟩
  | cons _ hn _ ih1 ih2 =>
    obtain ⟨i, h1, h2, h3⟩ := highBy_single.mp ih1
    obtain ⟨k, h4, h5⟩ := ih2
    refine ⟨i + 1 + k, (h1.trans (.one hn)).trans h4, ?_⟩
    simp only [if_true, heightL] at h5 ⊢
    omega
  | skip hc hcs hn _ ih =>
    obtain ⟨i, h1, h2, h3⟩ := highBy_single.mp ih
    exact highBy_single.mpr ⟨_, ((comments_reads hcs).1.trans (.one hn)).trans h1, h2, by omega⟩
  | leaf h =>
    exact highBy_single.mpr ⟨0, .refl _, (leaf_height h).2, by rw [(leaf_height h).1]; omega⟩
  | ref h => exact highBy_single.mpr ⟨0, .refl _, by intro e; simp_all [PState.addTask], by simp [height]⟩
  | socket h => exact highBy_single.mpr ⟨0, .refl _, by simp_all, by simp [height]⟩
  | field hc hp hn hn' _ ht ih =>
    obtain ⟨i, h1, h2, h3⟩ := highBy_single.mp ih
    obtain ⟨⟨j, h4⟩, h5⟩ := trail_reads h2 ht
    exact highBy_single.mpr ⟨_, (((Reads.one hn).trans (.one hn')).trans h1).trans h4, h5, by simp only [height]; omega⟩
  | group hc hn _ he ih =>
    obtain ⟨k, h4, h5⟩ := ih
    refine highBy_single.mpr ⟨_, (Reads.one hn).trans h4, by rw [he]; nofun, ?_⟩
    have := heightL_filter (·.kind.isGroupEntry) ‹List Node›
    simp only [if_true, height] at h5 ⊢
    omega
  | array hc hn _ he ih =>
    obtain ⟨k, h4, h5⟩ := ih
    refine highBy_single.mpr ⟨_, (Reads.one hn).trans h4, by rw [he]; nofun, ?_⟩
    have := heightL_filter (·.kind.isGroupEntry) ‹List Node›
    simp only [if_true, height] at h5 ⊢
    omega
  | map hc hn _ he ih =>
    obtain ⟨k, h4, h5⟩ := ih
    refine highBy_single.mpr ⟨_, (Reads.one hn).trans h4, by rw [he]; nofun, ?_⟩
    have := heightL_filter (fun e => !e.isNil) ‹List Node›
    simp only [if_true, height] at h5 ⊢
    omega
  | optional hc hn _ ih | unwrap hc hn _ ih | enumeration hc hn _ ih =>
    obtain ⟨i, h1, h2, h3⟩ := highBy_single.mp ih
    exact highBy_single.mpr ⟨_, (Reads.one hn).trans h1, h2, by simp only [height]; omega⟩
  | occ0 hc hn _ ih | occ1 hc hn _ ih =>
    obtain ⟨i, h1, h2, h3⟩ := highBy_single.mp ih
    exact highBy_single.mpr ⟨_, (occHead_reads hn).trans h1, h2, by simp only [height]; omega⟩
  | tag hc ht _ =>
    obtain ⟨⟨j, h4⟩, h5⟩ := tagHead_reads (by rw [hc]; nofun) ht
    exact highBy_single.mpr ⟨_, h4, h5, by simp only [height]; omega⟩
  | tagItem hc ht hp hn hn' _ he ih =>
    obtain ⟨⟨j, h4⟩, h5⟩ := tagHead_reads (by rw [hc]; nofun) ht
    obtain ⟨i, h1, h2, h3⟩ := highBy_single.mp ih
    have h6 := ((h4.trans (.one hn)).trans (.one hn')).trans h1
    rcases he with ⟨_, rfl⟩ | ⟨he, hr⟩
    · exact highBy_single.mpr ⟨_, h6, h2, by simp only [height]; omega⟩
    · exact highBy_single.mpr ⟨_, h6.trans (.one hr), by rw [next_cur hr, he]; nofun, by simp only [height]; omega⟩
  | colon _ hp hn _ hn' _ ht ih1 ih2 =>
    obtain ⟨i, h1, h2, h3⟩ := highBy_single.mp ih1
    obtain ⟨j, h4, h5, h6⟩ := highBy_single.mp ih2
    obtain ⟨⟨k, h7⟩, h8⟩ := trail_reads h5 ht
    exact highBy_single.mpr ⟨_, (((h1.trans (.one hn)).trans (.one hn')).trans h4).trans h7, h8, by
      simp only [height]; omega⟩
  | comma _ hp hn ih =>
    obtain ⟨i, h1, h2, h3⟩ := highBy_single.mp ih
    exact highBy_single.mpr ⟨_, h1.trans (.one hn), by rw [next_cur hn, hp]; nofun, by omega⟩
  | choice _ hp hn hn' _ ih1 ih2 | size _ hp hn _ hn' _ ih1 ih2 | regexp _ hp hn _ hn' _ ih1 ih2
  | bits _ hp hn hn' _ ih1 ih2 | compare _ hp hn _ hn' _ ih1 ih2
  | rangeInt _ hp hn hn' _ ih1 ih2 | rangeIntOther _ hp hn hn' _ _ _ _ ih1 ih2
  | rangeFloat _ hp hn hn' _ ih1 ih2 | rangeFloatOther _ hp hn hn' _ _ _ _ ih1 ih2
  | rangeIdent _ hp hn hn' _ ih1 ih2 | rangeIntIdent _ hp hn hn' _ ih1 ih2
  | rangeFloatIdent _ hp hn hn' _ ih1 ih2 =>
    obtain ⟨i, h1, h2, h3⟩ := highBy_single.mp ih1
    obtain ⟨j, h4, h5, h6⟩ := highBy_single.mp ih2
    exact highBy_single.mpr ⟨_, ((h1.trans (.one hn)).trans (.one hn')).trans h4, h5, by
      simp only [height] at h3 h6 ⊢; omega⟩
  | occ _ hp hn _ ho _ ih1 ih2 =>
    obtain ⟨i, h1, h2, h3⟩ := highBy_single.mp ih1
    obtain ⟨j, h4, h5, h6⟩ := highBy_single.mp ih2
    exact highBy_single.mpr ⟨_, ((h1.trans (.one hn)).trans (occHead_reads ho)).trans h4, h5, by
      simp only [height] at h3 h6 ⊢; omega⟩
  | rangeEmpty _ hp hn _ _ _ ih =>
    obtain ⟨i, h1, h2, h3⟩ := highBy_single.mp ih
    exact highBy_single.mpr ⟨_, h1.trans (.one hn), by rw [next_cur hn]; rcases hp with hp | hp <;> rw [hp] <;> nofun, by
      simp only [height]; omega⟩

/-- The tokens read so far, none of which is EOF. -/
theorem synced_tokens {src : Bytes} {ts} (h : Synced (Lexer.new src) ts p) (he : p.cur ≠ .EOF) :
    ∃ l, Scans (Lexer.new src) (ts ++ [p.curTok]) l ∧ ∀ t ∈ ts ++ [p.curTok], t.tok ≠ .EOF := by
  unfold Synced at h
  rw [show ts ++ [p.curTok, p.peekTok] = (ts ++ [p.curTok]) ++ [p.peekTok] by simp] at h
  obtain ⟨l, h, _⟩ := scans_split h
  refine ⟨l, h, fun t ht e => he ?_⟩
  rcases List.mem_append.mp ht with ht | ht
  · obtain ⟨a, b, rfl⟩ := List.append_of_mem ht
    rw [show a ++ t :: b ++ [p.curTok] = (a ++ [t]) ++ (b ++ [p.curTok]) by simp] at h
    obtain ⟨m, h1, h2⟩ := scans_split h
    obtain ⟨_, _, _, _, h3⟩ := C03_eof_absorbing h1 e
    have : p.curTok = t := (h3 _ _ h2).1 _ (by simp)
    rw [← this] at e
    exact e
  · rw [List.mem_singleton.mp ht] at e
    exact e

/-- Every tree of a rule is at most as high as tokens have been read when it ends. -/
theorem step_high {src : Bytes} {ts e err} (hp : Synced (Lexer.new src) ts p) (hs : RuleStep p e err q) :
    e.isNil ∨ ∃ ts l, Scans (Lexer.new src) ts l ∧ (∀ t ∈ ts, t.tok ≠ .EOF) ∧ height e ≤ ts.length := by
  have rule : ∀ {p1 p2 p3 x tc}, p.cur = .IDENT → p.next = .ok p1 → p1.next = .ok p2 → Der false p2 [x] p3 →
      ∃ ts l, Scans (Lexer.new src) ts l ∧ (∀ t ∈ ts, t.tok ≠ .EOF) ∧
        height (.rule {} ⟨p.pos, p.lit⟩ x tc) ≤ ts.length := by
    intro p1 p2 p3 x tc hc hn hn' hd
    obtain ⟨k, h1, h2, h3⟩ := highBy_single.mp (der_high hd)
    obtain ⟨ext, h4, h5⟩ := (((Reads.one hn).trans (.one hn')).trans h1) _ _ hp
    obtain ⟨l, h6, h7⟩ := synced_tokens h5 h2
    refine ⟨_, l, h6, h7, ?_⟩
    simp only [height, List.length_append, List.length_singleton, h4]
    omega
  cases hs with
  | @comment _ cs hc hcs =>
    obtain ⟨h1, h2⟩ := comments_reads hcs
    obtain ⟨ext, h4, h5⟩ := h1 _ _ hp
    have he : q.cur ≠ .EOF := by
      by_cases h : cs = []
      · subst h; cases hcs; rw [hc]; nofun
      · rw [h2 h]; nofun
    obtain ⟨l, h6, h7⟩ := synced_tokens h5 he
    refine .inr ⟨_, l, h6, h7, ?_⟩
    cases cs with
    | nil => simp only [PState.commentNode, height, List.length_append, List.length_singleton]; omega
    | cons c cs =>
      simp only [PState.commentNode, height, List.length_append, h4, List.length_cons]
      omega
  | bound hc hn _ hn' hd => exact .inr (rule hc hn hn' hd)
  | dup hc hn _ hn' hd => exact .inr (rule hc hn hn' hd)
  | choice hc hn _ hn' hd => exact .inr (rule hc hn hn' hd)
  | failed hc hn ha =>
    obtain ⟨ext, h4, h5⟩ := (Reads.one hn) _ _ hp
    obtain ⟨l, h6, h7⟩ := synced_tokens h5 (by rcases ha with h | h | h <;> rw [h] <;> nofun)
    refine .inr ⟨_, l, h6, h7, ?_⟩
    simp only [height, List.length_append, List.length_singleton, h4]
    omega
  | noAssign => exact .inl rfl
  | noIdent => exact .inl rfl

theorem run_high {src : Bytes} {rules} (h : FileRun p rules q) (hp : On (Lexer.new src) p) :
    ∃ ts l, Scans (Lexer.new src) ts l ∧ (∀ t ∈ ts, t.tok ≠ .EOF) ∧ heightL rules ≤ ts.length := by
  induction h with
  | stop => exact ⟨[], _, .nil _, by simp, by simp [heightL]⟩
  | @step p q r s e err rules _ hs hn _ ih =>
    obtain ⟨ts, l, h1, h2, h3⟩ := ih (round_on hp hs hn)
    obtain ⟨_, hp⟩ := hp
    rcases step_high hp hs with h | ⟨ts', l', h4, h5, h6⟩
    · exact ⟨ts, l, h1, h2, by simpa [h] using h3⟩
    · by_cases hl : ts.length ≤ ts'.length
      · exact ⟨ts', l', h4, h5, by split <;> simp only [List.nil_append, List.singleton_append, heightL] <;> omega⟩
      · exact ⟨ts, l, h1, h2, by split <;> simp only [List.nil_append, List.singleton_append, heightL] <;> omega⟩

end Cddlc
