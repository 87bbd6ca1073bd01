import Verif.Props.Join
import Verif.Props.Parser

/-! A part of a source that the rest does not use. -/

namespace Cddlc
variable [Unicode]
open Spec PState

/-- The names of the checks of a source stand in it. -/
theorem final_tasks {n : Nat} {src : Bytes} {env : Env} {res : FileResult} (h : parseSource n src env = .ok res) :
    ∀ t ∈ res.final.tasks, TaskOK (Lexer.new src) t := by
  obtain ⟨p, h0, _, _, h3, h4, _, hc⟩ := parseSource_run res h
  rcases hc with ⟨_, rfl⟩ | ⟨_, rules', q, hr, rfl⟩
  · intro t ht
    rw [show FileResult.final ⟨none, [], p⟩ = p from rfl, h4] at ht
    cases ht
  · have hs : Sound (Lexer.new src) q := run_sound hr
      ⟨⟨h0, by rw [h4]; exact fun d hd => (List.not_mem_nil hd).elim, new_spells src⟩, by rw [h3]; exact fun d hd => (List.not_mem_nil hd).elim⟩
    exact hs.1.2.1

/-- The names that a source declares stand in it. -/
theorem declared_stands {n : Nat} {src : Bytes} {env : Env} {res : FileResult} (h : parseSource n src env = .ok res) {k : Bytes}
    (hk : res.final.env.exists? k = true) : env.exists? k = true ∨ ∃ pos, Tk (Lexer.new src) ⟨.IDENT, pos, k⟩ := by
  cases he : env.exists? k with
  | true => exact .inl rfl
  | false =>
    obtain ⟨h1, _, h3⟩ := C19_environment h k
    cases hc : res.cddl with
    | none => rw [h1 hc, he] at hk; cases hk
    | some rules =>
      rcases h3 rules hc he with ⟨v, ⟨_, _, _, _, ⟨pos, _, _, _, ts, a, l, hs, _⟩, _⟩, _⟩ | ⟨_, h4⟩
      · refine .inr ⟨pos, ts, ?_⟩
        rw [show ts ++ [(⟨.IDENT, pos, k⟩ : Token), a] = (ts ++ [⟨.IDENT, pos, k⟩]) ++ [a] by simp] at hs
        obtain ⟨m, h5, _⟩ := scans_split hs
        exact ⟨m, h5⟩
      · rw [h4] at hk; cases hk

/-- A check gives the same with two environments that agree on the names of the source. -/
theorem runTask_agree {l : Lexer} {e e' : Env} {t : Task} (ht : TaskOK l t)
    (h : ∀ k pos, Tk l ⟨.IDENT, pos, k⟩ → e.exists? k = e'.exists? k ∧ (e.get k).kind = (e'.get k).kind) :
    runTask e t = runTask e' t := by
  cases t with
  | identBound tok left to =>
    obtain ⟨_, h1, h2⟩ := ht
    cases to <;> first | rfl | skip
    rename_i i
    simp only [runTask, (h _ _ h1).2, (h _ _ (h2 i rfl)).2]
  | «exists» name pos => simp only [runTask, (h _ _ ht).1]
  | intBound name s e => simp only [runTask, (h _ _ ht).1, (h _ _ ht).2]
  | floatBound name s e => simp only [runTask, (h _ _ ht).1, (h _ _ ht).2]

theorem filterMap_agree {l : Lexer} {e e' : Env} {ts : List Task} (ht : ∀ t ∈ ts, TaskOK l t)
    (h : ∀ k pos, Tk l ⟨.IDENT, pos, k⟩ → e.exists? k = e'.exists? k ∧ (e.get k).kind = (e'.get k).kind) :
    ts.filterMap (runTask e) = ts.filterMap (runTask e') := by
  induction ts with
  | nil => rfl
  | cons t ts ih =>
    rw [List.filterMap_cons, List.filterMap_cons, runTask_agree (ht t (by simp)) h, ih fun t hm => ht t (by simp [hm])]

end Cddlc
