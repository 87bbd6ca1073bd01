import Verif.Spec.Doctor
import Verif.Model.Main

/-! C116: what `cddlc doctor` reports. -/

namespace Cddlc
open Spec

theorem textLines_ne (s : Bytes) : textLines s ≠ [] := by
  cases s with
  | nil => simp [textLines]
  | cons c s =>
    rw [textLines]
    split
    · simp
    · split <;> simp

theorem textLines_line {l s : Bytes} (h : 10 ∉ l) : textLines (l ++ 10 :: s) = l :: textLines s := by
  induction l with
  | nil => simp [textLines]
  | cons c l ih =>
    rw [List.mem_cons, not_or] at h
    rw [List.cons_append, textLines, if_neg (Ne.symm h.1), ih h.2]

/-- **C116**: if no value has a line break, the report of `doctor` gives version, commit, date, operating system and architecture,
in this order and nothing else; and the command does not fail. -/
theorem C116_report (b : BuildInfo) (h : 10 ∉ b.version ++ b.commit ++ b.date ++ b.goos ++ b.goarch) :
    ∃ out, doctorCmd b = ⟨[out], [], none⟩ ∧
      report out = [(b!"Version", b.version), (b!"Commit", b.commit), (b!"Build Date", b.date), (b!"Runtime", b.goos), (b!"Arch", b.goarch)] := by
  refine ⟨_, rfl, ?_⟩
  simp only [List.mem_append, not_or] at h
  obtain ⟨⟨⟨⟨h1, h2⟩, h3⟩, h4⟩, h5⟩ := h
  have e : b!"\nVersion\t\t: " ++ b.version ++ b!"\nCommit\t\t: " ++ b.commit ++ b!"\nBuild Date\t: " ++ b.date ++ b!"\nRuntime\t\t: " ++ b.goos ++
      b!"\nArch\t\t: " ++ b.goarch ++ b!"\n" ++ b!"\n" =
      [] ++ 10 :: ((b!"Version\t\t: " ++ b.version) ++ 10 :: ((b!"Commit\t\t: " ++ b.commit) ++ 10 :: ((b!"Build Date\t: " ++ b.date) ++ 10 ::
        ((b!"Runtime\t\t: " ++ b.goos) ++ 10 :: ((b!"Arch\t\t: " ++ b.goarch) ++ 10 :: ([] ++ 10 :: [])))))) := by
    simp
  rw [report, e, textLines_line (by simp), textLines_line (by simp [h1]), textLines_line (by simp [h2]), textLines_line (by simp [h3]),
    textLines_line (by simp [h4]), textLines_line (by simp [h5]), textLines_line (by simp)]
  simp [textLines, List.filterMap_cons, labelled]

/-- **C116**: so different builds have different reports. -/
theorem C116_distinct {b b' : BuildInfo} (h : 10 ∉ b.version ++ b.commit ++ b.date ++ b.goos ++ b.goarch)
    (h' : 10 ∉ b'.version ++ b'.commit ++ b'.date ++ b'.goos ++ b'.goarch) (e : doctorCmd b = doctorCmd b') : b = b' := by
  obtain ⟨out, k1, k2⟩ := C116_report b h
  obtain ⟨out', k1', k2'⟩ := C116_report b' h'
  rw [k1, k1'] at e
  cases e
  rw [k2] at k2'
  cases b
  cases b'
  simpa using k2'

/-- Values with colons and tabs are no problem. -/
example : report ((doctorCmd { version := b!"v1: \t2", goos := b!"linux", goarch := b!"arm64" }).stdout.flatten) =
    [(b!"Version", b!"v1: \t2"), (b!"Commit", []), (b!"Build Date", []), (b!"Runtime", b!"linux"), (b!"Arch", b!"arm64")] := by
  obtain ⟨out, h1, h2⟩ := C116_report { version := b!"v1: \t2", goos := b!"linux", goarch := b!"arm64" } (by decide)
  rw [h1]
  simpa using h2

/-- With a line break in a value the report can be that of another build. -/
example : ∃ b b' : BuildInfo, b.version ≠ b'.version ∧ (doctorCmd b).stdout.flatten = (doctorCmd b').stdout.flatten :=
  ⟨{ version := b!"1\nCommit\t\t: x", commit := b!"y", goos := [], goarch := [] },
    { version := b!"1", commit := b!"x\nCommit\t\t: y", goos := [], goarch := [] }, by decide, by decide⟩

end Cddlc
