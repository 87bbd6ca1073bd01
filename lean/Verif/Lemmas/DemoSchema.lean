import Verif.Spec.Schema

/-! A schema for examples. -/

namespace Cddlc
open Spec

/-- The schema of the examples.
```
; people
person = { name: tstr, ; full name
? age: uint .size 2, * ; more
extra }
extra = [ 2* person, ]
pick /= 0x10 / "x" / #6.32(tstr)
; end
; of file
```
-/
def demoS : Schema where
  rules := [
    { lead := [" people".toList], name := "person".toList, assign := .eq,
      body := .list .brace (.cons (.remark (.field "name".toList (.kw .TSTR)) true " full name".toList) false
        (.cons (.pre .opt (.field "age".toList (.bin .size (.kw .UINT) (.int (.dec ['2']))))) true
        (.cons (.occ false (.noted true [" more".toList] (.name "extra".toList))) false .nil))) },
    { lead := [], name := "extra".toList, assign := .eq,
      body := .list .brack (.cons (.bin .star (.int (.dec ['2'])) (.name "person".toList)) true .nil) },
    { lead := [], name := "pick".toList, assign := .choice,
      body := .choices (.int (.hex ['1', '0'])) [.text ['x'], .tagged (.both ['6'] ['3', '2']) (.kw .TSTR)] }]
  tail := [" end".toList, " of file".toList]

theorem demoS_wf : demoS.WF := by
  intro r hr
  simp only [demoS, List.mem_cons, List.not_mem_nil, or_false] at hr
  rcases hr with rfl | rfl | rfl
  · refine ⟨by decide, ?_, fun h => ?_⟩
    · simp only [Ty.WF, Ents.WF, Bin.fits, Ty.atom, Int63, numeral]
      exact ⟨⟨by decide, by decide⟩, ⟨⟨by decide, trivial, by decide, ⟨2, by decide⟩, by simp⟩, ⟨by decide, trivial, by decide⟩,
        by decide⟩, by decide⟩
    · rcases h with h | ⟨_, _, _, h, _⟩ <;> cases h
  · refine ⟨by decide, ?_, fun h => ?_⟩
    · simp only [Ty.WF, Ents.WF, Bin.fits, Ty.atom, Int63, numeral]
      exact ⟨⟨trivial, ⟨2, by decide⟩, by decide, _, rfl⟩, trivial, by decide⟩
    · rcases h with h | ⟨_, _, _, h, _⟩ <;> cases h
  · refine ⟨by decide, ?_, fun h => ?_⟩
    · simp only [Ty.choices, Ty.WF, Bin.fits, Ty.atom, Int63, numeral, TagNum.WF]
      exact ⟨trivial, ⟨16, by decide⟩, ⟨trivial, trivial, ⟨⟨⟨6, by decide⟩, 32, by decide⟩, by decide⟩, trivial⟩, trivial⟩
    · rcases h with h | ⟨_, _, _, h, _⟩ <;> cases h

theorem demoS_strip_wf : demoS.strip.WF := by
  intro r hr
  simp only [demoS, Schema.strip, SRule.strip, Ty.strip, Ents.strip, Ty.choices, List.map_cons, List.map_nil, List.mem_cons,
    List.not_mem_nil, or_false] at hr
  rcases hr with rfl | rfl | rfl
  · refine ⟨by decide, ?_, fun h => ?_⟩
    · simp only [Ty.WF, Ents.WF, Bin.fits, Ty.atom, Int63, numeral]
      exact ⟨⟨by decide, by decide⟩, ⟨⟨by decide, trivial, by decide, ⟨2, by decide⟩, by simp⟩, ⟨by decide, trivial, by decide⟩,
        by decide⟩, by decide⟩
    · rcases h with h | ⟨_, _, _, h, _⟩ <;> cases h
  · refine ⟨by decide, ?_, fun h => ?_⟩
    · simp only [Ty.WF, Ents.WF, Bin.fits, Ty.atom, Int63, numeral]
      exact ⟨⟨trivial, ⟨2, by decide⟩, by decide, _, rfl⟩, trivial, by decide⟩
    · rcases h with h | ⟨_, _, _, h, _⟩ <;> cases h
  · refine ⟨by decide, ?_, fun h => ?_⟩
    · simp only [Ty.WF, Bin.fits, Ty.atom, Int63, numeral, TagNum.WF]
      exact ⟨trivial, ⟨16, by decide⟩, ⟨trivial, trivial, ⟨⟨⟨6, by decide⟩, 32, by decide⟩, by decide⟩, trivial⟩, trivial⟩
    · rcases h with h | ⟨_, _, _, h, _⟩ <;> cases h

theorem demoS_pieces : ∀ p ∈ demoS.pieces, p.WF := by decide +kernel

theorem demoS_strip_pieces : ∀ p ∈ demoS.strip.pieces, p.WF := by decide +kernel

theorem demoS_plain : ∀ r ∈ demoS.rules, r.body.plain = true := by decide +kernel

end Cddlc
