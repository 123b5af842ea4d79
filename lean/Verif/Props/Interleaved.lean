import Verif.Lemmas.Interleaved
import Verif.Props.Demo

/-! # C143: setting loggers up while others are obtained -/

namespace Log4g
open Spec World

/-- C143: calls that set levels, caller skips and outputs of loggers there are, and calls that obtain loggers, lead to the same state however the ones are put between the others. -/
theorem C143_interleaved {w w1 : World} (hr : Reach w) {as bs : List Act} (ha : Interleaved w as) (hb : Interleaved w bs)
    (sets : as.filter isSet = bs.filter isSet) (gets : as.filter isGet = bs.filter isGet) (hs : Steps w as w1) : Steps w bs w1 := by
  rw [set_first bs (reach_inv hr) hb, ← sets, ← gets]
  exact (set_first as (reach_inv hr) ha).mp hs

/-- The conditions of `C143_interleaved` are met by four calls on the sample program: a new logger is obtained below one whose level and outputs are set. -/
example : let as : List Act := [.setLevel 0 Level.Error, .getLogger c!"x/y", .setOutputs 0 [], .getLogger c!"x/z"]
    let bs : List Act := [.getLogger c!"x/y", .getLogger c!"x/z", .setLevel 0 Level.Error, .setOutputs 0 []]
    Reach Demo.w1 ∧ Interleaved Demo.w1 as ∧ Interleaved Demo.w1 bs ∧ as.filter isSet = bs.filter isSet ∧ as.filter isGet = bs.filter isGet ∧ ∃ w1, Steps Demo.w1 as w1 := by
  have h0 : (0 : Nat) < Demo.w1.heap.length := by decide
  have hi : Interleaved Demo.w1 [.setLevel 0 Level.Error, .getLogger c!"x/y", .setOutputs 0 [], .getLogger c!"x/z"] := by
    intro a ha
    simp only [List.mem_cons, List.not_mem_nil, or_false] at ha
    rcases ha with rfl | rfl | rfl | rfl
    · exact .inr ⟨rfl, h0⟩
    · exact .inl rfl
    · exact .inr ⟨rfl, h0, by simp⟩
    · exact .inl rfl
  refine ⟨Demo.w1_reach, hi, ?_, rfl, rfl, ?_⟩
  · intro a ha
    refine hi a ?_
    simp only [List.mem_cons, List.not_mem_nil, or_false] at ha ⊢
    rcases ha with rfl | rfl | rfl | rfl <;> simp
  · have s1 := steps_first (w := Demo.w1) (a := .setLevel 0 Level.Error) (as := [.setOutputs 0 [], .getLogger c!"x/y", .getLogger c!"x/z"]) |>.mpr ⟨h0, steps_first.mpr ⟨⟨by simpa [Act.run, setLevel, update] using h0, by simp⟩,
      steps_first.mpr ⟨trivial, steps_first.mpr ⟨trivial, .refl _⟩⟩⟩⟩
    exact ⟨_, (set_first _ (reach_inv Demo.w1_reach) hi).mpr s1⟩

end Log4g
