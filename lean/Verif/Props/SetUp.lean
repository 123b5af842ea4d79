import Verif.Lemmas.SetUp
import Verif.Props.Demo

/-! # C141: the order of the calls that set loggers up -/

namespace Log4g
open Spec World

/-- C141: calls that set levels, caller skips and outputs, each of another logger or of another kind, lead to the same state in whatever order they are made. -/
theorem C141_any_order {as bs : List Act} (h : SetUp as) (hp : as.Perm bs) {w w1 : World} (hs : Steps w as w1) : Steps w bs w1 := by
  obtain ⟨h1, h2⟩ := (steps_fold h.only w w1).mp hs
  refine (steps_fold (fun a ha => h.only a (hp.mem_iff.mpr ha)) w w1).mpr ⟨fun a ha => h1 a (hp.mem_iff.mpr ha), ?_⟩
  rw [h2]
  refine hp.foldl_eq' (fun a ha b hb w => ?_) w
  by_cases e : sets a = sets b
  · rw [sets_inj h.once ha hb e]
  · exact setUp_comm (h.only a ha) (h.only b hb) e w

/-- The conditions of `C141_any_order` are met by five calls on two loggers of the sample program. -/
example : let as : List Act := [.setLevel 0 Level.Info, .setOutputs 3 [0], .setCallerSkip 0 1, .setLevel 3 Level.Error, .setOutputs 0 []]
    SetUp as ∧ ∃ w1, Steps Demo.w1 as w1 := by
  have h : SetUp [.setLevel 0 Level.Info, .setOutputs 3 [0], .setCallerSkip 0 1, .setLevel 3 Level.Error, .setOutputs 0 []] := ⟨by simp [sets], by decide⟩
  refine ⟨h, _, (steps_fold h.only _ _).mpr ⟨fun a ha => ?_, rfl⟩⟩
  simp only [List.mem_cons, List.not_mem_nil, or_false] at ha
  rcases ha with rfl | rfl | rfl | rfl | rfl <;> simp only [Act.ok] <;> decide

end Log4g
