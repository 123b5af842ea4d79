import Verif.Lemmas.LastCounts
import Verif.Props.Demo

/-! # C144: the last call that sets something counts -/

namespace Log4g
open Spec World

/-- C144 does not hold: giving a logger an output that needs caller information, and then none, leaves the logger in need of caller information. -/
theorem C144_last_refuted : ∃ w w1 w2 : World, ∃ as : List Act, Reach w ∧ OnlySets as ∧ Steps w as w1 ∧ Steps w (lastOnly as) w2 ∧
    ∃ l l', w1.heap[1]? = some l ∧ w2.heap[1]? = some l' ∧ l.outputs = l'.outputs ∧ l.callerInfoFlag = 2 ∧ l'.callerInfoFlag = 0 := by
  have h : OnlySets [.setOutputs 1 [0], .setOutputs 1 []] := by simp [OnlySets, sets]
  refine ⟨Demo.w1, _, _, _, Demo.w1_reach, h, (steps_fold h _ _).mpr ⟨fun a ha => ?_, rfl⟩, (steps_fold (fun a ha => h a (last_mem ha)) _ _).mpr ⟨fun a ha => ?_, rfl⟩,
    _, _, rfl, rfl, rfl, by decide, by decide⟩
  · simp only [List.mem_cons, List.not_mem_nil, or_false] at ha
    rcases ha with rfl | rfl <;> simp only [Act.ok] <;> decide
  · have ha := last_mem ha
    simp only [List.mem_cons, List.not_mem_nil, or_false] at ha
    rcases ha with rfl | rfl <;> simp only [Act.ok] <;> decide

/-- C144, but for the need for caller information: with the calls that are overridden left out, the loggers have the same levels, caller skips and outputs, and need no more caller information than before; and if no logger is given
outputs twice, everything is the same. -/
theorem C144_last_partial {w w1 : World} {as : List Act} (h : OnlySets as) (hs : Steps w as w1) :
    ∃ w2, Steps w (lastOnly as) w2 ∧ SameButNeeds w1 w2 ∧ (OutputsOnce as → w2 = w1) := by
  obtain ⟨h1, h2⟩ := (steps_fold h w w1).mp hs
  have hl : OnlySets (lastOnly as) := fun a ha => h a (last_mem ha)
  refine ⟨_, (steps_fold hl w _).mpr ⟨fun a ha => h1 a (last_mem ha), rfl⟩, careless_same ?_ (h2 ▸ needs_last h ⟨rfl, fun r l l' e e' => ?_⟩), fun ho => ?_⟩
  · rw [h2, careless_fold h, careless_fold hl]
    refine fold_last _ as _ ?_ ?_
    · exact List.pairwise_of_forall_mem_list fun a ha b _ e v => effect_again (h a ha) e v
    · exact List.pairwise_of_forall_mem_list fun a ha b hb e v => effect_comm (h a ha) (h b hb) e v
  · rw [Option.some.inj (e.symm.trans e')]
    exact Int.le_refl _
  · rw [h2]
    refine (fold_last _ as _ ?_ ?_).symm
    · have := List.pairwise_of_forall_mem_list (r := fun a b => sets a ≠ none) (l := as) fun a ha b _ => h a ha
      exact (this.and ho).imp fun ⟨x, y⟩ e v => run_again x e (y e.symm) v
    · exact List.pairwise_of_forall_mem_list fun a ha b hb e v => setUp_comm (h a ha) (h b hb) (Ne.symm e) v

/-- The conditions of `C144_last_partial` are met by calls that set a level twice and the outputs of two loggers once, in the sample program; one call is left out. -/
example : let as : List Act := [.setLevel 0 Level.Info, .setOutputs 3 [0], .setCallerSkip 0 1, .setLevel 0 Level.Error, .setOutputs 0 []]
    OnlySets as ∧ OutputsOnce as ∧ (lastOnly as).length = 4 ∧ ∃ w1, Steps Demo.w1 as w1 := by
  have h : OnlySets [.setLevel 0 Level.Info, .setOutputs 3 [0], .setCallerSkip 0 1, .setLevel 0 Level.Error, .setOutputs 0 []] := by simp [OnlySets, sets]
  refine ⟨h, by simp [OutputsOnce, sets], rfl, _, (steps_fold h _ _).mpr ⟨fun a ha => ?_, rfl⟩⟩
  simp only [List.mem_cons, List.not_mem_nil, or_false] at ha
  rcases ha with rfl | rfl | rfl | rfl | rfl <;> simp only [Act.ok] <;> decide

end Log4g
