import Verif.Lemmas.Without
import Verif.Props.Demo

/-! # C140: entries for loggers that are never obtained -/

namespace Log4g
open Spec World

/-- C140: the entries for loggers that are not there and that no later call asks for, the root logger not among them, make no difference: without them the configuration is accepted as well,
and whatever other calls follow are possible with them if they are without them, and lead to the same state, but for the configuration that is kept. -/
theorem C140_never_obtained {w : World} (hw : Reach w) (cfg : Config) (order : List Nat) (hc : (w.setConfig cfg order).1 = none) {ns : List Str} (hroot : c!"root" ∉ ns)
    (hnew : ∀ n ∈ ns, loggerAt w n = none) {as : List Act} (has : NeverAsked ns as) :
    (w.setConfig (without cfg ns) order).1 = none ∧
    (∀ w1, Steps (w.setConfig (without cfg ns) order).2 as w1 → ∃ w2, Steps (w.setConfig cfg order).2 as w2 ∧ SameButConfig w1 w2) ∧
    ∀ w2, Steps (w.setConfig cfg order).2 as w2 → ∃ w1, Steps (w.setConfig (without cfg ns) order).2 as w1 ∧ SameButConfig w1 w2 := by
  have inv := reach_inv hw
  have hv : validateConfig cfg = none := by
    revert hc
    unfold setConfig
    cases validateConfig cfg with
    | none => exact fun _ => rfl
    | some e => exact fun h => by cases h
  have hv' : validateConfig (without cfg ns) = none := (validateConfig_none_iff _).mpr (without_consistent ((validateConfig_none_iff cfg).mp hv) ns)
  have ag := without_agree cfg ns
  have e : Behind (without cfg ns) cfg (w.setConfig (without cfg ns) order).2 (w.setConfig cfg order).2 := by
    simp only [setConfig, hv, hv']
    refine .inr ⟨notify_cfgKept order _, ?_⟩
    refine notify_reconf ag order { w with mgr := { w.mgr with config := without cfg ns } } rfl fun n hn hin => ?_
    obtain ⟨l, hl, he⟩ := List.mem_map.mp hn
    obtain ⟨r, hr⟩ := List.getElem?_of_mem hl
    have h1 := hnew n hin
    have h2 := inv.all r l hr
    rw [he] at h2
    simp only [loggerAt, h2] at h1
    exact absurd (h1.symm.trans hr) (by simp)
  have hS : ∀ a ∈ as, About (· ∉ ns) a := fun a ha => by
    cases a with
    | getLogger n => exact .inr fun hin => (has n hin).1 ha
    | queryOutputs n => exact fun hin => (has n hin).2 ha
    | _ => trivial
  refine ⟨by simp only [setConfig, hv'], fun w1 hs => ?_, fun w2 hs => ?_⟩
  · obtain ⟨w2, h1, h2⟩ := steps_behind ag hroot e hS hs
    exact ⟨w2, h1, behind_same h2⟩
  · obtain ⟨w1, h1, h2⟩ := steps_ahead ag hroot e hS hs
    exact ⟨w1, h1, behind_same h2⟩

/-- The conditions of `C140_never_obtained` are met: the sample configuration, without the entries for `a` and `x`, and a history that obtains a logger below `a`. -/
example : Reach Demo.w0 ∧ (Demo.w0.setConfig Demo.cfg []).1 = none ∧ c!"root" ∉ [c!"a", c!"x"] ∧ (∀ n ∈ [c!"a", c!"x"], loggerAt Demo.w0 n = none) ∧
    NeverAsked [c!"a", c!"x"] [.getLogger c!"a/b"] ∧ (without Demo.cfg [c!"a", c!"x"]).loggers = [⟨c!"root", c!"warn", [c!"o1"]⟩] ∧
    ∃ w1, Steps (Demo.w0.setConfig Demo.cfg []).2 ([] ++ [.getLogger c!"a/b"]) w1 ∧ w1.heap.length = 3 ∧ w1.mgr.oheap.length = 1 := by
  refine ⟨Demo.w0_reach, by decide, by decide, fun _ _ => rfl, ?_, by decide, _, .tail (.refl _) trivial, by decide, by decide⟩
  intro n hn
  refine ⟨fun h => ?_, fun h => ?_⟩
  · rcases List.mem_singleton.mp h with ⟨⟩
    revert hn
    decide
  · cases List.mem_singleton.mp h

end Log4g
