import Verif.Lemmas.Unused
import Verif.Props.Demo

/-! # C139: definitions that no logger uses -/

namespace Log4g
open Spec World

/-- C139: two accepted configurations with the same loggers, one of which has more formats and outputs than the other: whatever calls follow, they are possible with one if they are with the
other, and the program is in the same state, but for the configuration that is kept. In particular, as many creators have run and as many outputs have been made. -/
theorem C139_unused (w : World) {cfg cfg' : Config} (h : Extends cfg cfg') (order : List Nat) (hc : (w.setConfig cfg order).1 = none) (hc' : (w.setConfig cfg' order).1 = none) (as : List Act) :
    (∀ w1, Steps (w.setConfig cfg order).2 as w1 → ∃ w2, Steps (w.setConfig cfg' order).2 as w2 ∧ SameButConfig w1 w2) ∧
    ∀ w2, Steps (w.setConfig cfg' order).2 as w2 → ∃ w1, Steps (w.setConfig cfg order).2 as w1 ∧ SameButConfig w1 w2 := by
  have key : ∀ c, (w.setConfig c order).1 = none → validateConfig c = none := fun c hc => by
    revert hc
    unfold setConfig
    cases validateConfig c with
    | none => exact fun _ => rfl
    | some e => exact fun h => by cases h
  have hv := key _ hc
  have hv' := key _ hc'
  have ag := extends_agree h ((validateConfig_none_iff cfg).mp hv) ((validateConfig_none_iff cfg').mp hv')
  have e : Behind cfg cfg' (w.setConfig cfg order).2 (w.setConfig cfg' order).2 := by
    simp only [setConfig, hv, hv']
    refine .inr ⟨notify_cfgKept order _, ?_⟩
    exact notify_reconf ag order { w with mgr := { w.mgr with config := cfg } } rfl fun _ _ => trivial
  refine ⟨fun w1 hs => ?_, fun w2 hs => ?_⟩
  · obtain ⟨w2, h1, h2⟩ := steps_behind ag trivial e (fun a _ => about_any a) hs
    exact ⟨w2, h1, behind_same h2⟩
  · obtain ⟨w1, h1, h2⟩ := steps_ahead ag trivial e (fun a _ => about_any a) hs
    exact ⟨w1, h1, behind_same h2⟩

/-- A format, an output and a logger that uses it. -/
def usedCfg : Config := {
  formats := [some [(c!"name", c!"f"), (c!"type", c!"text")]],
  outputs := [some [(c!"name", c!"o"), (c!"type", c!"console"), (c!"format", c!"f")]],
  loggers := [⟨c!"a", c!"error", [c!"o"]⟩] }

/-- The same with another format, and another output before it. -/
def unusedCfg : Config := { usedCfg with
  formats := usedCfg.formats ++ [some [(c!"name", c!"g"), (c!"type", c!"xml")]],
  outputs := some [(c!"name", c!"p"), (c!"type", c!"rolling"), (c!"format", c!"g")] :: usedCfg.outputs }

/-- The conditions of `C139_unused` are met, by a history that obtains two loggers. -/
example : Extends usedCfg unusedCfg ∧ (Demo.w0.setConfig usedCfg []).1 = none ∧ (Demo.w0.setConfig unusedCfg []).1 = none ∧
    ∃ w1, Steps (Demo.w0.setConfig usedCfg []).2 ([] ++ [.getLogger c!"a"] ++ [.getLogger c!"a/b"]) w1 ∧ w1.heap.length = 3 ∧ w1.mgr.oheap.length = 2 :=
  ⟨⟨fun _ h => List.mem_append_left _ h, fun _ h => .tail _ h, rfl⟩, by decide, by decide, _, .tail (.tail (.refl _) trivial) trivial, by decide, by decide⟩

end Log4g
