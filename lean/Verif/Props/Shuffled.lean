import Verif.Lemmas.Shuffled
import Verif.Props.Demo

/-! # C138: the order of the definitions in a configuration -/

namespace Log4g
open Spec World

/-- Two entries for one logger. -/
def twiceCfg : Config := { loggers := [⟨c!"x", c!"info", []⟩, ⟨c!"x", c!"error", []⟩] }

/-- The same two entries the other way round. -/
def twiceCfg' : Config := { loggers := [⟨c!"x", c!"error", []⟩, ⟨c!"x", c!"info", []⟩] }

/-- C138, refuted: two configurations with the same definitions in different orders are both accepted, and a logger obtained then has info enabled with one and not with the other. -/
theorem C138_shuffled_refuted : ∃ (w : World) (cfg cfg' : Config) (n : Str), Reach w ∧ Shuffled cfg cfg' ∧ (w.setConfig cfg []).1 = none ∧ (w.setConfig cfg' []).1 = none ∧
    Enables ((w.setConfig cfg []).2.getLogger n).2 n Level.Info ∧ ¬ Enables ((w.setConfig cfg' []).2.getLogger n).2 n Level.Info := by
  refine ⟨{}, twiceCfg, twiceCfg', c!"x", ⟨[], .refl _⟩, ⟨.refl _, .refl _, .swap _ _ _⟩, by decide, by decide, ⟨1, by decide, by decide⟩, ?_⟩
  rintro ⟨r, h1, h2⟩
  have h3 : Map.get (((({} : World).setConfig twiceCfg' []).2.getLogger c!"x").2.loggers) c!"x" = some 1 := by decide
  rw [h3] at h1
  cases h1
  revert h2
  decide

/-- C138, the part that holds: if no two entries are for one logger, a configuration and one with the same definitions in another order are both accepted or both refused, and whatever the
program does after that, it is in the same state with one as with the other, but for the configuration that is kept. -/
theorem C138_shuffled_partial (w : World) {cfg cfg' : Config} (h : Shuffled cfg cfg') (hn : (cfg.loggers.map (·.name)).Nodup) (order : List Nat) :
    ((w.setConfig cfg order).1 = none ↔ (w.setConfig cfg' order).1 = none) ∧
    ∀ as w1, Steps (w.setConfig cfg order).2 as w1 → ∃ w2, Steps (w.setConfig cfg' order).2 as w2 ∧ SameButConfig w1 w2 := by
  cases hv : validateConfig cfg with
  | none =>
    have hc := (validateConfig_none_iff cfg).mp hv
    have hv' : validateConfig cfg' = none := (validateConfig_none_iff cfg').mpr (shuffled_consistent h hc)
    have ag := shuffled_agree h hc hn
    have e : Behind cfg cfg' (w.setConfig cfg order).2 (w.setConfig cfg' order).2 := by
      simp only [setConfig, hv, hv']
      refine .inr ⟨notify_cfgKept order _, ?_⟩
      exact notify_reconf ag order { w with mgr := { w.mgr with config := cfg } } rfl fun _ _ => trivial
    refine ⟨by simp only [setConfig, hv, hv'], fun as w1 hs => ?_⟩
    obtain ⟨w2, h1, h2⟩ := steps_behind ag trivial e (fun a _ => about_any a) hs
    exact ⟨w2, h1, behind_same h2⟩
  | some e =>
    cases hv' : validateConfig cfg' with
    | none => rw [(validateConfig_none_iff cfg).mpr (shuffled_consistent (shuffled_back h) ((validateConfig_none_iff cfg').mp hv'))] at hv; cases hv
    | some e' =>
      simp only [setConfig, hv, hv']
      exact ⟨by simp, fun as w1 hs => ⟨w1, hs, w1.mgr.config, rfl⟩⟩

/-- Two formats, two outputs and two loggers. -/
def orderedCfg : Config := {
  formats := [some [(c!"name", c!"f"), (c!"type", c!"text")], some [(c!"name", c!"g"), (c!"type", c!"text")]],
  outputs := [some [(c!"name", c!"o"), (c!"type", c!"console"), (c!"format", c!"f")], some [(c!"name", c!"p"), (c!"type", c!"console"), (c!"format", c!"g")]],
  loggers := [⟨c!"a", c!"error", [c!"o"]⟩, ⟨c!"a/b", c!"info", [c!"p", c!"o"]⟩] }

/-- The same, each list reversed. -/
def orderedCfg' : Config := { formats := orderedCfg.formats.reverse, outputs := orderedCfg.outputs.reverse, loggers := orderedCfg.loggers.reverse }

/-- The conditions of `C138_shuffled_partial` are met by an accepted configuration, two of whose loggers are then obtained. -/
example : Shuffled orderedCfg orderedCfg' ∧ (orderedCfg.loggers.map (·.name)).Nodup ∧ (Demo.w0.setConfig orderedCfg []).1 = none ∧ orderedCfg.loggers ≠ orderedCfg'.loggers ∧
    ∃ w1, Steps (Demo.w0.setConfig orderedCfg []).2 ([] ++ [.getLogger c!"a"] ++ [.getLogger c!"a/b"]) w1 ∧ w1.heap.length = 3 ∧ w1.mgr.oheap.length = 3 :=
  ⟨⟨(List.reverse_perm _).symm, (List.reverse_perm _).symm, (List.reverse_perm _).symm⟩, by decide, by decide, by decide, _, .tail (.tail (.refl _) trivial) trivial, by decide, by decide⟩

end Log4g
