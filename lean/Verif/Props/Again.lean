import Verif.Lemmas.Again
import Verif.Props.Demo

/-! # C132: setting a configuration again -/

namespace Log4g
open Spec World

theorem refs_nodup {w : World} (inv : WInv w) : (w.loggers.map (·.2)).Nodup := by
  have key : ∀ l : List (Str × Nat), (l.map (·.1)).Nodup → (∀ p ∈ l, ∃ x, w.heap[p.2]? = some x ∧ x.name = p.1) → (l.map (·.2)).Nodup := by
    intro l
    induction l with
    | nil => intro _ _; exact .nil
    | cons p l ih =>
      intro h1 h2
      obtain ⟨h3, h4⟩ := List.nodup_cons.mp h1
      refine List.nodup_cons.mpr ⟨fun hm => ?_, ih h4 fun q hq => h2 q (.tail _ hq)⟩
      obtain ⟨q, hq, e⟩ := List.mem_map.mp hm
      obtain ⟨x, hx, hn⟩ := h2 p (.head _)
      obtain ⟨y, hy, hn'⟩ := h2 q (.tail _ hq)
      rw [e, hx] at hy
      cases hy
      exact h3 (List.mem_map.mpr ⟨q, hq, hn'.symm.trans hn⟩)
  refine key w.loggers inv.nodup fun p hp => ?_
  exact inv.named p.1 p.2 (Map.get_of_mem inv.nodup hp)

/-- C132: when a configuration is set again, right after it was set, it is accepted again, and nothing changes: the loggers have the same levels, outputs
and needs, the outputs and formatters are the same instances, and no others have been made. -/
theorem C132_again {w : World} (hw : Reach w) (hst : Steady w.mgr) {cfg : Config} {o1 o2 : List Nat} (h1 : o1.Perm (w.loggers.map (·.2)))
    (hok : (w.setConfig cfg o1).1 = none) (h2 : o2.Perm ((w.setConfig cfg o1).2.loggers.map (·.2))) :
    ((w.setConfig cfg o1).2.setConfig cfg o2).1 = none ∧ SameWorld (w.setConfig cfg o1).2 ((w.setConfig cfg o1).2.setConfig cfg o2).2 := by
  have inv := reach_inv hw
  revert h2 hok
  unfold setConfig
  cases hv : validateConfig cfg with
  | some e => intro h; cases h
  | none =>
    intro _ h2
    simp only at h2 ⊢
    have i1 := (withConfig_inv inv cfg).1
    have ns := notify_spec i1 o1
    obtain ⟨_, _, hs⟩ := notify_later i1 hst o1
    have hn : o1.Nodup := h1.nodup_iff.mpr (refs_nodup inv)
    rw [ns.2.2.2.1] at h2
    have hcfg : (World.notify { w with mgr := { w.mgr with config := cfg } } o1).mgr.config = cfg := ns.2.2.1.config
    obtain ⟨k, hk⟩ := notify_settled ns.1 o2 (fun r hr => hs hn r (h1.mem_iff.mpr (h2.mem_iff.mp hr))) (World.notify { w with mgr := { w.mgr with config := cfg } } o1).mgr.calls
    refine ⟨trivial, k, ?_⟩
    have : ({ (World.notify { w with mgr := { w.mgr with config := cfg } } o1) with mgr := { (World.notify { w with mgr := { w.mgr with config := cfg } } o1).mgr with config := cfg } } : World) =
        wrecount (World.notify { w with mgr := { w.mgr with config := cfg } } o1) (World.notify { w with mgr := { w.mgr with config := cfg } } o1).mgr.calls := by
      generalize World.notify { w with mgr := { w.mgr with config := cfg } } o1 = v at hcfg
      obtain ⟨m, a, b, c⟩ := v
      obtain ⟨m1, m2, m3, m4, m5, m6, m7, m8⟩ := m
      cases hcfg
      rfl
    rw [this, hk]
    rfl

/-- C132: the same for a file that is loaded again. -/
theorem C132_load {w : World} (hw : Reach w) (hst : Steady w.mgr) (d : Decoders) (bs : Bytes) (ext : Str) {o1 o2 : List Nat} (h1 : o1.Perm (w.loggers.map (·.2)))
    (hok : (w.loadConfig d bs ext o1).1 = none) (h2 : o2.Perm ((w.loadConfig d bs ext o1).2.loggers.map (·.2))) :
    ((w.loadConfig d bs ext o1).2.loadConfig d bs ext o2).1 = none ∧ SameWorld (w.loadConfig d bs ext o1).2 ((w.loadConfig d bs ext o1).2.loadConfig d bs ext o2).2 :=
  C132_again hw hst h1 hok h2

/-- The sample program, which has loggers, sets a configuration in which the outputs of "x" are the other way round, and one output cannot be made. -/
def againCfg : Config := { Demo.cfg with
  outputs := Demo.cfg.outputs ++ [some [(c!"name", c!"o3"), (c!"type", c!"tape"), (c!"format", c!"f1")]]
  loggers := [⟨c!"root", c!"info", [c!"o2"]⟩, ⟨c!"a", c!"debug", [c!"o1", c!"o3"]⟩, ⟨c!"x", c!"info", [c!"o1", c!"o2"]⟩] }

example : Steady Demo.w1.mgr := by
  constructor
  · intro t c h k k' x
    have := Map.mem_of_get h
    have e : Demo.w1.mgr.fmtCreators = [(c!"text", fun _ _ => .ok 2)] := rfl
    rw [e, List.mem_singleton] at this
    cases this; rfl
  · intro t c h k k' x
    have := Map.mem_of_get h
    have e : Demo.w1.mgr.outCreators = [(c!"console", fun _ _ => .ok ())] := rfl
    rw [e, List.mem_singleton] at this
    cases this; rfl

example : (Demo.w1.setConfig againCfg [0, 1, 2, 3]).1 = none ∧ [0, 1, 2, 3].Perm (Demo.w1.loggers.map (·.2)) ∧
    [3, 1, 0, 2].Perm ((Demo.w1.setConfig againCfg [0, 1, 2, 3]).2.loggers.map (·.2)) ∧
    (Demo.w1.setConfig againCfg [0, 1, 2, 3]).2.heap.map (·.outputs) = [[1], [], [], [0, 1]] := by decide

end Log4g
