import Verif.Lemmas.AnyOrder
import Verif.Props.Again
import Verif.Spec.World

/-! # C134: the order in which loggers are reconfigured -/

namespace Log4g
open Spec World

theorem becomes_same {m a b : Manager} {w : World} (inv : WInv w) (hm : m.oheap = w.mgr.oheap) (im : MgrInv m) (st : Steady m) (sa : Since m a) (sb : Since m b)
    {r : Nat} {l l1 l2 : Logger} (hl : w.heap[r]? = some l) (h1 : Becomes m a l l1) (h2 : Becomes m b l l2) : SameLogger m a b l1 l2 := by
  rcases h1 with ⟨n1, rfl⟩ | ⟨lc, g1, r1, e1⟩ <;> rcases h2 with ⟨n2, rfl⟩ | ⟨lc', g2, r2, e2⟩
  · refine ⟨rfl, rfl, rfl, rfl, rfl, rfl, fun i o o' h h' => ?_⟩
    rw [h] at h'
    cases h'
    exact .inl ⟨by rw [hm]; exact inv.outs r _ hl o (List.mem_of_getElem? h), rfl⟩
  · exact absurd g2 (n1 _)
  · exact absurd g1 (n2 _)
  · have : lc' = lc := by
      have := g2.1
      rw [g1.1] at this
      exact (Option.some.inj this).symm
    subst this
    obtain ⟨k1, k2, k3⟩ := same_resolved im st sa sb r1 r2
    refine ⟨?_, ?_, ?_, ?_, ?_, k1, k3⟩ <;> rw [e1, e2]
    exact k2 _

/-- C134: SetConfig comes to the same, in whichever order it goes through the loggers: it answers the same, and every logger has the same level, needs the same
caller information, and has the same outputs in the same order, that is the instances there were before, or new ones from the same definition with the same
formatter. -/
theorem C134_any_order {w : World} (hw : Reach w) (hst : Steady w.mgr) (cfg : Config) {o1 o2 : List Nat} (h1 : o1.Perm (w.loggers.map (·.2))) (h2 : o2.Perm (w.loggers.map (·.2))) :
    (w.setConfig cfg o1).1 = (w.setConfig cfg o2).1 ∧ (w.setConfig cfg o1).2.loggers = (w.setConfig cfg o2).2.loggers ∧
    ∀ n l1, loggerAt (w.setConfig cfg o1).2 n = some l1 → ∃ l2, loggerAt (w.setConfig cfg o2).2 n = some l2 ∧
      SameLogger w.mgr (w.setConfig cfg o1).2.mgr (w.setConfig cfg o2).2.mgr l1 l2 := by
  have inv := reach_inv hw
  unfold setConfig
  cases hv : validateConfig cfg with
  | some e =>
    refine ⟨rfl, rfl, fun n l1 h => ⟨l1, h, rfl, rfl, rfl, rfl, rfl, rfl, fun i o o' h3 h4 => ?_⟩⟩
    simp only at h
    unfold loggerAt at h
    cases hr : Map.get w.loggers n with
    | none => rw [hr] at h; cases h
    | some r =>
      rw [hr] at h
      rw [h3] at h4
      cases h4
      exact .inl ⟨inv.outs r _ h o (List.mem_of_getElem? h3), rfl⟩
  | none =>
    simp only
    have i1 := (withConfig_inv inv cfg).1
    have st : Steady ({ w with mgr := { w.mgr with config := cfg } } : World).mgr := hst
    have hd := refs_nodup inv
    obtain ⟨s1, _, c1⟩ := notify_since st (.refl i1.mgr) i1 o1
    obtain ⟨s2, _, c2⟩ := notify_since st (.refl i1.mgr) i1 o2
    have e1 := (notify_spec i1 o1).2.2.2.1
    have e2 := (notify_spec i1 o2).2.2.2.1
    refine ⟨trivial, by rw [e1, e2], fun n l1 h => ?_⟩
    unfold loggerAt at h ⊢
    rw [e1] at h
    rw [e2]
    simp only at h ⊢
    cases hr : Map.get w.loggers n with
    | none => rw [hr] at h; cases h
    | some r =>
      rw [hr] at h
      have hm : r ∈ w.loggers.map (·.2) := List.mem_map.mpr ⟨(n, r), Map.mem_of_get hr, rfl⟩
      obtain ⟨l, hl, _⟩ := inv.named _ _ hr
      obtain ⟨l1', a1, b1⟩ := c1 (h1.nodup_iff.mpr hd) r (h1.mem_iff.mpr hm) l hl
      obtain ⟨l2, a2, b2⟩ := c2 (h2.nodup_iff.mpr hd) r (h2.mem_iff.mpr hm) l hl
      simp only [Option.bind_some] at h ⊢
      rw [a1] at h
      cases h
      refine ⟨l2, a2, ?_⟩
      have := becomes_same (m := { w.mgr with config := cfg }) inv rfl i1.mgr st s1 s2 hl b1 b2
      exact ⟨this.name, this.level, this.parent, this.skip, this.needs, this.count, this.outputs⟩

/-- C134: the same for LoadConfig. -/
theorem C134_load {w : World} (hw : Reach w) (hst : Steady w.mgr) (d : Decoders) (bs : Bytes) (ext : Str) {o1 o2 : List Nat} (h1 : o1.Perm (w.loggers.map (·.2)))
    (h2 : o2.Perm (w.loggers.map (·.2))) :
    (w.loadConfig d bs ext o1).1 = (w.loadConfig d bs ext o2).1 ∧ (w.loadConfig d bs ext o1).2.loggers = (w.loadConfig d bs ext o2).2.loggers ∧
    ∀ n l1, loggerAt (w.loadConfig d bs ext o1).2 n = some l1 → ∃ l2, loggerAt (w.loadConfig d bs ext o2).2 n = some l2 ∧
      SameLogger w.mgr (w.loadConfig d bs ext o1).2.mgr (w.loadConfig d bs ext o2).2.mgr l1 l2 :=
  C134_any_order hw hst _ h1 h2

/-- C134: loggers share an output after one order if and only if they share the corresponding one after the other. -/
theorem C134_sharing {w : World} (hw : Reach w) (cfg : Config) (o1 o2 : List Nat) {a a' b b' : Nat}
    (ha : SameOut w.mgr (w.setConfig cfg o1).2.mgr (w.setConfig cfg o2).2.mgr a a') (hb : SameOut w.mgr (w.setConfig cfg o1).2.mgr (w.setConfig cfg o2).2.mgr b b') :
    a = b ↔ a' = b' := by
  have i1 := (setConfig_inv (reach_inv hw) cfg o1).1.mgr
  have i2 := (setConfig_inv (reach_inv hw) cfg o2).1.mgr
  rcases ha with ⟨ha, rfl⟩ | ⟨ha, ha', d, f, f', h1, h2, _⟩ <;> rcases hb with ⟨hb, rfl⟩ | ⟨hb, hb', e, g, g', k1, k2, _⟩
  · exact Iff.rfl
  · exact ⟨by omega, by omega⟩
  · exact ⟨by omega, by omega⟩
  · constructor
    · rintro rfl
      rw [h1] at k1
      cases k1
      have := (i2.managed _ _ _ h2).1
      rw [(i2.managed _ _ _ k2).1] at this
      cases this; rfl
    · rintro rfl
      rw [h2] at k2
      cases k2
      have := (i1.managed _ _ _ h1).1
      rw [(i1.managed _ _ _ k1).1] at this
      cases this; rfl

/-- A configuration for the sample program with two new outputs, an output that cannot be made, and one that is there already. -/
def orderCfg : Config := { Demo.cfg with
  outputs := Demo.cfg.outputs ++ [some [(c!"name", c!"o3"), (c!"type", c!"console"), (c!"format", c!"f1")], some [(c!"name", c!"o4"), (c!"type", c!"console"), (c!"format", c!"f1")],
    some [(c!"name", c!"o5"), (c!"type", c!"tape"), (c!"format", c!"f1")]]
  loggers := [⟨c!"root", c!"info", [c!"o3", c!"o1"]⟩, ⟨c!"a", c!"debug", [c!"o4", c!"o5"]⟩, ⟨c!"x", c!"error", [c!"o4", c!"o3"]⟩] }

/-- The new outputs are made in another order. -/
example : [0, 1, 2, 3].Perm (Demo.w1.loggers.map (·.2)) ∧ [3, 1, 0, 2].Perm (Demo.w1.loggers.map (·.2)) ∧ (Demo.w1.setConfig orderCfg [0, 1, 2, 3]).1 = none ∧
    (Demo.w1.setConfig orderCfg [0, 1, 2, 3]).2.heap.map (·.outputs) = [[2, 0], [], [], [3, 2]] ∧
    (Demo.w1.setConfig orderCfg [3, 1, 0, 2]).2.heap.map (·.outputs) = [[3, 0], [], [], [2, 3]] := by decide

end Log4g
