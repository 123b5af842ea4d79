import Verif.Lemmas.Handed

/-! # C105: a `Config` that is changed after `SetConfig` -/

namespace Log4g
open Spec World

namespace Demo

/-- A consistent configuration, and one with an output that does not exist. -/
def goodCfg : Config := { loggers := [⟨c!"a", c!"info", []⟩] }
def badCfg : Config := { loggers := [⟨c!"b", c!"debug", []⟩, ⟨c!"c", c!"info", [c!"nope"]⟩] }

/-- The object is set, changed, set again, and a logger is asked for. -/
def reused : List PtrAct := [.change 0 goodCfg, .set 0 [], .change 0 badCfg, .set 0 [], .lib (.getLogger c!"b")]

end Demo

/-- C105 is refuted: an object that was accepted is changed, `SetConfig` then refuses it, and yet the logger asked for
next has the level of the refused configuration.  With copies it has none. -/
theorem C105_refused_refuted : ∃ (as : List PtrAct) (i : Nat) (order : List Nat) (n : Str) (p p' : PtrWorld) (w : World),
    PtrSteps {} as p ∧ (p.w.setConfig (p.conf i) order).1 ≠ none ∧
    PtrSteps {} (as ++ [.set i order, .lib (.getLogger n)]) p' ∧ HasLevel p'.w n Level.Debug ∧
    Steps {} (copied (fun _ => {}) (as ++ [.set i order, .lib (.getLogger n)])) w ∧ NoLevel w n := by
  have h1 : PtrSteps {} [.change 0 Demo.goodCfg, .set 0 [], .change 0 Demo.badCfg] _ :=
    (((PtrSteps.refl {}).tail (a := .change 0 Demo.goodCfg) trivial).tail (a := .set 0 []) (.refl _)).tail (a := .change 0 Demo.badCfg) trivial
  have h2 := (h1.tail (a := .set 0 []) (.refl _)).tail (a := .lib (.getLogger c!"b")) trivial
  have h3 : Steps {} [.setConfig Demo.goodCfg [], .setConfig Demo.badCfg [], .getLogger c!"b"] _ :=
    (((Steps.refl {}).tail (a := .setConfig Demo.goodCfg []) (.refl _)).tail (a := .setConfig Demo.badCfg []) (.refl _)).tail
      (a := .getLogger c!"b") trivial
  refine ⟨_, 0, [], c!"b", _, _, _, h1, ?_, h2, ⟨_, rfl, rfl, by decide⟩, h3, ⟨_, rfl, rfl⟩⟩
  decide +kernel

/-- C105, what holds: a program that never changes the object of the last `SetConfig` that succeeded does the same as one
that passes copies. -/
theorem C105_copies_partial {p : PtrWorld} {as : List PtrAct} (h : PtrSteps {} as p) (hr : Respects as) :
    Steps {} (copied (fun _ => {}) as) p.w := ptr_copied h hr

/-- A program that prepares an object, sets it, prepares another, which is refused, changes that one and sets it. -/
example : ∃ p, PtrSteps {} [.change 0 Demo.goodCfg, .set 0 [], .change 1 Demo.badCfg, .set 1 [], .change 1 Demo.goodCfg, .set 1 []] p ∧
    Respects [.change 0 Demo.goodCfg, .set 0 [], .change 1 Demo.badCfg, .set 1 [], .change 1 Demo.goodCfg, .set 1 []] ∧ p.cur = some 1 := by
  refine ⟨_, ((((((PtrSteps.refl {}).tail (a := .change 0 Demo.goodCfg) trivial).tail (a := .set 0 []) (.refl _)).tail
    (a := .change 1 Demo.badCfg) trivial).tail (a := .set 1 []) (.refl _)).tail (a := .change 1 Demo.goodCfg) trivial).tail
    (a := .set 1 []) (.refl _), ?_, rfl⟩
  intro x i order y c z e hc
  exfalso
  rcases x with _ | ⟨a1, _ | ⟨a2, _ | ⟨a3, _ | ⟨a4, _ | ⟨a5, _ | ⟨a6, x⟩⟩⟩⟩⟩⟩ <;>
    rcases y with _ | ⟨b1, _ | ⟨b2, _ | ⟨b3, _ | ⟨b4, y⟩⟩⟩⟩ <;> simp at e
  · omega
  · omega
  · obtain ⟨rfl, rfl, rfl, ⟨rfl, -⟩, -⟩ := e
    exact absurd ((validateConfig_none_iff _).mpr hc) (by decide)

/-- C105, in any case: what a program does to its objects, and asking for further loggers, changes no logger there is,
neither its level nor its outputs, until the next `SetConfig`. -/
theorem C105_existing_partial {as bs : List PtrAct} {p p' : PtrWorld} (h : PtrSteps {} as p) (hb : PtrSteps p bs p')
    (hq : ∀ b ∈ bs, (∃ i c, b = .change i c) ∨ ∃ n, b = .lib (.getLogger n)) {n : Str} {l : Logger} (hl : loggerAt p.w n = some l) :
    loggerAt p'.w n = some l := by
  have inv := ptr_inv WInv.empty h
  obtain ⟨r, hr, hh⟩ := Option.bind_eq_some_iff.mp hl
  suffices hs : Map.get p'.w.loggers n = some r ∧ p'.w.heap[r]? = some l by simp [loggerAt, hs.1, hs.2]
  clear hl
  induction hb with
  | refl => exact ⟨hr, hh⟩
  | @tail q bs b hx hok ih =>
    have ih := ih fun b hb => hq b (by simp [hb])
    rcases hq b (by simp) with ⟨i, c, rfl⟩ | ⟨m, rfl⟩
    · simp only [PtrAct.run]
      split
      · exact ih
      · exact ih
    · have iq := ptr_inv inv hx
      exact ⟨(getLogger_spec iq m).ext.loggers n r ih.1, get_firm iq m r l ih.2⟩

/-- The logger "a" stays at level Info when its object is changed and a logger "b" is asked for. -/
example : ∃ p p' l, PtrSteps {} [.change 0 Demo.goodCfg, .set 0 [], .lib (.getLogger c!"a")] p ∧
    PtrSteps p [.change 0 Demo.badCfg, .lib (.getLogger c!"b")] p' ∧ loggerAt p.w c!"a" = some l ∧ l.level = Level.Info ∧
    HasLevel p'.w c!"b" Level.Debug :=
  ⟨_, _, _, (((PtrSteps.refl {}).tail (a := .change 0 Demo.goodCfg) trivial).tail (a := .set 0 []) (.refl _)).tail
    (a := .lib (.getLogger c!"a")) trivial, ((PtrSteps.refl _).tail (a := .change 0 Demo.badCfg) trivial).tail
    (a := .lib (.getLogger c!"b")) trivial, rfl, rfl, ⟨_, rfl, rfl, by decide⟩⟩

end Log4g
