import Verif.Lemmas.Slices

/-! # C108: a slice that is changed after `SetOutputs`

The claim is: the outputs of a logger are those in the slice when `SetOutputs` was called with it. -/

namespace Log4g
open Spec World

namespace Demo

/-- Two outputs of the user's own, one of which wants caller information; the root logger is given the plain one; then the
program puts the other one into its slice. -/
def swapped : List SlcAct :=
  [.lib (.getLogger c!"root"), .lib (.userOutput 0), .lib (.userOutput 2), .make [1], .set 0 0, .assign 0 0 2]

theorem swapped_runs : SlcSteps {} swapped (swapped.foldl SlcAct.run {}) :=
  ((((((SlcSteps.refl {}).tail (a := .lib (.getLogger c!"root")) trivial).tail (a := .lib (.userOutput 0)) trivial).tail
    (a := .lib (.userOutput 2)) trivial).tail (a := .make [1]) (by unfold SlcAct.ok; decide +kernel)).tail (a := .set 0 0)
      ⟨by decide +kernel, [1], by decide +kernel, by decide +kernel⟩).tail (a := .assign 0 0 2) ⟨⟨[1], by decide +kernel, by decide⟩, by decide +kernel⟩

end Demo

/-- C108 fails: the program assigns to an element of the slice, and the logger has other outputs than with a copy.  One of
them wants the caller and its logger does not look for it. -/
theorem C108_given_refuted : ∃ (as : List SlcAct) (i k o : Nat) (n : Str) (p : SlcWorld) (w : World) (before : List Nat) (l : Logger),
    SlcSteps {} (as ++ [.assign i k o]) p ∧ Steps {} (cloned [] (as ++ [.assign i k o])) w ∧ HasOutputs w n before ∧ o ∉ before ∧
    loggerAt p.w n = some l ∧ o ∈ l.outputs ∧ Wants p.w o 2 ∧ l.callerInfoFlag = 0 := by
  refine ⟨[.lib (.getLogger c!"root"), .lib (.userOutput 0), .lib (.userOutput 2), .make [1], .set 0 0], 0, 0, 2, c!"root", _, _, [1],
    { newLogger c!"root" with level := Level.Debug, outputs := [2] }, Demo.swapped_runs,
    ((((Steps.refl {}).tail (a := .getLogger c!"root") trivial).tail (a := .userOutput 0) trivial).tail
    (a := .userOutput 2) trivial).tail (a := .setOutputs 0 [1]) ⟨by decide +kernel, by decide +kernel⟩, ⟨_, rfl, rfl⟩,
    by decide, rfl, by decide, ⟨{ origin := .user 2, fmt := none }, rfl, .inl rfl⟩, rfl⟩

/-- C108, what holds: a program that never assigns to a slice a logger still has does the same as one that passes
copies. -/
theorem C108_copies_partial {p0 p : SlcWorld} {as : List SlcAct} (h : SlcSteps p0 as p) (hr : KeepsOff p0 as) :
    Steps p0.w (cloned p0.slices as) p.w := slc_cloned h hr

/-- A program that assigns to its slice when the logger has been given another one. -/
example : ∃ p, SlcSteps {} [.lib (.getLogger c!"root"), .make [0], .set 0 0, .lib (.setOutputs 0 []), .assign 0 0 0] p ∧
    KeepsOff {} [.lib (.getLogger c!"root"), .make [0], .set 0 0, .lib (.setOutputs 0 []), .assign 0 0 0] := by
  refine ⟨_, (((((SlcSteps.refl {}).tail (a := .lib (.getLogger c!"root")) trivial).tail (a := .make [0]) (by unfold SlcAct.ok; decide +kernel)).tail
    (a := .set 0 0) ⟨by decide +kernel, [0], by decide +kernel, by decide +kernel⟩).tail (a := .lib (.setOutputs 0 [])) ⟨by decide +kernel, by simp⟩).tail
    (a := .assign 0 0 0) ⟨⟨[0], by decide +kernel, by decide⟩, by decide +kernel⟩, ?_⟩
  intro x i k o y p e hp r
  have hf := slc_fold hp
  rcases x with _ | ⟨a, _ | ⟨b, _ | ⟨c, _ | ⟨d, _ | ⟨g, x⟩⟩⟩⟩⟩ <;> simp at e
  obtain ⟨rfl, rfl, rfl, rfl, -⟩ := e
  subst hf
  simp only [List.foldl, SlcAct.run, Act.heldAfter, letGo]
  by_cases h : r = 0 <;> simp [h]

/-- C108, in any case: with copies the program runs as well, and everything is the same but the outputs of loggers: the
loggers there are, their parents, levels and caller settings, and the outputs and formatters that were made. -/
theorem C108_rest_partial {p0 p : SlcWorld} {as : List SlcAct} (h : SlcSteps p0 as p) :
    ∃ w, Steps p0.w (cloned p0.slices as) w ∧ w.mgr = p.w.mgr ∧ w.root = p.w.root ∧ w.loggers = p.w.loggers ∧
      ∀ n l, loggerAt p.w n = some l → ∃ ops, loggerAt w n = some { l with outputs := ops } := by
  obtain ⟨w, hs, hw⟩ := slc_alongside h
  refine ⟨w, hs, hw.mgr.symm, hw.root.symm, hw.loggers.symm, ?_⟩
  intro n l hl
  obtain ⟨r, hr, hh⟩ := Option.bind_eq_some_iff.mp hl
  rcases (hw.heap r).cases with ⟨h1, -⟩ | ⟨l1, l2, h1, h2, h3, -⟩
  · rw [h1] at hh; cases hh
  · rw [hh] at h1
    injection h1 with h1
    subst h1
    refine ⟨l2.outputs, ?_⟩
    simp only [loggerAt, ← hw.loggers, hr, Option.bind_some, h2]
    obtain ⟨e1, e2, e3, e4, e5⟩ := strip_eq.mp h3
    cases l; cases l2; simp_all

example : ∃ p, SlcSteps {} Demo.swapped p ∧ ∃ l, loggerAt p.w c!"root" = some l ∧ l.outputs = [2] :=
  ⟨_, Demo.swapped_runs, _, rfl, rfl⟩

/-- C108, in any case: until the logger is given other outputs, it has those that are in the slice at present. -/
theorem C108_present_partial {p p' : SlcWorld} {as bs : List SlcAct} {n : Str} {r i : Nat} (h : SlcSteps {} as p)
    (hn : Map.get p.w.loggers n = some r) (hb : SlcSteps p (.set r i :: bs) p') (hr : ∀ b ∈ bs, ¬ Regives r b) :
    ∃ ops, p'.slices[i]? = some ops ∧ HasOutputs p'.w n ops := by
  obtain ⟨h0, h1⟩ := slc_cons hb
  have hp : SlcSteps {} (as ++ [.set r i]) (SlcAct.run p (.set r i)) := h.tail h0
  obtain ⟨hlt, ops, hs, -⟩ := h0
  have hh : Has (SlcAct.run p (.set r i)) r i := by
    refine ⟨by simp [SlcAct.run], ?_⟩
    obtain ⟨l, hl⟩ : ∃ l, p.w.heap[r]? = some l := ⟨_, List.getElem?_eq_getElem hlt⟩
    refine ⟨{ l with outputs := ops, callerInfoFlag := raiseFlag p.w.mgr l.callerInfoFlag ops }, ?_, hs⟩
    simp [SlcAct.run, World.setOutputs, World.update, hl, hs]
  obtain ⟨-, l, hl, hs'⟩ := has_after hp hh h1 hr
  exact ⟨l.outputs, hs', l, by simp [loggerAt, slc_named h hb hn, hl], rfl⟩

/-- The root logger of `Demo.swapped`. -/
example : ∃ p p', SlcSteps {} [.lib (.getLogger c!"root"), .lib (.userOutput 0), .lib (.userOutput 2), .make [1]] p ∧
    SlcSteps p (.set 0 0 :: [.assign 0 0 2, .lib (.getLogger c!"a")]) p' ∧ Map.get p.w.loggers c!"root" = some 0 ∧
    ∀ b ∈ [SlcAct.assign 0 0 2, .lib (.getLogger c!"a")], ¬ Regives 0 b :=
  ⟨_, _, ((((SlcSteps.refl {}).tail (a := .lib (.getLogger c!"root")) trivial).tail (a := .lib (.userOutput 0)) trivial).tail
    (a := .lib (.userOutput 2)) trivial).tail (a := .make [1]) (by unfold SlcAct.ok; decide +kernel),
    (((SlcSteps.refl _).tail (a := .set 0 0) ⟨by decide +kernel, [1], by decide +kernel, by decide +kernel⟩).tail
      (a := .assign 0 0 2) ⟨⟨[1], by decide +kernel, by decide⟩, by decide +kernel⟩).tail (a := .lib (.getLogger c!"a")) trivial,
    by decide +kernel, by simp [Regives]⟩

end Log4g
