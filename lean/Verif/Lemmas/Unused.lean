import Verif.Spec.Unused
import Verif.Lemmas.Shuffled

/-! # Helpers for C139 -/

namespace Log4g
open Spec World

/-- Names do not occur twice: whatever has the name is what is found. -/
theorem find_only {α : Type} (f : α → Str) {l : List α} (hn : (l.map f).Nodup) {x : α} (hx : x ∈ l) : l.find? (fun y => f y = f x) = some x := by
  induction l with
  | nil => cases hx
  | cons y l ih =>
    simp only [List.map_cons, List.nodup_cons] at hn
    simp only [List.find?_cons]
    rcases List.mem_cons.mp hx with h | h
    · rw [h]; simp
    · by_cases e : f y = f x
      · exact absurd (e ▸ List.mem_map_of_mem (f := f) h) hn.1
      · simp [e, ih hn.2 h]

theorem find_both {α : Type} (f : α → Str) {l l' : List α} (hn : (l.map f).Nodup) (hn' : (l'.map f).Nodup) {x : α} (hx : x ∈ l) (hx' : x ∈ l') {n : Str} (e : f x = n) :
    l'.find? (fun y => f y = n) = some x ∧ l.find? (fun y => f y = n) = some x := by
  subst e
  exact ⟨find_only f hn' hx', find_only f hn hx⟩

theorem extends_agree {c c' : Config} (h : Extends c c') (hc : Consistent c) (hc' : Consistent c') : AnswersAlike c c' := by
  refine ⟨fun l hl n hn => ?_, fun n _ => ?_⟩
  · obtain ⟨o, ho, e⟩ := hc.loggerOutputs l hl n hn
    obtain ⟨a1, a2⟩ := find_both CfgMap.name hc.outputs hc'.outputs ho (h.outputs o ho) e
    obtain ⟨f, hf, e'⟩ := hc.outputFormats o ho
    obtain ⟨b1, b2⟩ := find_both CfgMap.name hc.formats hc'.formats hf (h.formats f hf) e'
    have e1 : c.getCfgOutput n = o := by simp only [Config.getCfgOutput, a2]; rfl
    have e2 : c'.getCfgOutput n = o := by simp only [Config.getCfgOutput, a1]; rfl
    refine ⟨e2.trans e1.symm, ?_⟩
    rw [e1]
    have e3 : c.getCfgFormat o.formatName = f := by
      simp only [Config.getCfgFormat]
      exact congrArg (Option.getD · none) b2
    have e4 : c'.getCfgFormat o.formatName = f := by
      simp only [Config.getCfgFormat]
      exact congrArg (Option.getD · none) b1
    exact e4.trans e3.symm
  · simp only [Config.getCfgLogger, h.loggers]

theorem ok_behind {c c' : Config} {w w' : World} (h : Behind c c' w w') (a : Act) (ha : a.ok w') : a.ok w := by
  rcases h with h | ⟨_, h⟩
  · rw [h] at ha; exact ha
  · rw [h] at ha; cases a <;> exact ha

theorem steps_ahead {S : Str → Prop} {c c' : Config} (ag : AnswersOn S c c') (hr : S rootLoggerName) {w w' : World} (h : Behind c c' w w') {as : List Act} {w2 : World}
    (hS : ∀ a ∈ as, About S a) (hs : Steps w' as w2) :
    ∃ w1, Steps w as w1 ∧ Behind c c' w1 w2 := by
  induction hs with
  | refl => exact ⟨w, .refl _, h⟩
  | tail _ ha ih =>
    obtain ⟨w1, h1, h2⟩ := ih fun a h => hS a (List.mem_append_left _ h)
    have h3 := ok_behind h2 _ ha
    exact ⟨_, .tail h1 h3, (act_behind ag hr h2 _ (hS _ (by simp)) h3).2⟩

end Log4g
