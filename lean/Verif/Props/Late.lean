import Verif.Lemmas.Late
import Verif.Props.Demo

/-! # C146: registering creators late -/

namespace Log4g
open Spec World

/-- C146: a program that registers a creator after some calls is in the same state as one that registers it before them, if no configuration there was in the meantime needs the creator
and no other one was registered for the type. -/
theorem C146_late {w w1 : World} {a : Act} {as : List Act} (ha : Registers a) (ho : ∀ b ∈ as, ¬ SameType a b) (hn : Along (NotNeeded · a) w as) (hs : Steps w as w1) :
    ∃ w2, Steps w (a :: as) w2 ∧ SameLibrary (a.run w1) w2 := by
  obtain ⟨w2, h1, h2⟩ := steps_lates (register_lates ha w) hs (fun b hb => apart_of ha (ho b hb)) fun pre post v e k => unneeded_of ha (hn pre post v e k)
  have ok : a.ok w := by rcases ha with ⟨t, f, rfl⟩ | ⟨t, f, rfl⟩ <;> trivial
  exact ⟨w2, (Steps.tail (.refl w) ok).trans h1, lates_same ha h2⟩

/-- The conditions of `C146_late` are met: a configuration without files is set and a logger with two outputs is obtained before the creator of files is registered. -/
example (f : OutCreator) : let a : Act := .registerOutput c!"file" f
    let as : List Act := [.setConfig Demo.cfg [], .getLogger c!"x"]
    Registers a ∧ (∀ b ∈ as, ¬ SameType a b) ∧ Along (NotNeeded · a) Demo.w0 as ∧ ∃ w1, Steps Demo.w0 as w1 ∧ w1.mgr.oheap.length = 2 := by
  refine ⟨.inr ⟨_, _, rfl⟩, by simp [SameType], fun pre post v e hs => ?_, ?_⟩
  · have hv : v = pre.foldl (fun w a => a.run w) Demo.w0 := by
      clear e
      induction hs with
      | refl => rfl
      | tail _ _ ih => rw [List.foldl_append, ← ih]; rfl
    have he : ∀ x ∈ ([] : List CfgMap), x.type ≠ c!"file" := by simp
    have hd : ∀ x ∈ Demo.cfg.outputs, x.type ≠ c!"file" := by decide
    clear hs
    match pre, e, hv with
    | [], _, hv => rw [hv]; exact he
    | [_], e, hv =>
      cases e
      rw [hv]
      exact hd
    | [_, _], e, hv =>
      cases e
      rw [hv]
      exact hd
    | _ :: _ :: _ :: _, e, _ => simp at e
  · have h1 := (Steps.refl Demo.w0).tail (a := .setConfig Demo.cfg []) (List.Perm.refl _)
    exact ⟨_, h1.tail (a := .getLogger c!"x") trivial, by decide⟩

end Log4g
