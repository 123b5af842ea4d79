import Verif.Lemmas.Registrations
import Verif.Props.Demo

/-! # C145: registering creators -/

namespace Log4g
open Spec World

/-- C145: two programs that register creators, the same ones last for every type, and go on in the same way are in the same state, whatever they do. -/
theorem C145_registrations {w w1 : World} {rs rs' as : List Act} (h : Registrations rs) (h' : Registrations rs') (hl : SameLast rs rs') (hs : Steps w (rs ++ as) w1) :
    ∃ w2, Steps w (rs' ++ as) w2 ∧ SameLibrary w1 w2 := by
  obtain ⟨v, h1, h2⟩ := steps_parts hs
  obtain ⟨v', h3⟩ := registrations_steps h' w
  obtain ⟨w2, h4, h5⟩ := steps_twins (registered_twins h h' hl h1 h3) h2
  exact ⟨w2, h3.trans h4, twins_same h5⟩

/-- C145: in particular the order of the registrations does not matter if no type is registered twice. -/
theorem C145_any_order {w w1 : World} {rs rs' as : List Act} (h : Registrations rs) (ho : OncePerType rs) (hp : rs.Perm rs') (hs : Steps w (rs ++ as) w1) :
    ∃ w2, Steps w (rs' ++ as) w2 ∧ SameLibrary w1 w2 := by
  have ho' : OncePerType rs' := hp.pairwise ho fun {a b} k t => ⟨fun f g e => (k t).1 g f ⟨e.2, e.1⟩, fun f g e => (k t).2 g f ⟨e.2, e.1⟩⟩
  refine C145_registrations h (fun a ha => h a (hp.mem_iff.mpr ha)) (fun t => ⟨fun f => ?_, fun f => ?_⟩) hs
  · rw [once_lastF ho, once_lastF ho', hp.mem_iff]
  · rw [once_lastO ho, once_lastO ho', hp.mem_iff]

/-- The conditions of `C145_any_order` are met by a formatter and two outputs. -/
example (c1 c2 : OutCreator) (f : FmtCreator) : let rs : List Act := [.registerOutput c!"console" c1, .registerFormatter c!"console" f, .registerOutput c!"file" c2]
    Registrations rs ∧ OncePerType rs ∧ ∃ w1, Steps {} (rs ++ []) w1 := by
  have h : Registrations [.registerOutput c!"console" c1, .registerFormatter c!"console" f, .registerOutput c!"file" c2] := by simp [Registrations]
  refine ⟨h, ?_, by rw [List.append_nil]; exact registrations_steps h {}⟩
  simp only [OncePerType, List.pairwise_cons, List.mem_cons, List.not_mem_nil, or_false]
  refine ⟨?_, ?_, ?_, .nil⟩
  · rintro b (rfl | rfl) t <;> refine ⟨fun f g e => ?_, fun f g e => ?_⟩ <;> obtain ⟨e1, e2⟩ := e <;> simp at e1 e2
    exact absurd (e1.1.trans e2.1.symm) (by decide)
  · rintro b rfl t
    refine ⟨fun f g e => ?_, fun f g e => ?_⟩ <;> obtain ⟨e1, e2⟩ := e <;> simp at e1 e2
  · simp

/-- The conditions of `C145_registrations` are met by a program that registers a creator that it replaces, and one that registers the others in another order. -/
example : ∃ (c1 c2 : OutCreator) (f : FmtCreator),
    let rs : List Act := [.registerOutput c!"console" c1, .registerFormatter c!"text" f, .registerOutput c!"console" c2]
    let rs' : List Act := [.registerOutput c!"console" c2, .registerFormatter c!"text" f]
    c1 0 none ≠ c2 0 none ∧ Registrations rs ∧ Registrations rs' ∧ SameLast rs rs' ∧ ∃ w1, Steps {} (rs ++ [.setConfig Demo.cfg [], .getLogger c!"x"]) w1 ∧ w1.mgr.oheap.length = 2 := by
  refine ⟨fun _ _ => .error c!"no", fun _ _ => .ok (), fun _ _ => .ok 2, by simp, by simp [Registrations], by simp [Registrations], fun t => ⟨fun g => ?_, fun g => ?_⟩, ?_⟩
  · rw [show ∀ a b c : Act, [a, b, c] = [] ++ [a] ++ [b] ++ [c] from fun _ _ _ => rfl, show ∀ a b : Act, [a, b] = [] ++ [a] ++ [b] from fun _ _ => rfl]
    have n : ¬ LastFormatter [] t g := by rintro ⟨_, _, e, _⟩; simp at e
    simp only [lastF_snoc]
    simp [n]
  · rw [show ∀ a b c : Act, [a, b, c] = [] ++ [a] ++ [b] ++ [c] from fun _ _ _ => rfl, show ∀ a b : Act, [a, b] = [] ++ [a] ++ [b] from fun _ _ => rfl]
    have n : ¬ LastOutput [] t g := by rintro ⟨_, _, e, _⟩; simp at e
    simp only [lastO_snoc]
    by_cases e : c!"console" = t
    · subst e; simp [n]
    · simp [n]
      exact fun a b => absurd b a
  · have h1 := (Steps.refl {}).tail (a := .registerOutput c!"console" (fun _ _ => .error c!"no")) trivial
    have h2 := h1.tail (a := .registerFormatter c!"text" (fun _ _ => .ok 2)) trivial
    have h3 := h2.tail (a := .registerOutput c!"console" (fun _ _ => .ok ())) trivial
    have h4 := h3.tail (a := .setConfig Demo.cfg []) (List.Perm.refl _)
    exact ⟨_, h4.tail (a := .getLogger c!"x") trivial, by decide⟩

end Log4g
