import Verif.Spec.SetUp
import Verif.Lemmas.World

/-! # Helpers for C141 -/

namespace Log4g
open Spec World

theorem modify_comm {α : Type} (l : List α) (r q : Nat) (f g : α → α) (h : r = q → ∀ x, f (g x) = g (f x)) : (l.modify q g).modify r f = (l.modify r f).modify q g := by
  refine List.ext_getElem? fun i => ?_
  simp only [List.getElem?_modify]
  cases l[i]? with
  | none => rfl
  | some x =>
    by_cases e : r = i
    · by_cases e' : q = i
      · simp [e, e', h (e.trans e'.symm) x]
      · simp [e, e']
    · simp [e]

theorem update_comm (w : World) (r q : Nat) (f g : Logger → Logger) (h : r = q → ∀ x, f (g x) = g (f x)) : (w.update q g).update r f = (w.update r f).update q g := by
  simp only [update, modify_comm w.heap r q f g h]

theorem setUp_comm {a b : Act} (ha : sets a ≠ none) (hb : sets b ≠ none) (h : sets a ≠ sets b) (w : World) : b.run (a.run w) = a.run (b.run w) := by
  cases a <;> first | exact absurd rfl ha | skip
  all_goals cases b <;> first | exact absurd rfl hb | skip
  all_goals
    refine update_comm w _ _ _ _ ?_
    intro e
    first
    | (subst e; exact absurd rfl h)
    | exact fun _ => rfl

theorem setUp_ok {a : Act} (ha : sets a ≠ none) (b : Act) (hb : sets b ≠ none) (w : World) : b.ok (a.run w) ↔ b.ok w := by
  cases a <;> first | exact absurd rfl ha | skip
  all_goals cases b <;> first | exact absurd rfl hb | skip
  all_goals simp [Act.ok, Act.run, setLevel, setCallerSkip, setOutputs, update]

theorem steps_fold {as : List Act} (h : ∀ a ∈ as, sets a ≠ none) (w w1 : World) : Steps w as w1 ↔ (∀ a ∈ as, a.ok w) ∧ w1 = as.foldl (fun w a => a.run w) w := by
  constructor
  · intro hs
    induction hs with
    | refl => exact ⟨by simp, rfl⟩
    | @tail w' as a _ ha ih =>
      obtain ⟨h1, h2⟩ := ih fun a h' => h a (List.mem_append_left _ h')
      refine ⟨fun b hb => ?_, by rw [List.foldl_append, ← h2]; rfl⟩
      rcases List.mem_append.mp hb with hb | hb
      · exact h1 b hb
      · rw [List.mem_singleton.mp hb]
        have hk : sets a ≠ none := h a (by simp)
        have key : ∀ (as : List Act) (w : World), (∀ a ∈ as, sets a ≠ none) → (a.ok (as.foldl (fun w a => a.run w) w) ↔ a.ok w) := by
          intro as
          induction as with
          | nil => exact fun _ _ => Iff.rfl
          | cons c cs ih => exact fun w hc => (ih _ fun a h => hc a (.tail _ h)).trans (setUp_ok (hc c (.head _)) a hk w)
        exact (key as w fun a h' => h a (List.mem_append_left _ h')).mp (h2 ▸ ha)
  · rintro ⟨h1, rfl⟩
    induction as generalizing w with
    | nil => exact .refl _
    | cons a as ih =>
      have s : Steps w [a] (a.run w) := .tail (.refl w) (h1 a (.head _))
      exact s.trans (ih (fun b hb => h b (.tail _ hb)) (a.run w) fun b hb => (setUp_ok (h a (.head _)) b (h b (.tail _ hb)) w).mpr (h1 b (.tail _ hb)))

theorem sets_inj {as : List Act} (h : (as.map sets).Nodup) {a b : Act} (ha : a ∈ as) (hb : b ∈ as) (e : sets a = sets b) : a = b := by
  induction as with
  | nil => cases ha
  | cons c cs ih =>
    simp only [List.map_cons, List.nodup_cons] at h
    rcases List.mem_cons.mp ha with rfl | ha'
    · rcases List.mem_cons.mp hb with rfl | hb
      · rfl
      · exact absurd (e ▸ List.mem_map_of_mem hb) h.1
    · rcases List.mem_cons.mp hb with rfl | hb
      · exact absurd (e ▸ List.mem_map_of_mem ha') h.1
      · exact ih h.2 ha' hb

end Log4g
