import Verif.Spec.LastCounts
import Verif.Lemmas.SetUp

/-! # Helpers for C144 -/

namespace Log4g
open Spec World

/-- A call followed, sooner or later, by one that sets the same can be left out. -/
theorem absorb {α : Type} (run : α → Act → α) (a : Act) : ∀ (as : List Act) (v : α),
    (∀ b ∈ as, sets b = sets a → ∀ v, run (run v a) b = run v b) → (∀ b ∈ as, sets b ≠ sets a → ∀ v, run (run v a) b = run (run v b) a) →
    (∃ b ∈ as, sets b = sets a) → as.foldl run (run v a) = as.foldl run v
  | [], _, _, _, h => by simp at h
  | c :: as, v, h1, h2, h => by
    simp only [List.foldl_cons]
    by_cases e : sets c = sets a
    · rw [h1 c (.head _) e]
    · rw [h2 c (.head _) e]
      refine absorb run a as _ (fun b hb => h1 b (.tail _ hb)) (fun b hb => h2 b (.tail _ hb)) ?_
      obtain ⟨b, hb, hs⟩ := h
      rcases List.mem_cons.mp hb with rfl | hb
      · exact absurd hs e
      · exact ⟨b, hb, hs⟩

theorem fold_last {α : Type} (run : α → Act → α) : ∀ (as : List Act) (v : α),
    as.Pairwise (fun a b => sets b = sets a → ∀ v, run (run v a) b = run v b) → as.Pairwise (fun a b => sets b ≠ sets a → ∀ v, run (run v a) b = run (run v b) a) →
    as.foldl run v = (lastOnly as).foldl run v
  | [], _, _, _ => rfl
  | a :: as, v, h1, h2 => by
    rw [List.pairwise_cons] at h1 h2
    have ih := fun v => fold_last run as v h1.2 h2.2
    unfold lastOnly
    split
    · rename_i h
      rw [← ih v, List.foldl_cons]
      refine absorb run a as v h1.1 h2.1 ?_
      simpa using h
    · exact ih _

theorem last_mem {a : Act} : ∀ {as : List Act}, a ∈ lastOnly as → a ∈ as
  | [], h => h
  | b :: as, h => by
    unfold lastOnly at h
    split at h
    · exact .tail _ (last_mem h)
    · rcases List.mem_cons.mp h with rfl | h
      · exact .head _
      · exact .tail _ (last_mem h)

/-- What a call sets, but for the need for caller information. -/
def effect (w : World) : Act → World
  | .setLevel r lvl => w.update r fun l => { l with level := lvl }
  | .setCallerSkip r s => w.update r fun l => { l with callerSkip := Log4g.callerSkip + s }
  | .setOutputs r ops => w.update r fun l => { l with outputs := ops }
  | _ => w

/-- The state without the need for caller information. -/
def careless (w : World) : World := { w with heap := w.heap.map fun l => { l with callerInfoFlag := 0 } }

theorem careless_update (w : World) (r : Nat) (f g : Logger → Logger) (h : ∀ l, { f l with callerInfoFlag := 0 } = g { l with callerInfoFlag := 0 }) :
    careless (w.update r f) = (careless w).update r g := by
  simp only [careless, update]
  congr 1
  refine List.ext_getElem? fun i => ?_
  simp only [List.getElem?_map, List.getElem?_modify]
  cases w.heap[i]? with
  | none => rfl
  | some l => by_cases e : r = i <;> simp [e, h]

theorem careless_run {a : Act} (ha : sets a ≠ none) (w : World) : careless (a.run w) = effect (careless w) a := by
  cases a <;> first | exact absurd rfl ha | exact careless_update w _ _ _ fun _ => rfl

theorem careless_fold : ∀ {as : List Act}, OnlySets as → ∀ w : World, careless (as.foldl (fun w a => a.run w) w) = as.foldl effect (careless w)
  | [], _, _ => rfl
  | a :: as, h, w => by
    simp only [List.foldl_cons]
    rw [careless_fold (fun b hb => h b (.tail _ hb)), careless_run (h a (.head _))]

theorem update_again (w : World) (r : Nat) (f g : Logger → Logger) (h : ∀ l, g (f l) = g l) : (w.update r f).update r g = w.update r g := by
  simp only [update]
  congr 1
  refine List.ext_getElem? fun i => ?_
  simp only [List.getElem?_modify]
  cases w.heap[i]? with
  | none => rfl
  | some l => by_cases e : r = i <;> simp [e, h]

theorem effect_again {a b : Act} (ha : sets a ≠ none) (h : sets b = sets a) (w : World) : effect (effect w a) b = effect w b := by
  cases a <;> first | exact absurd rfl ha | skip
  all_goals cases b <;> first | (cases h; done) | skip
  all_goals
    cases h
    exact update_again w _ _ _ fun _ => rfl

theorem effect_comm {a b : Act} (ha : sets a ≠ none) (hb : sets b ≠ none) (h : sets b ≠ sets a) (w : World) : effect (effect w a) b = effect (effect w b) a := by
  cases a <;> first | exact absurd rfl ha | skip
  all_goals cases b <;> first | exact absurd rfl hb | skip
  all_goals
    refine update_comm w _ _ _ _ ?_
    intro e
    first
    | (subst e; exact absurd rfl h)
    | exact fun _ => rfl

theorem run_again {a b : Act} (ha : sets a ≠ none) (h : sets b = sets a) (ho : ∀ r, sets a ≠ some (.outputs, r)) (w : World) : b.run (a.run w) = b.run w := by
  cases a <;> first | exact absurd rfl ha | exact absurd rfl (ho _) | skip
  all_goals cases b <;> first | (cases h; done) | skip
  all_goals
    cases h
    exact update_again w _ _ _ fun _ => rfl

/-- Loggers of `w` that need caller information need it in `w'` as well. -/
def NeedsLess (w w' : World) : Prop := w.mgr = w'.mgr ∧ ∀ (r : Nat) l l', w.heap[r]? = some l → w'.heap[r]? = some l' → l.callerInfoFlag ≤ l'.callerInfoFlag

theorem careless_same {w w' : World} (h : careless w = careless w') (hn : NeedsLess w' w) : SameButNeeds w w' := by
  have hm : w.heap.map (fun l => { l with callerInfoFlag := 0 }) = w'.heap.map fun l => { l with callerInfoFlag := 0 } := congrArg World.heap h
  refine ⟨(congrArg World.mgr h).symm, (congrArg World.root h).symm, (congrArg World.loggers h).symm, ?_, fun r l l' e e' => ?_⟩
  · simpa using (congrArg List.length hm).symm
  · have := congrArg (·[r]?) hm
    simp only [List.getElem?_map, e, e', Option.map_some, Option.some.injEq, Logger.mk.injEq] at this
    obtain ⟨h1, h2, h3, h4, h5, _⟩ := this
    exact ⟨h1.symm, h2.symm, h3.symm, h5.symm, h4.symm, hn.2 r l' l e' e⟩

theorem raiseFlag_mono (m : Manager) : ∀ (ops : List Nat) {f f' : Int}, f ≤ f' → raiseFlag m f ops ≤ raiseFlag m f' ops
  | [], _, _, h => h
  | o :: os, f, f', h => by
    simp only [raiseFlag]
    refine raiseFlag_mono m os ?_
    split <;> split <;> omega

theorem raiseFlag_above (m : Manager) : ∀ (ops : List Nat) (f : Int), f ≤ raiseFlag m f ops
  | [], _ => Int.le_refl _
  | o :: os, f => by
    simp only [raiseFlag]
    refine Int.le_trans ?_ (raiseFlag_above m os _)
    split <;> omega

theorem needs_update {w w' : World} (h : NeedsLess w w') (r : Nat) (f g : Logger → Logger) (hf : ∀ l l', l.callerInfoFlag ≤ l'.callerInfoFlag → (f l).callerInfoFlag ≤ (g l').callerInfoFlag) :
    NeedsLess (w.update r f) (w'.update r g) := by
  refine ⟨h.1, fun q l l' e e' => ?_⟩
  simp only [update, List.getElem?_modify] at e e'
  cases hx : w.heap[q]? with
  | none => simp [hx] at e
  | some x =>
  cases hy : w'.heap[q]? with
  | none => simp [hy] at e'
  | some y =>
  simp only [hx, hy, Option.map_eq_map, Option.map_some, Option.some.injEq] at e e'
  subst e e'
  have := h.2 q x y hx hy
  split
  · exact hf x y this
  · exact this

theorem needs_run {a : Act} (ha : sets a ≠ none) {w w' : World} (h : NeedsLess w w') : NeedsLess (a.run w) (a.run w') := by
  cases a <;> first | exact absurd rfl ha | skip
  · exact needs_update h _ _ _ fun _ _ e => e
  · exact needs_update h _ _ _ fun _ _ e => e
  · refine needs_update h _ _ _ fun l l' e => ?_
    rw [h.1]
    exact raiseFlag_mono _ _ e

theorem needs_more {a : Act} (ha : sets a ≠ none) {w w' : World} (h : NeedsLess w w') : NeedsLess w (a.run w') := by
  have key : ∀ (r : Nat) (g : Logger → Logger), (∀ l, l.callerInfoFlag ≤ (g l).callerInfoFlag) → NeedsLess w (w'.update r g) := by
    intro r g hg
    have := needs_update h r id g fun l l' e => Int.le_trans e (hg l')
    simpa [update] using this
  cases a <;> first | exact absurd rfl ha | skip
  · exact key _ _ fun _ => Int.le_refl _
  · exact key _ _ fun _ => Int.le_refl _
  · exact key _ _ fun l => raiseFlag_above _ _ _

theorem needs_last : ∀ {as : List Act}, OnlySets as → ∀ {w w' : World}, NeedsLess w w' →
    NeedsLess ((lastOnly as).foldl (fun w a => a.run w) w) (as.foldl (fun w a => a.run w) w')
  | [], _, _, _, h => h
  | a :: as, ha, w, w', h => by
    unfold lastOnly
    have ho : OnlySets as := fun b hb => ha b (.tail _ hb)
    split
    · exact needs_last ho (needs_more (ha a (.head _)) h)
    · exact needs_last ho (needs_run (ha a (.head _)) h)

end Log4g
