import Verif.Spec.Interleaved
import Verif.Lemmas.SetUp
import Verif.Lemmas.Early

/-! # Helpers for C143 -/

namespace Log4g
open Spec World

theorem create_update (w : World) (n : Str) (p : Option Nat) {r : Nat} (hr : r < w.heap.length) (f : Logger → Logger) :
    (w.update r f).createLogger n p = ((w.createLogger n p).1, (w.createLogger n p).2.update r f) ∧ r < (w.createLogger n p).2.heap.length := by
  unfold createLogger
  rw [show (w.update r f).loggers = w.loggers from rfl]
  cases Map.get w.loggers n with
  | some q => exact ⟨rfl, hr⟩
  | none =>
    have e : (w.heap ++ [{ newLogger n with parent := p }]).modify r f = w.heap.modify r f ++ [{ newLogger n with parent := p }] := by
      refine List.ext_getElem? fun i => ?_
      simp only [List.getElem?_modify, List.getElem?_append, List.length_modify]
      by_cases h : i < w.heap.length
      · simp [h]
      · have : r ≠ i := by omega
        simp [h, this]
    refine ⟨?_, by simp; omega⟩
    simp only [update, List.length_modify, e]

theorem parent_update : ∀ (rest : Str) (w : World) (p : Nat) (before : Str) {r : Nat} (f : Logger → Logger), r < w.heap.length →
    (w.update r f).parentLoop p before rest = ((w.parentLoop p before rest).1, (w.parentLoop p before rest).2.update r f) ∧ r < (w.parentLoop p before rest).2.heap.length
  | [], _, _, _, _, _, h => ⟨rfl, h⟩
  | c :: rest, w, p, before, r, f, h => by
    simp only [parentLoop]
    split
    · obtain ⟨h1, h2⟩ := create_update w before (some p) h f
      rw [h1]
      exact parent_update rest _ _ _ f h2
    · exact parent_update rest _ _ _ f h

theorem setOutputs_update (w : World) {r q : Nat} (h : q ≠ r) (f : Logger → Logger) (ops : List Nat) : (w.update r f).setOutputs q ops = (w.setOutputs q ops).update r f :=
  update_comm w q r _ _ fun e => absurd e h

theorem configure_update (w : World) {r q : Nat} (h : q ≠ r) (f : Logger → Logger) (n : Str) : (w.update r f).configure q n = (w.configure q n).update r f := by
  unfold configure
  rw [show (w.update r f).mgr = w.mgr from rfl]
  generalize w.mgr.getLoggerOutputs n = g
  obtain ⟨a, m⟩ := g
  cases a with
  | error e => rfl
  | ok x =>
    obtain ⟨ops, lvl⟩ := x
    simp only
    rw [← setOutputs_update _ h f ops]
    congr 1
    exact update_comm { w with mgr := m } q r _ _ fun e => absurd e h

theorem get_update {w : World} (inv : WInv w) {r : Nat} (hr : r < w.heap.length) (f : Logger → Logger) (n : Str) :
    (w.update r f).getLogger n = ((w.getLogger n).1, (w.getLogger n).2.update r f) := by
  obtain ⟨x, hx⟩ := inv.rooted (fun e => by rw [e] at hr; simp at hr)
  have e1 : w.getRootLogger = (x, w) := by unfold getRootLogger; rw [hx]
  have e2 : (w.update r f).getRootLogger = (x, w.update r f) := by
    unfold getRootLogger
    rw [show (w.update r f).root = w.root from rfl, hx]
  unfold getLogger
  split
  · rw [e1, e2]
  · rw [show (w.update r f).loggers = w.loggers from rfl]
    cases hg : Map.get w.loggers n with
    | some q => rfl
    | none =>
      simp only [getParent, e1, e2]
      obtain ⟨h1, h2⟩ := parent_update n w x [] f hr
      have h3 := parent_absent n w x [] n (by simp)
      rw [h1]
      generalize w.parentLoop x [] n = pw at h2 h3
      obtain ⟨p, w1⟩ := pw
      simp only at h2 h3 ⊢
      obtain ⟨h4, _⟩ := create_update w1 n (some p) h2 f
      rw [h4]
      simp only
      rw [configure_update]
      unfold createLogger
      rw [h3, hg]
      simp only
      omega

theorem get_length {w : World} (inv : WInv w) (n : Str) : w.heap.length ≤ (w.getLogger n).2.heap.length := by
  rcases Nat.lt_or_ge (w.getLogger n).2.heap.length w.heap.length with h | h
  · have := (getLogger_spec inv n).ext
    cases hl : w.heap.length with
    | zero => omega
    | succ k =>
      have hk : k < w.heap.length := by omega
      obtain ⟨l, h1, _⟩ := (getLogger_spec inv n).inv.named _ _ (this.loggers _ _ (inv.all k _ (List.getElem?_eq_getElem hk)))
      have := (List.getElem?_eq_some_iff.mp h1).1
      omega
  · exact h

/-- A call that sets something does the same before and after a logger is obtained. -/
theorem set_get {w : World} (inv : WInv w) {a : Act} (ha : isSet a = true) (ok : a.ok w) (n : Str) : ((a.run w).getLogger n).2 = a.run (w.getLogger n).2 ∧ a.ok (w.getLogger n).2 := by
  have gl := get_length inv n
  have g := (getLogger_spec inv n)
  cases a with
  | setLevel r lvl =>
    refine ⟨?_, Nat.lt_of_lt_of_le ok gl⟩
    exact congrArg Prod.snd (get_update inv ok _ n)
  | setCallerSkip r s =>
    refine ⟨?_, Nat.lt_of_lt_of_le ok gl⟩
    exact congrArg Prod.snd (get_update inv ok _ n)
  | setOutputs r ops =>
    obtain ⟨h1, h2⟩ := ok
    obtain ⟨x, hx⟩ := g.ext.oheap
    refine ⟨?_, Nat.lt_of_lt_of_le h1 gl, fun o ho => ?_⟩
    · refine (congrArg Prod.snd (get_update inv h1 _ n)).trans ?_
      simp only [Act.run, setOutputs]
      congr 1
      funext l
      have gr : Grow w.mgr (w.getLogger n).2.mgr := ⟨g.config, g.fmtCreators, g.outCreators, g.ext.formats, g.ext.outputs, g.ext.fheap, g.ext.oheap⟩
      rw [raiseFlag_grow gr inv.mgr _ ops h2]
    · have := h2 o ho
      rw [hx]
      simp
      omega
  | _ => cases ha

theorem steps_first {a : Act} {as : List Act} {w w1 : World} : Steps w (a :: as) w1 ↔ a.ok w ∧ Steps (a.run w) as w1 := by
  constructor
  · intro h
    generalize e : a :: as = bs at h
    induction h generalizing as with
    | refl => cases e
    | @tail w' bs b hs hb ih =>
      cases bs with
      | nil =>
        cases e
        have e' : w' = w := by
          generalize e : ([] : List Act) = cs at hs
          cases hs with
          | refl => rfl
          | tail _ _ => simp at e
        subst e'
        exact ⟨hb, .refl _⟩
      | cons c cs =>
        cases e
        obtain ⟨h1, h2⟩ := ih rfl
        exact ⟨h1, h2.tail hb⟩
  · rintro ⟨h1, h2⟩
    exact (Steps.tail (.refl w) h1).trans h2

/-- Obtaining a logger can be put off until what was to be set is set. -/
theorem get_later (n : Str) (gs : List Act) : ∀ (ss : List Act) {w w1 : World}, WInv w → (∀ a ∈ ss, isSet a = true ∧ a.ok w) →
    (Steps w (.getLogger n :: (ss ++ gs)) w1 ↔ Steps w (ss ++ .getLogger n :: gs) w1)
  | [], _, _, _, _ => Iff.rfl
  | a :: ss, w, w1, inv, h => by
    obtain ⟨h1, h2⟩ := h a (.head _)
    have ha : sets a ≠ none := by intro e; simp [isSet, e] at h1
    have inv' : WInv (a.run w) := (steps_inv inv (.tail (.refl w) h2)).1
    have ih := get_later n gs ss (w1 := w1) inv' fun b hb => by
      obtain ⟨h3, h4⟩ := h b (.tail _ hb)
      exact ⟨h3, (setUp_ok ha b (by intro e; simp [isSet, e] at h3) w).mpr h4⟩
    obtain ⟨e, ok⟩ := set_get inv h1 h2 n
    rw [List.cons_append, List.cons_append, steps_first (a := a) (w := w), ← ih, steps_first, steps_first, steps_first]
    rw [show Act.run (a.run w) (.getLogger n) = a.run (Act.run w (.getLogger n)) from e]
    constructor
    · exact fun ⟨x, _, y⟩ => ⟨h2, x, y⟩
    · exact fun ⟨_, x, y⟩ => ⟨x, ok, y⟩

/-- What was set first, and then what was obtained. -/
theorem set_first : ∀ (as : List Act) {w w1 : World}, WInv w → Interleaved w as →
    (Steps w as w1 ↔ Steps w (as.filter isSet ++ as.filter isGet) w1)
  | [], _, _, _, _ => Iff.rfl
  | a :: as, w, w1, inv, h => by
    rcases h a (.head _) with hg | ⟨h1, h2⟩
    · cases a with
      | getLogger n =>
        have inv' : WInv (w.getLogger n).2 := (steps_inv inv (.tail (a := .getLogger n) (.refl w) trivial)).1
        have ih := set_first as (w1 := w1) inv' fun b hb => (h b (.tail _ hb)).imp id fun ⟨x, y⟩ => ⟨x, (set_get inv x y n).2⟩
        rw [show (Act.getLogger n :: as).filter isSet = as.filter isSet from rfl, show (Act.getLogger n :: as).filter isGet = .getLogger n :: as.filter isGet from rfl,
          ← get_later n _ _ inv, steps_first, steps_first]
        · exact and_congr_right fun _ => ih
        · intro b hb
          obtain ⟨hb, hs⟩ := List.mem_filter.mp hb
          refine ⟨hs, ?_⟩
          rcases h b (.tail _ hb) with hg | ⟨_, h⟩
          · cases b <;> first | (cases hg; done) | (cases hs; done)
          · exact h
      | _ => cases hg
    · have ha : sets a ≠ none := by intro e; simp [isSet, e] at h1
      have hn : isGet a = false := by cases a <;> first | rfl | cases h1
      have inv' : WInv (a.run w) := (steps_inv inv (.tail (.refl w) h2)).1
      have ih := set_first as (w1 := w1) inv' fun b hb => (h b (.tail _ hb)).imp id fun ⟨x, y⟩ => ⟨x, (setUp_ok ha b (by intro e; simp [isSet, e] at x) w).mpr y⟩
      rw [List.filter_cons_of_pos h1, List.filter_cons_of_neg (by simp [hn]), List.cons_append, steps_first, steps_first]
      exact and_congr_right fun _ => ih

end Log4g
