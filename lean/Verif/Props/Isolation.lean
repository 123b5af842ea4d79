import Verif.Lemmas.Isolation
import Verif.Props.Demo
import Verif.Props.Logger

/-! # C133: what is done to other loggers -/

namespace Log4g
open Spec World

/-- C133: after any calls none of which concerns a logger, every log call through it, with whatever context, level and arguments, sends the same events to the
same outputs as before. -/
theorem C133_logging {V : Type} {w w' : World} (hw : Reach w) {as : List Act} (h : Steps w as w') {n : Str} {ps : List Str} (hp : Path n ps) {r : Nat}
    (hr : Map.get w.loggers n = some r) (he : Elsewhere w n ps as) (now : Nat) (stack : List Frame) (ctx : Ctx V) (lvl : Level) (fmt : Str) (args : List V) :
    w'.printf now stack r ctx lvl fmt args = w.printf now stack r ctx lvl fmt args := by
  have inv := reach_inv hw
  have hn : n ∈ ps := by cases hp <;> exact .head _
  obtain ⟨k1, k2⟩ := steps_kept hn inv h he
  obtain ⟨l, h1, _⟩ := inv.named _ _ hr
  obtain ⟨l', h2, e⟩ := k1 n hn r l hr h1
  obtain ⟨l2, h3, e'⟩ := k2 r l hr h1
  rw [h2] at h3
  cases h3
  unfold printf
  simp only [h1, h2, e.1, e']
  exact write_kept inv now hp k1 hr (heap_lt h1) (heap_lt h2) _ ctx _ _ lvl fmt args

/-- C133: and its level, and so which levels it lets pass, is the same. -/
theorem C133_level {w w' : World} (hw : Reach w) {as : List Act} (h : Steps w as w') {n : Str} {ps : List Str} (hp : Path n ps) {r : Nat}
    (hr : Map.get w.loggers n = some r) (he : Elsewhere w n ps as) : w'.level r = w.level r ∧ ∀ lvl, w'.levelEnabled r lvl = w.levelEnabled r lvl := by
  have inv := reach_inv hw
  have hn : n ∈ ps := by cases hp <;> exact .head _
  have := level_kept inv hp (steps_kept hn inv h he).1 hr
  exact ⟨this, fun lvl => by unfold levelEnabled; rw [this]⟩

/-- In the sample program, changes to "x", a caller skip for the root, a configuration that is refused, one with an entry for "x" only, and a new logger below "a/b" do not
concern "a/b". -/
def elsewhereActs : List Act :=
  [.setLevel 3 7, .setOutputs 3 [], .setCallerSkip 0 4, .setConfig { loggers := [⟨c!"a", c!"debug", [c!"none"]⟩] } [3, 2, 1, 0],
    .setConfig { Demo.cfg with loggers := [⟨c!"x", c!"error", [c!"o2"]⟩] } [0, 1, 2, 3], .getLogger c!"a/b/c"]

theorem elsewhere_nil (w : World) (n : Str) (ps : List Str) : Elsewhere w n ps [] := fun as1 a as2 v e => by simp at e

theorem elsewhere_cons {w : World} {n : Str} {ps : List Str} {a : Act} {as : List Act} (ha : ¬ Concerns w n ps a) (h : Elsewhere (a.run w) n ps as) (hok : ∀ as1 v, Steps w (a :: as1) v → Steps (a.run w) as1 v) :
    Elsewhere w n ps (a :: as) := by
  intro as1 b as2 v e hs
  cases as1 with
  | nil =>
    simp only [List.nil_append, List.cons.injEq] at e
    obtain ⟨rfl, _⟩ := e
    rw [steps_run hs]
    exact ha
  | cons c as1 =>
    simp only [List.cons_append, List.cons.injEq] at e
    obtain ⟨rfl, rfl⟩ := e
    exact h as1 b as2 v rfl (hok as1 v hs)

theorem steps_uncons {w : World} {a : Act} : ∀ {as1 : List Act} {v : World}, Steps w (a :: as1) v → Steps (a.run w) as1 v := by
  intro as1 v h
  generalize e : a :: as1 = as at h
  induction h generalizing as1 with
  | refl => cases e
  | @tail w1 as b hs ok ih =>
    cases as with
    | nil =>
      simp only [List.nil_append, List.cons.injEq] at e
      obtain ⟨rfl, rfl⟩ := e
      rw [show w1 = w from by rw [steps_run hs]; rfl]
      exact .refl _
    | cons c as =>
      simp only [List.cons_append, List.cons.injEq] at e
      obtain ⟨rfl, rfl⟩ := e
      exact (ih rfl).tail ok

example : ∃ w', Steps Demo.w1 elsewhereActs w' ∧ Path c!"a/b" [c!"a/b", c!"a", c!"root"] ∧ Map.get Demo.w1.loggers c!"a/b" = some 2 ∧
    Elsewhere Demo.w1 c!"a/b" [c!"a/b", c!"a", c!"root"] elsewhereActs := by
  refine ⟨elsewhereActs.foldl (fun w a => a.run w) Demo.w1, ?_, ?_, rfl, ?_⟩
  · have h1 := (Steps.refl Demo.w1).tail (a := .setLevel 3 7) (show 3 < Demo.w1.heap.length by decide)
    have h2 := h1.tail (a := .setOutputs 3 []) ⟨by decide, by simp⟩
    have h3 := h2.tail (a := .setCallerSkip 0 4) (show 0 < 4 by decide)
    have h4 := h3.tail (a := .setConfig { loggers := [⟨c!"a", c!"debug", [c!"none"]⟩] } [3, 2, 1, 0]) (show List.Perm _ [0, 1, 2, 3] by decide)
    have h5 := h4.tail (a := .setConfig { Demo.cfg with loggers := [⟨c!"x", c!"error", [c!"o2"]⟩] } [0, 1, 2, 3]) (List.Perm.refl _)
    exact h5.tail (a := .getLogger c!"a/b/c") trivial
  · exact demo_path
  · refine elsewhere_cons ?_ (elsewhere_cons ?_ (elsewhere_cons ?_ (elsewhere_cons ?_ (elsewhere_cons ?_ (elsewhere_cons ?_ (elsewhere_nil _ _ _) ?_) ?_) ?_) ?_) ?_) ?_
    all_goals try exact fun _ _ h => steps_uncons h
    · intro h
      cases h with
      | level hm hg => simp only [List.mem_cons, List.not_mem_nil, or_false] at hm; rcases hm with rfl | rfl | rfl <;> cases hg
      | config h => cases h
    · intro h
      cases h with
      | outputs hm hg => simp only [List.mem_cons, List.not_mem_nil, or_false] at hm; rcases hm with rfl | rfl | rfl <;> cases hg
      | config h => cases h
    · intro h
      cases h with
      | skip hg => cases hg
      | config h => cases h
    · intro h
      cases h with
      | config h hc => cases h; exact absurd ((validateConfig_none_iff _).mpr hc) (by decide)
    · intro h
      cases h with
      | config h hc he hn => cases h; simp at he; subst he; revert hn; decide
    · intro h
      cases h with
      | config h => cases h

end Log4g
