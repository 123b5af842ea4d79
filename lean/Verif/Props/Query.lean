import Verif.Lemmas.Query
import Verif.Props.Demo

/-! # C142: asking for the outputs of loggers -/

namespace Log4g
open Spec World

/-- A configuration with an output and a logger that has it; the output has a threshold. -/
def askCfg (threshold : Str) : Config := {
  formats := [some [(c!"name", c!"f"), (c!"type", c!"text")]],
  outputs := [some [(c!"name", c!"o"), (c!"type", c!"console"), (c!"format", c!"f"), (c!"threshold", threshold)]],
  loggers := [⟨c!"x", c!"info", [c!"o"]⟩] }

/-- The definition that the first output of the logger was made from. -/
def firstOutput (w : World) (n : Str) : Option CfgMap :=
  ((loggerAt w n).bind fun l => l.outputs.head?).bind fun o => (w.mgr.oheap[o]?).bind fun x => match x.origin with
    | .managed d => some d
    | _ => none

/-- The same calls, with the question for the outputs of `x` or without it. -/
def askActs (q : List Act) : List Act := [.setConfig (askCfg c!"info") []] ++ q ++ [.setConfig (askCfg c!"error") [], .getLogger c!"x"]

/-- C142, refuted: a program sets a configuration, asks for the outputs of a logger, sets a configuration that defines its output anew, and obtains the logger. The output has the threshold
of the first configuration. Without the question it has the threshold of the second. -/
theorem C142_query_refuted : ∃ (w w1 w2 : World) (as : List Act), Reach w ∧ Steady w.mgr ∧ Steps w as w1 ∧ Steps w (as.filter fun c => !isQuery c) w2 ∧
    firstOutput w1 c!"x" = some (some [(c!"name", c!"o"), (c!"type", c!"console"), (c!"format", c!"f"), (c!"threshold", c!"info")]) ∧
    firstOutput w2 c!"x" = some (some [(c!"name", c!"o"), (c!"type", c!"console"), (c!"format", c!"f"), (c!"threshold", c!"error")]) := by
  refine ⟨Demo.w0, Demo.run Demo.w0 (askActs [.queryOutputs c!"x"]), Demo.run Demo.w0 (askActs []), askActs [.queryOutputs c!"x"], Demo.w0_reach, ?_, ?_, ?_, by decide, by decide⟩
  · refine ⟨fun t c h k k' x => ?_, fun t c h k k' x => ?_⟩
    · have h : Map.get [(c!"text", fun (_ : Nat) (_ : CfgMap) => (.ok 2 : Except Str Int))] t = some c := h
      simp only [Map.get] at h
      split at h
      · cases h; rfl
      · cases h
    · have h : Map.get [(c!"console", fun (_ : Nat) (_ : CfgMap) => (.ok () : Except Str Unit))] t = some c := h
      simp only [Map.get] at h
      split at h
      · cases h; rfl
      · cases h
  · have h1 := (Steps.refl Demo.w0).tail (a := .setConfig (askCfg c!"info") []) (List.Perm.refl _)
    have h2 := h1.tail (a := .queryOutputs c!"x") trivial
    have h3 := h2.tail (a := .setConfig (askCfg c!"error") []) (List.Perm.refl _)
    exact h3.tail (a := .getLogger c!"x") trivial
  · have h1 := (Steps.refl Demo.w0).tail (a := .setConfig (askCfg c!"info") []) (List.Perm.refl _)
    have h2 := h1.tail (a := .setConfig (askCfg c!"error") []) (List.Perm.refl _)
    exact h2.tail (a := .getLogger c!"x") trivial

/-- C142, the part that holds: as long as no configuration is accepted and no creator registered, a program that asks for the outputs of loggers has the same loggers, with the same outputs, as without these questions,
and they let the same levels pass. -/
theorem C142_query_partial {w w1 : World} (hw : Reach w) (hst : Steady w.mgr) {as : List Act} (hm : ∀ c ∈ as, Mild w.mgr c) (h : Steps w as w1) :
    ∃ w2, Steps w (as.filter fun c => !isQuery c) w2 ∧ w2.loggers = w1.loggers ∧
      (∀ n l, loggerAt w1 n = some l → ∃ l', loggerAt w2 n = some l' ∧ LikeLogger w.mgr w1.mgr w2.mgr l l') ∧ ∀ n lvl, Enables w2 n lvl ↔ Enables w1 n lvl := by
  have inv := reach_inv hw
  obtain ⟨w2, h1, j⟩ := joint_steps inv.mgr hst (joint_start inv) hm h
  have i1 := (steps_inv inv h).1
  have X : ∀ n l, loggerAt w1 n = some l → ∃ l', loggerAt w2 n = some l' ∧ LikeLogger w.mgr w1.mgr w2.mgr l l' := fun n l hl => by
    unfold loggerAt at hl ⊢
    rw [j.loggers]
    cases hr : Map.get w1.loggers n with
    | none => rw [hr] at hl; cases hl
    | some r =>
      rw [hr] at hl
      simp only [Option.bind_some] at hl ⊢
      have hlt : r < w2.heap.length := by
        rw [j.length]
        exact (List.getElem?_eq_some_iff.mp hl).1
      exact ⟨_, List.getElem?_eq_getElem hlt, j.like r l _ hl (List.getElem?_eq_getElem hlt)⟩
  refine ⟨w2, h1, j.loggers, X, same_enables i1 j.loggers j.length fun n l hl => ?_⟩
  obtain ⟨l', h2, h3⟩ := X n l hl
  exact ⟨l', h2, h3.level, h3.parent⟩

/-- The conditions of `C142_query_partial` are met in the sample program: a question, a new logger, a level, outputs that were there before, and another question. -/
example : let as : List Act := [.queryOutputs c!"x", .getLogger c!"x/y", .setLevel 1 Level.Error, .setOutputs 4 [1, 0], .queryOutputs c!"root"]
    Reach Demo.w1 ∧ (∀ c ∈ as, Mild Demo.w1.mgr c) ∧ ∃ w1, Steps Demo.w1 as w1 ∧ w1.heap.length = 5 := by
  refine ⟨Demo.w1_reach, ?_, Demo.run Demo.w1 [.queryOutputs c!"x", .getLogger c!"x/y", .setLevel 1 Level.Error, .setOutputs 4 [1, 0], .queryOutputs c!"root"], ?_, by decide⟩
  · intro c hc
    simp only [List.mem_cons, List.not_mem_nil, or_false] at hc
    rcases hc with rfl | rfl | rfl | rfl | rfl <;> first | trivial | (simp only [Mild]; decide)
  · have h1 := (Steps.refl Demo.w1).tail (a := .queryOutputs c!"x") trivial
    have h2 := h1.tail (a := .getLogger c!"x/y") trivial
    have h3 := h2.tail (a := .setLevel 1 Level.Error) (by show 1 < _; decide)
    have h4 := h3.tail (a := .setOutputs 4 [1, 0]) (by simp only [Act.ok]; decide)
    exact h4.tail (a := .queryOutputs c!"root") trivial

/-- The conditions of `C142_query_partial` are met also where questions make outputs: after a configuration is set, a question, a logger, a level, and another question. -/
example : let w := (Demo.w0.setConfig Demo.cfg []).2
    let as : List Act := [.queryOutputs c!"x", .getLogger c!"x", .setLevel 1 Level.Error, .queryOutputs c!"root"]
    Reach w ∧ (∀ c ∈ as, Mild w.mgr c) ∧ ∃ w1, Steps w as w1 ∧ w1.heap.length = 2 ∧ w1.mgr.oheap.length = 2 := by
  refine ⟨Demo.w0_reach.act (a := .setConfig Demo.cfg []) (List.Perm.refl _), ?_, Demo.run (Demo.w0.setConfig Demo.cfg []).2 [.queryOutputs c!"x", .getLogger c!"x", .setLevel 1 Level.Error, .queryOutputs c!"root"], ?_, by decide, by decide⟩
  · intro c hc
    simp only [List.mem_cons, List.not_mem_nil, or_false] at hc
    rcases hc with rfl | rfl | rfl | rfl <;> trivial
  · have h1 := (Steps.refl (Demo.w0.setConfig Demo.cfg []).2).tail (a := .queryOutputs c!"x") trivial
    have h2 := h1.tail (a := .getLogger c!"x") trivial
    have h3 := h2.tail (a := .setLevel 1 Level.Error) (by show 1 < _; decide)
    exact h3.tail (a := .queryOutputs c!"root") trivial

end Log4g
