import Verif.Lemmas.Panicking
import Verif.Props.Async
import Verif.Props.Logger

/-! # C117: formatters and outputs that panic -/

namespace Log4g
open Spec World
variable {V : Type}

/-- C117, outputs that are not asynchronous: a program logs and recovers the panics.  Each output has what it had before and, for each log call in turn,
the event unless the output itself or one that comes before it in the call panics over it.  A log call returns exactly if no output
panics (nor the logger itself, C16). -/
theorem C117_sync_partial (lib : Lib V) (os : ShakyOuts V) (ocs : List (Outcome V)) :
    (∀ o, Gets lib (os o) (ocs.flatMap (reaching os o)) (logCalls lib os ocs o)) ∧
    ∀ oc, (logCall lib (logCalls lib os ocs) oc).2 = true ↔ oc ≠ .panic ∧ ∀ d ∈ oc.deliveries, Panics (os d.out) d.evt = false := by
  have key : ∀ (ocs : List (Outcome V)) (os' : ShakyOuts V) (es : Nat → List (Event V)), (∀ o, Gets lib (os o) (es o) (os' o)) →
      ∀ o, Gets lib (os o) (es o ++ ocs.flatMap (reaching os o)) (logCalls lib os' ocs o) := by
    intro ocs
    induction ocs with
    | nil => intro os' es h o; simpa [logCalls] using h o
    | cons oc ocs ih =>
      intro os' es h o
      cases oc with
      | panic =>
        have := ih os' es h o
        simpa [logCalls, logCall, reaching, Outcome.deliveries] using this
      | sent ds =>
        have := ih (sendAll lib ds os').1 (fun o => es o ++ reaching os o (.sent ds)) (sendAll_gets ds os' es h).1 o
        simpa [logCalls, logCall, List.append_assoc] using this
  have h0 := key ocs os (fun _ => []) (fun o => gets_nil _)
  simp only [List.nil_append] at h0
  refine ⟨h0, fun oc => ?_⟩
  cases oc with
  | panic => simp [logCall]
  | sent ds => simpa [logCall, Outcome.deliveries] using (sendAll_gets ds (logCalls lib os ocs) _ h0).2

/-- C117, an asynchronous output.  As long as no accepted event it has taken makes the formatter panic, the output behaves as one with a
formatter that never does.  When there is one, the program has ended there: all accepted events queued before it have been
written but for fewer than `batch_num`. -/
theorem C117_async_partial {cfg : ACfg V} {g : Shaky V} {prog : Nat → List (ACall V)} {tr : List (ALab V)} {s : AState V}
    (h : ShakyExec cfg g (newAsync prog) tr s) :
    (AExec { cfg with f := some fun e => (g e).getD [] } (newAsync prog) tr s ∧ ∀ e ∈ accepted cfg.t (eventsOf (takenOf tr)), g e ≠ none) ∨
    (s.panicked = true ∧ ∃ before e later, queuedOf tr = before ++ some e :: later ∧ cfg.t ≤ e.level ∧ g e = none ∧
      (∀ x ∈ accepted cfg.t (eventsOf before), g x ≠ none) ∧
      ∃ written lost, accepted cfg.t (eventsOf before) = written ++ lost ∧ (1 ≤ cfg.batchNum → lost.length < cfg.batchNum) ∧
        s.writes.flatten = written.flatMap fun x => (g x).getD []) := by
  obtain ⟨tr0, s0, h1, h2, h3⟩ := shaky_exec h
  rcases h3 with ⟨rfl, rfl⟩ | ⟨e, rest, h3, h4, h5, h6, rfl, rfl⟩
  · exact .inl ⟨h1, h2⟩
  · refine .inr ⟨rfl, takenOf tr0, e, rest, ?_, h4, h5, h2, ?_⟩
    · rw [queuedOf_append, (C44_queue rfl h1).2 h6, h3]
      simp [queuedOf]
    · obtain ⟨gs, b, bi⟩ := aexec_binv rfl h1
      exact ⟨gs.flatten, b, bi.split, fun hb => by rw [← bi.num]; exact bi.batch hb, bi.writes⟩

/-- A formatter that panics over warnings. -/
def shakyFmt : Shaky Nat := fun e => if e.level = Level.Warn then none else some [120]

/-- An output of the user's own that panics over errors. -/
def ownOut : ShakyOut Nat := .own [] fun e => decide (e.level = Level.Error)

/-- The outputs of the logger "x" of the sample program (output 1 comes first). -/
def shakyOuts : ShakyOuts Nat := fun o => if o = 1 then .base [] (some shakyFmt) Level.All else ownOut

/-- The logger "x" is used three times. -/
def shakyCalls : List (Outcome Nat) :=
  [Demo.w1.call 0 [] 3 [] (.infof c!"a") [], Demo.w1.call 0 [] 3 [] (.warnf c!"b") [], Demo.w1.call 0 [] 3 [] (.errorf c!"c") [], Demo.w1.call 0 [] 3 [] (.infof c!"d") []]

/-- Of four calls two panic; the lines of the others are there, and that of the third in the first output. -/
example : (match logCalls Demo.lib shakyOuts shakyCalls 1 with | .base w _ _ => w | _ => []) = [[120], [120], [120]] ∧
    (match logCalls Demo.lib shakyOuts shakyCalls 0 with | .own got _ => got.map (·.format) | _ => []) = [c!"a", c!"d"] ∧
    (shakyCalls.map fun oc => (logCall Demo.lib shakyOuts oc).2) = [true, false, false, true] := by decide

/-- C117 fails: the outputs that come after the one that panics do not get the event. -/
theorem C117_others_refuted : ∃ (w : World) (n : Str) (r : Nat) (d0 d1 : Delivery Nat), Reach w ∧ Map.get w.loggers n = some r ∧
    w.call 0 [] r [] (.warnf c!"hi") [] = .sent [d0, d1] ∧ d0.out ≠ d1.out ∧
    Panics (shakyOuts d0.out) d0.evt = true ∧ Panics (shakyOuts d1.out) d1.evt = false ∧
    logCalls Demo.lib shakyOuts [w.call 0 [] r [] (.warnf c!"hi") []] d1.out = shakyOuts d1.out :=
  ⟨Demo.w1, c!"x", 3, _, _, Demo.w1_reach, rfl, rfl, by decide, by decide, by decide, rfl⟩

/-- Two goroutines send an event each. -/
def shakyProg : Nat → List (ACall Nat)
  | 0 => [.send { Demo.evt with level := Level.Info }]
  | 1 => [.send Demo.evt]
  | _ => []

/-- C117 fails: a formatter of an asynchronous output that panics over an event ends the program, and another event, over which
it does not panic, is lost. -/
theorem C117_async_refuted : ∃ (cfg : ACfg Nat) (prog : Nat → List (ACall Nat)) (tr : List (ALab Nat)) (s : AState Nat) (e1 e2 : Event Nat),
    ShakyExec cfg shakyFmt (newAsync prog) tr s ∧ queuedOf tr = [some e1, some e2] ∧ cfg.t ≤ e1.level ∧ shakyFmt e1 = some [120] ∧ shakyFmt e2 = none ∧
    s.panicked = true ∧ s.writes = [] := by
  have h0 : ShakyExec Demo.acfg shakyFmt (newAsync shakyProg) [] _ := .nil
  have h1 := h0.snoc (.calm ⟨rfl, .begin rfl⟩ (fun _ h => by cases h))
  have h2 := h1.snoc (.calm ⟨rfl, .sendStart (t := 0) (e := { Demo.evt with level := Level.Info }) rfl rfl⟩ (fun _ h => by cases h))
  have h3 := h2.snoc (.calm ⟨rfl, .sendQueue (t := 0) (e := { Demo.evt with level := Level.Info }) rfl rfl (by decide)⟩ (fun _ h => by cases h))
  have h4 := h3.snoc (.calm ⟨rfl, .sendStart (t := 1) (e := Demo.evt) rfl rfl⟩ (fun _ h => by cases h))
  have h5 := h4.snoc (.calm ⟨rfl, .sendQueue (t := 1) (e := Demo.evt) rfl rfl (by decide)⟩ (fun _ h => by cases h))
  have h6 := h5.snoc (.calm (l := .took (some { Demo.evt with level := Level.Info })) ⟨rfl, .takeEvent rfl rfl rfl⟩ (fun e h _ => by cases h; decide))
  have h7 := h6.snoc (.panic rfl rfl rfl (by decide) (by decide))
  exact ⟨_, _, _, _, _, _, h7, rfl, by decide, rfl, rfl, rfl, rfl⟩

end Log4g
