import Verif.Lemmas.SystemFacts
import Verif.Lemmas.SystemOrder
import Verif.Props.Standard
import Verif.Props.Async

/-! # Whole programs: C85 – C92 -/

namespace Log4g
open Spec
open scoped List
variable {V : Type}

namespace Demo

/-- The environment of the sample program. -/
def env : PEnv Nat := { tc := .since113, lib := Demo.lib, stack := [], other := fun _ _ => [] }

/-- An asynchronous console and a memory output. -/
def both : Config where
  formats := [some [(c!"name", c!"f2"), (c!"type", c!"text"), (c!"layout", c!"%{msg}\n")]]
  outputs := [some [(c!"name", c!"a1"), (c!"type", c!"console"), (c!"async", c!"true"), (c!"queue_size", c!"2"), (c!"batch_num", c!"2"), (c!"format", c!"f2")],
              some [(c!"name", c!"m1"), (c!"type", c!"memory"), (c!"format", c!"f2")]]
  loggers := [⟨c!"root", c!"all", [c!"a1", c!"m1"]⟩]

def wb : World := [Act.setConfig both [], .getLogger c!"a"].foldl (fun w a => a.run w) (initWorld fun _ => false)

/-- The event of `logger.Warn("hi")` in "a". -/
def hi : Event Nat := { format := c!"hi", arguments := [], name := c!"a", level := Level.Warn, time := 1, callDepth := 4, ctx := [] }

/-- The layout, and the text of events. -/
def f2 : CfgMap := some [(c!"name", c!"f2"), (c!"type", c!"text"), (c!"layout", c!"%{msg}\n")]
def plain : Formatter Nat := textFormatter lib [] ((newTextFormatter f2).getD [])

theorem plain_hi : plain hi = [104, 105, 10] := by decide +kernel

def bcfg : ACfg Nat := { queueSize := 2, batchNum := 2, t := Level.All, f := some plain }

theorem wb_hi : wb.printf 1 [⟨c!"main.go", 12, c!"main.main"⟩] 1 [] Level.Warn c!"hi" [] = .sent [⟨0, hi⟩, ⟨1, hi⟩] := by rfl

theorem wb_none : wb.asyncOf env 1 = none := by rfl

theorem wb_out : AsyncOut env wb 0 bcfg := by
  refine ⟨⟨.managed (some [(c!"name", c!"a1"), (c!"type", c!"console"), (c!"async", c!"true"), (c!"queue_size", c!"2"), (c!"batch_num", c!"2"), (c!"format", c!"f2")]), some 0⟩, 2, 2, rfl, .inl ?_, rfl, rfl, ?_⟩
  · rfl
  · rfl


/-- The program configures the library and asks for a logger. -/
def setup : List (PLab Nat) := [.act (.setConfig both []), .act (.getLogger c!"a")]

theorem begun : PExec env (newProgram fun _ => false) setup { w := wb } := by
  have h0 : PExec env (newProgram fun _ => false) [] _ := .nil
  have h1 := h0.snoc ⟨rfl, .act (a := .setConfig both []) (List.Perm.refl _) trivial (by simp [Act.panics]) (fun _ => rfl)⟩
  exact h1.snoc ⟨rfl, .act (a := .getLogger c!"a") trivial trivial (by simp [Act.panics]) (fun _ => rfl)⟩

/-- What the runs below need to know of the world. -/
structure Fit (w : World) : Prop where
  hi : w.printf 1 [⟨c!"main.go", 12, c!"main.main"⟩] 1 [] Level.Warn c!"hi" [] = .sent [⟨0, hi⟩, ⟨1, hi⟩]
  heap : 1 < w.heap.length
  async : w.asyncOf env 0 = some bcfg
  none : w.asyncOf env 1 = none
  write : w.sendWrites env.tc env.lib [] env.other ⟨1, Demo.hi⟩ = [[104, 105, 10]]
  outputs : [0, 1].Perm (w.mgr.outputs.map (·.2))

theorem wb_fit : Fit wb := ⟨wb_hi, by decide, async_of wb_out, wb_none, by decide +kernel, List.Perm.refl _⟩

/-- A log call, from its beginning to its return. -/
def logged : List (PLab Nat) :=
  [.log 0 [⟨0, hi⟩, ⟨1, hi⟩], .enter 0 0 (.send hi), .out 0 (.start 0 (.send hi)), .out 0 (.queued 0 hi), .leave 0 0, .plain 0 1 (.send hi), .ret 0]

/-- `Close` of the manager, with a worker that has begun and one that has not. -/
def closing : List (PLab Nat) :=
  [.enter 1 0 .close, .out 0 (.start 1 .close), .out 0 (.requested 1), .out 0 (.took (some hi)), .out 0 (.took none), .out 0 (.waited 1),
   .out 0 (.stored 1), .out 0 (.closed 1), .leave 1 0, .plain 1 1 .close]
def hurried : List (PLab Nat) :=
  [.enter 1 0 .close, .out 0 (.start 1 .close), .out 0 (.requested 1), .out 0 (.waited 1), .out 0 (.stored 1), .out 0 (.closed 1), .leave 1 0, .plain 1 1 .close]

/-- A log call after `Close`. -/
def dropped : List (PLab Nat) :=
  [.log 0 [⟨0, hi⟩, ⟨1, hi⟩], .enter 0 0 (.send hi), .out 0 (.skip 0 (.send hi)), .leave 0 0, .plain 0 1 (.send hi), .ret 0]

/-- What is left when `Close` has returned. -/
structure Rested (w : World) (s : PState Nat) : Prop where
  world : s.w = w
  call : s.th 0 = {}
  lock : s.lock = none
  panicked : s.panicked = false
  closed : (s.a 0).closed = true
  quiet : (s.a 0).th 0 = {}
  sound : (s.a 0).panicked = false

/-- Logging only. -/
theorem log_run {w : World} (hw : Fit w) : ∃ s, PExec env { w := w } (.out 0 .begin :: logged) s ∧ s.w = w ∧ s.panicked = false ∧
    (s.a 0).chan = [some hi] ∧ s.wrote 1 = [[104, 105, 10]] ∧ s.th 1 = {} ∧ s.lock = none := by
  have h0 : PExec env ({ w := w } : PState Nat) [] _ := .nil
  have h0 := h0.snoc ⟨rfl, .out (o := 0) hw.async ⟨rfl, .begin rfl⟩⟩
  have h1 := h0.snoc ⟨rfl, .log (t := 0) rfl hw.heap hw.hi⟩
  have h2 := h1.snoc ⟨rfl, .enter (t := 0) rfl hw.async⟩
  have h3 := h2.snoc ⟨rfl, .out (o := 0) hw.async ⟨rfl, .sendStart (t := 0) (e := hi) rfl rfl⟩⟩
  have h4 := h3.snoc ⟨rfl, .out (o := 0) hw.async ⟨rfl, .sendQueue (t := 0) (e := hi) rfl rfl (show (0 : Nat) < 2 by decide)⟩⟩
  have h5 := h4.snoc ⟨rfl, .leave (t := 0) rfl rfl⟩
  have h6 := h5.snoc ⟨rfl, .send (t := 0) [] rfl hw.none⟩
  have h7 := h6.snoc ⟨rfl, .ret (t := 0) rfl⟩
  exact ⟨_, h7, rfl, rfl, rfl, hw.write, rfl, rfl⟩

/-- A log call that has begun. -/
theorem mid_run {w : World} (hw : Fit w) : ∃ s, PExec env { w := w } [.log 0 [⟨0, hi⟩, ⟨1, hi⟩], .enter 0 0 (.send hi), .out 0 (.start 0 (.send hi))] s ∧
    s.w = w ∧ s.panicked = false := by
  have h0 : PExec env ({ w := w } : PState Nat) [] _ := .nil
  have h1 := h0.snoc ⟨rfl, .log (t := 0) rfl hw.heap hw.hi⟩
  have h2 := h1.snoc ⟨rfl, .enter (t := 0) rfl hw.async⟩
  have h3 := h2.snoc ⟨rfl, .out (o := 0) hw.async ⟨rfl, .sendStart (t := 0) (e := hi) rfl rfl⟩⟩
  exact ⟨_, h3, rfl, rfl⟩

/-- Logging, then `Close`. -/
theorem tidy_run {w : World} (hw : Fit w) : ∃ s, PExec env { w := w } (.out 0 .begin :: logged ++ .close 1 [0, 1] :: closing ++ [.ret 1]) s ∧
    Rested w s ∧ (s.a 0).writes = [plain hi] ∧ (s.a 0).worker = .stopped ∧ s.wrote 1 = [[104, 105, 10]] := by
  have h0 : PExec env ({ w := w } : PState Nat) [] _ := .nil
  have h0 := h0.snoc ⟨rfl, .out (o := 0) hw.async ⟨rfl, .begin rfl⟩⟩
  have h1 := h0.snoc ⟨rfl, .log (t := 0) rfl hw.heap hw.hi⟩
  have h2 := h1.snoc ⟨rfl, .enter (t := 0) rfl hw.async⟩
  have h3 := h2.snoc ⟨rfl, .out (o := 0) hw.async ⟨rfl, .sendStart (t := 0) (e := hi) rfl rfl⟩⟩
  have h4 := h3.snoc ⟨rfl, .out (o := 0) hw.async ⟨rfl, .sendQueue (t := 0) (e := hi) rfl rfl (show (0 : Nat) < 2 by decide)⟩⟩
  have h5 := h4.snoc ⟨rfl, .leave (t := 0) rfl rfl⟩
  have h6 := h5.snoc ⟨rfl, .send (t := 0) [] rfl hw.none⟩
  have h7 := h6.snoc ⟨rfl, .ret (t := 0) rfl⟩
  have h8 := h7.snoc ⟨rfl, .close (t := 1) (os := [0, 1]) rfl rfl hw.outputs⟩
  have h9 := h8.snoc ⟨rfl, .enter (t := 1) rfl hw.async⟩
  have h10 := h9.snoc ⟨rfl, .out (o := 0) hw.async ⟨rfl, .closeStart (t := 1) rfl rfl⟩⟩
  have h11 := h10.snoc ⟨rfl, .out (o := 0) hw.async ⟨rfl, .closeRequest (t := 1) rfl rfl (show (1 : Nat) < 2 by decide)⟩⟩
  have h12 := h11.snoc ⟨rfl, .out (o := 0) hw.async ⟨rfl, .takeEvent rfl rfl rfl⟩⟩
  have h13 := h12.snoc ⟨rfl, .out (o := 0) hw.async ⟨rfl, .takeNil rfl rfl⟩⟩
  have h14 := h13.snoc ⟨rfl, .out (o := 0) hw.async ⟨rfl, .closeWait (t := 1) rfl rfl⟩⟩
  have h15 := h14.snoc ⟨rfl, .out (o := 0) hw.async ⟨rfl, .closeStore (t := 1) rfl⟩⟩
  have h16 := h15.snoc ⟨rfl, .out (o := 0) hw.async ⟨rfl, .closeChan (t := 1) rfl rfl⟩⟩
  have h17 := h16.snoc ⟨rfl, .leave (t := 1) rfl rfl⟩
  have h18 := h17.snoc ⟨rfl, .closed (t := 1) rfl hw.none⟩
  have h19 := h18.snoc ⟨rfl, .ret (t := 1) rfl⟩
  exact ⟨_, h19, ⟨rfl, rfl, rfl, rfl, rfl, rfl, rfl⟩, rfl, rfl, hw.write⟩

/-- The worker has not begun when `Close` is called. -/
theorem hasty_run {w : World} (hw : Fit w) : ∃ s, PExec env { w := w } (logged ++ .close 1 [0, 1] :: hurried ++ [.ret 1]) s ∧
    Rested w s ∧ (s.a 0).writes = [] := by
  have h0 : PExec env ({ w := w } : PState Nat) [] _ := .nil
  have h1 := h0.snoc ⟨rfl, .log (t := 0) rfl hw.heap hw.hi⟩
  have h2 := h1.snoc ⟨rfl, .enter (t := 0) rfl hw.async⟩
  have h3 := h2.snoc ⟨rfl, .out (o := 0) hw.async ⟨rfl, .sendStart (t := 0) (e := hi) rfl rfl⟩⟩
  have h4 := h3.snoc ⟨rfl, .out (o := 0) hw.async ⟨rfl, .sendQueue (t := 0) (e := hi) rfl rfl (show (0 : Nat) < 2 by decide)⟩⟩
  have h5 := h4.snoc ⟨rfl, .leave (t := 0) rfl rfl⟩
  have h6 := h5.snoc ⟨rfl, .send (t := 0) [] rfl hw.none⟩
  have h7 := h6.snoc ⟨rfl, .ret (t := 0) rfl⟩
  have h8 := h7.snoc ⟨rfl, .close (t := 1) (os := [0, 1]) rfl rfl hw.outputs⟩
  have h9 := h8.snoc ⟨rfl, .enter (t := 1) rfl hw.async⟩
  have h10 := h9.snoc ⟨rfl, .out (o := 0) hw.async ⟨rfl, .closeStart (t := 1) rfl rfl⟩⟩
  have h11 := h10.snoc ⟨rfl, .out (o := 0) hw.async ⟨rfl, .closeRequest (t := 1) rfl rfl (show (1 : Nat) < 2 by decide)⟩⟩
  have h14 := h11.snoc ⟨rfl, .out (o := 0) hw.async ⟨rfl, .closeWait (t := 1) rfl rfl⟩⟩
  have h15 := h14.snoc ⟨rfl, .out (o := 0) hw.async ⟨rfl, .closeStore (t := 1) rfl⟩⟩
  have h16 := h15.snoc ⟨rfl, .out (o := 0) hw.async ⟨rfl, .closeChan (t := 1) rfl rfl⟩⟩
  have h17 := h16.snoc ⟨rfl, .leave (t := 1) rfl rfl⟩
  have h18 := h17.snoc ⟨rfl, .closed (t := 1) rfl hw.none⟩
  have h19 := h18.snoc ⟨rfl, .ret (t := 1) rfl⟩
  exact ⟨_, h19, ⟨rfl, rfl, rfl, rfl, rfl, rfl, rfl⟩, rfl⟩

/-- The manager's `Close` overtakes a log call. -/
def overtaken : List (PLab Nat) :=
  [.enter 0 0 (.send hi), .out 0 (.start 0 (.send hi)), .close 1 [0, 1], .enter 1 0 .close, .out 0 (.start 1 .close), .out 0 (.requested 1),
   .out 0 (.waited 1), .out 0 (.stored 1), .out 0 (.closed 1)]

theorem panic_run {w : World} (hw : Fit w) : ∃ s, PExec env { w := w } (.log 0 [⟨0, hi⟩, ⟨1, hi⟩] :: overtaken ++ [.out 0 (.panic 0)]) s ∧ s.panicked = true ∧ s.w = w := by
  have h0 : PExec env ({ w := w } : PState Nat) [] _ := .nil
  have h1 := h0.snoc ⟨rfl, .log (t := 0) rfl hw.heap hw.hi⟩
  have h2 := h1.snoc ⟨rfl, .enter (t := 0) rfl hw.async⟩
  have h3 := h2.snoc ⟨rfl, .out (o := 0) hw.async ⟨rfl, .sendStart (t := 0) (e := hi) rfl rfl⟩⟩
  have h8 := h3.snoc ⟨rfl, .close (t := 1) (os := [0, 1]) rfl rfl hw.outputs⟩
  have h9 := h8.snoc ⟨rfl, .enter (t := 1) rfl hw.async⟩
  have h10 := h9.snoc ⟨rfl, .out (o := 0) hw.async ⟨rfl, .closeStart (t := 1) rfl rfl⟩⟩
  have h11 := h10.snoc ⟨rfl, .out (o := 0) hw.async ⟨rfl, .closeRequest (t := 1) rfl rfl (show (0 : Nat) < 2 by decide)⟩⟩
  have h14 := h11.snoc ⟨rfl, .out (o := 0) hw.async ⟨rfl, .closeWait (t := 1) rfl rfl⟩⟩
  have h15 := h14.snoc ⟨rfl, .out (o := 0) hw.async ⟨rfl, .closeStore (t := 1) rfl⟩⟩
  have h16 := h15.snoc ⟨rfl, .out (o := 0) hw.async ⟨rfl, .closeChan (t := 1) rfl rfl⟩⟩
  have h17 := h16.snoc ⟨rfl, .out (o := 0) hw.async ⟨rfl, .sendPanic (t := 0) (e := hi) rfl rfl⟩⟩
  exact ⟨_, h17, rfl, rfl⟩

/-- Logging after `Close`. -/
theorem drop_run {w : World} (hw : Fit w) {s : PState Nat} (hs : Rested w s) :
    ∃ s', PExec env s dropped s' ∧ s'.w = w ∧ (s'.a 0).writes = (s.a 0).writes ∧ s'.wrote 1 = s.wrote 1 ++ [[104, 105, 10]] ∧ s'.panicked = false := by
  obtain ⟨rfl, hcall, _, hp, hcl, hq, hsp⟩ := hs
  have h0 : PExec env s [] _ := .nil
  have h1 := h0.snoc ⟨hp, .log (t := 0) (by rw [hcall]) hw.heap hw.hi⟩
  have h2 := h1.snoc ⟨hp, .enter (t := 0) rfl hw.async⟩
  have h3 := h2.snoc ⟨hp, .out (o := 0) hw.async ⟨hsp, .sendSkip (t := 0) (e := hi) (cs := []) (by
    show ({ (s.a 0).th 0 with todo := ((s.a 0).th 0).todo ++ [.send hi] } : Thread Nat) = _; rw [hq]; rfl) hcl⟩⟩
  have h5 := h3.snoc ⟨hsp, .leave (t := 0) rfl rfl⟩
  have h6 := h5.snoc ⟨hsp, .send (t := 0) [] rfl hw.none⟩
  have h7 := h6.snoc ⟨hsp, .ret (t := 0) rfl⟩
  refine ⟨_, h7, rfl, rfl, ?_, hsp⟩
  show s.wrote 1 ++ s.w.sendWrites env.tc env.lib [] env.other ⟨1, Demo.hi⟩ = _
  rw [hw.write]

/-- The same configuration is set again. -/
def wb' : World := (Act.setConfig both [0, 1]).run wb

theorem wb'_out : AsyncOut env wb' 0 bcfg :=
  ⟨⟨.managed (some [(c!"name", c!"a1"), (c!"type", c!"console"), (c!"async", c!"true"), (c!"queue_size", c!"2"), (c!"batch_num", c!"2"),
    (c!"format", c!"f2")]), some 0⟩, 2, 2, rfl, .inl rfl, rfl, rfl, rfl⟩

theorem wb'_fit : Fit wb' := ⟨by rfl, by decide, async_of wb'_out, by rfl, by decide +kernel, List.Perm.refl _⟩

theorem again {s : PState Nat} (hs : Rested wb s) : PExec env s [.act (.setConfig both [0, 1])] { s with w := wb' } ∧ Rested wb' { s with w := wb' } := by
  obtain ⟨hw, h1, h2, h3, h4, h5, h6⟩ := hs
  have h0 : PExec env s [] _ := .nil
  have := h0.snoc ⟨h3, .act (a := .setConfig both [0, 1]) (by rw [hw]; exact List.Perm.refl _) trivial (by simp [Act.panics]) (fun _ => h2)⟩
  rw [hw] at this
  exact ⟨this, ⟨rfl, h1, h2, h3, h4, h5, h6⟩⟩

/-- The whole programs. -/
theorem tidy_program : ∃ s, PExec env (newProgram fun _ => false) ((setup ++ .out 0 .begin :: logged) ++ .close 1 [0, 1] :: closing ++ [.ret 1]) s ∧
    Rested wb s ∧ (s.a 0).writes = [plain hi] ∧ (s.a 0).worker = .stopped ∧ s.wrote 1 = [[104, 105, 10]] := by
  obtain ⟨s, h, k⟩ := tidy_run wb_fit
  refine ⟨s, ?_, k⟩
  have := begun.trans h
  simpa using this

theorem log_program : ∃ s, PExec env (newProgram fun _ => false) (setup ++ .out 0 .begin :: logged) s ∧ s.w = wb ∧ s.panicked = false ∧
    (s.a 0).chan = [some hi] ∧ s.wrote 1 = [[104, 105, 10]] ∧ s.th 1 = {} ∧ s.lock = none := by
  obtain ⟨s, h, k⟩ := log_run wb_fit
  exact ⟨s, begun.trans h, k⟩

theorem wb_sync : SyncOut env wb 1 Level.All fun stack => wb.formatterOf lib stack env.other
    ⟨.managed (some [(c!"name", c!"m1"), (c!"type", c!"memory"), (c!"format", c!"f2")]), some 0⟩ :=
  ⟨_, rfl, fun _ => rfl, .inr (.inl ⟨rfl, rfl⟩)⟩

theorem hasty_program : ∃ s, PExec env (newProgram fun _ => false) ((setup ++ logged) ++ .close 1 [0, 1] :: hurried ++ [.ret 1]) s ∧
    Rested wb s ∧ (s.a 0).writes = [] := by
  obtain ⟨s, h, k⟩ := hasty_run wb_fit
  refine ⟨s, ?_, k⟩
  have := begun.trans h
  simpa using this

theorem panic_program : ∃ s, PExec env (newProgram fun _ => false) ((setup ++ .log 0 [⟨0, hi⟩, ⟨1, hi⟩] :: overtaken) ++ [.out 0 (.panic 0)]) s ∧ s.panicked = true ∧ s.w = wb := by
  obtain ⟨s, h, k⟩ := panic_run wb_fit
  refine ⟨s, ?_, k⟩
  have := begun.trans h
  simpa using this

theorem tidy_first : WorkerFirst 0 (setup ++ .out 0 .begin :: logged ++ .close 1 [0, 1] :: closing ++ [.ret 1]) := by
  rw [List.append_assoc]
  exact workerFirst_of (by simp) (by simp [setup, logged])

theorem tidy_open : Open 0 (setup ++ .out 0 .begin :: logged) := by
  constructor
  · intro t os h; simp [setup, logged] at h
  · intro t h; simp [setup, logged] at h

theorem returned_last (t : Nat) (a : List (PLab Nat)) : Returned t (a ++ [.ret t]) := by
  intro x l y e hb
  rcases List.eq_nil_or_concat y with rfl | ⟨y, z, rfl⟩
  · have := List.append_inj_right' e (by simp)
    simp only [List.cons.injEq, and_true] at this
    rw [← this] at hb
    rcases hb with ⟨_, k⟩ | ⟨_, k⟩ | ⟨_, _, k⟩ <;> simp at k
  · rw [show x ++ l :: (y.concat z) = (x ++ l :: y) ++ [z] by simp] at e
    have := List.append_inj_right' e (by simp)
    simp only [List.cons.injEq, and_true] at this
    simp [← this]

theorem logged_returned (a : List (PLab Nat)) : Returned 0 (a ++ logged) := by
  have := returned_last 0 (a ++ logged.dropLast)
  simpa [logged] using this

end Demo

/-! ## C85, C86 -/

/-- C85: at any moment of any program, an asynchronous output has written the text of events that were logged to it, each
at most as often as it was logged, and those of one goroutine in the order in which it logged them. -/
theorem C85_any_moment {env : PEnv V} {up : Nat → Bool} {tr : List (PLab V)} {s : PState V} (h : PExec env (newProgram up) tr s) {o : Nat} {cfg : ACfg V}
    (hc : AsyncOut env s.w o cfg) :
    ∃ f written, cfg.f = some f ∧ (s.a o).writes.flatten = textsOf cfg f written ∧ ∀ t, shareOf t written <+ sentBy t o tr := by
  have hc := async_of hc
  have inv := pexec_inv h
  obtain ⟨⟨f, hf⟩, _, hb, _⟩ := asyncOf_cfg inv.world hc
  obtain ⟨written, waiting, h1, h2, _⟩ := written_pairs hf hb (inv.proj o cfg hc)
  refine ⟨f, written, hf, h2, fun t => ?_⟩
  have := queued_logged h hc t
  rw [h1, shareOf_append] at this
  exact (List.sublist_append_left _ _).trans this

/-- A program that has set a configuration with an asynchronous output, and has logged to it. -/
example : ∃ up tr s cfg, PExec Demo.env (newProgram up) tr s ∧ AsyncOut Demo.env s.w 0 cfg ∧ (s.a 0).writes = [[104, 105, 10]] ∧ sentBy 0 0 tr = [Demo.hi] := by
  obtain ⟨s, h, hr, hw, _⟩ := Demo.tidy_program
  exact ⟨_, _, s, Demo.bcfg, h, by rw [hr.world]; exact Demo.wb_out, by rw [hw, Demo.plain_hi], rfl⟩

/-- C86: as long as the program has not closed an asynchronous output, it loses nothing: what is written and what waits is
all each goroutine has logged, up to the call it is in; and what waits, and is at or above the threshold, is less than
queue and batch hold. -/
theorem C86_nothing_lost {env : PEnv V} {up : Nat → Bool} {tr : List (PLab V)} {s : PState V} (h : PExec env (newProgram up) tr s) {o : Nat} {cfg : ACfg V}
    (hc : AsyncOut env s.w o cfg) (ho : Open o tr) :
    ∃ f written waiting, cfg.f = some f ∧ (s.a o).writes.flatten = textsOf cfg f written ∧
      (accepted cfg.t (waiting.map (·.2))).length < cfg.queueSize + cfg.batchNum ∧
      ∀ t, shareOf t (written ++ waiting) <+: sentBy t o tr ∧
        ∀ a b, tr = a ++ b → Returned t a → sentBy t o a <+: shareOf t (written ++ waiting) := by
  have hc := async_of hc
  have inv := pexec_inv h
  obtain ⟨⟨f, hf⟩, _, hb, _⟩ := asyncOf_cfg inv.world hc
  obtain ⟨written, waiting, h1, h2, h3⟩ := written_pairs hf hb (inv.proj o cfg hc)
  refine ⟨f, written, waiting, hf, h2, h3, fun t => ?_⟩
  rw [← h1]
  refine ⟨(all_queued h hc ho t).1, ?_⟩
  intro a b e hr
  have ho' : Open o a := by rw [e] at ho; exact open_left ho
  rw [async_returned h hc t e ho' hr, e, outLabs_append, pairsOf_append, shareOf_append]
  exact List.prefix_append _ _

/-- The hypotheses of `C86_nothing_lost` are met, with an event that was logged and waits. -/
example : ∃ up tr s cfg, PExec Demo.env (newProgram up) tr s ∧ AsyncOut Demo.env s.w 0 cfg ∧ Open 0 tr ∧ Returned 0 tr ∧ sentBy 0 0 tr = [Demo.hi] ∧
    (s.a 0).chan = [some Demo.hi] := by
  obtain ⟨s, h, hw, _, hc, _⟩ := Demo.log_program
  exact ⟨_, _, s, Demo.bcfg, h, by rw [hw]; exact Demo.wb_out, Demo.tidy_open, Demo.logged_returned (Demo.setup ++ [.out 0 .begin]), rfl, hc⟩

/-- C86 for synchronous outputs, whatever is closed: one line for each event at or above the threshold. -/
theorem C86_sync {env : PEnv V} {up : Nat → Bool} {tr : List (PLab V)} {s : PState V} (h : PExec env (newProgram up) tr s) {o : Nat} {l : Level}
    {f : List Frame → Option (Formatter V)} (hc : SyncOut env s.w o l f) :
    ∃ written, s.wrote o = linesOf env.lib l f written ∧
      ∀ t, shareOf t (calls written) <+: sentBy t o tr ∧ ∀ a b, tr = a ++ b → Returned t a → sentBy t o a <+: shareOf t (calls written) := by
  obtain ⟨q, hq⟩ := pexec_sinv h
  refine ⟨q o, by rw [hq.wrote, sync_lines hc], fun t => ?_⟩
  rw [hq.made]
  exact plain_order h (sync_none hc) t

example : ∃ up tr s f, PExec Demo.env (newProgram up) tr s ∧ SyncOut Demo.env s.w 1 Level.All f ∧ Returned 0 tr ∧ sentBy 0 1 tr = [Demo.hi] ∧
    s.wrote 1 = [[104, 105, 10]] := by
  obtain ⟨s, h, hw, _, _, hwr, _⟩ := Demo.log_program
  exact ⟨_, _, s, _, h, by rw [hw]; exact Demo.wb_sync, Demo.logged_returned (Demo.setup ++ [.out 0 .begin]), rfl, hwr⟩

/-- C86 for syslog outputs. -/
theorem C86_syslog {env : PEnv V} {up : Nat → Bool} {tr : List (PLab V)} {s : PState V} (h : PExec env (newProgram up) tr s) {o : Nat} {l : Level}
    {f : List Frame → Option (Formatter V)} (hc : SyslogOut env s.w o l f) :
    ∃ sent, SysSent env.lib l f sent (s.syslog o) ∧
      ∀ t, shareOf t (calls sent) <+: sentBy t o tr ∧ ∀ a b, tr = a ++ b → Returned t a → sentBy t o a <+: shareOf t (calls sent) := by
  obtain ⟨q, hq⟩ := pexec_sinv h
  refine ⟨q o, by rw [hq.syslog]; exact syslog_sent hc _, fun t => ?_⟩
  rw [hq.made]
  exact plain_order h (syslog_none hc) t

/-- A program with a syslog output. -/
def Demo.daemon : Config where
  formats := [some [(c!"name", c!"f2"), (c!"type", c!"text"), (c!"layout", c!"%{msg}\n")]]
  outputs := [some [(c!"name", c!"s1"), (c!"type", c!"syslog"), (c!"format", c!"f2")]]
  loggers := [⟨c!"root", c!"all", [c!"s1"]⟩]

def Demo.wd : World := [Act.setConfig Demo.daemon [], .getLogger c!"a"].foldl (fun w a => a.run w) (initWorld fun _ => true)

example : ∃ up tr s f, PExec Demo.env (newProgram up) tr s ∧ SyslogOut Demo.env s.w 0 Level.All f ∧ Returned 0 tr ∧ sentBy 0 0 tr = [Demo.hi] ∧
    s.syslog 0 = [.warning [104, 105, 10]] := by
  have h0 : PExec Demo.env (newProgram fun _ => true) [] _ := .nil
  have h1 := h0.snoc ⟨rfl, .act (a := .setConfig Demo.daemon []) (List.Perm.refl _) trivial (by simp [Act.panics]) (fun _ => rfl)⟩
  have h2 : PExec Demo.env (newProgram fun _ => true) [.act (.setConfig Demo.daemon []), .act (.getLogger c!"a")] { w := Demo.wd } :=
    h1.snoc ⟨rfl, .act (a := .getLogger c!"a") trivial trivial (by simp [Act.panics]) (fun _ => rfl)⟩
  have h3 := h2.snoc ⟨rfl, .log (t := 0) (now := 1) (stack := [⟨c!"main.go", 12, c!"main.main"⟩]) (r := 1) (ctx := []) (lvl := Level.Warn) (fmt := c!"hi") (args := [])
    (ds := [⟨0, Demo.hi⟩]) rfl (by decide) (by rfl)⟩
  have h4 := h3.snoc ⟨rfl, .send (t := 0) [] rfl (by rfl)⟩
  have h5 := h4.snoc ⟨rfl, .ret (t := 0) rfl⟩
  have hs : Demo.wd.sendSyslog Demo.env [] ⟨0, Demo.hi⟩ = [.warning [104, 105, 10]] := by decide +kernel
  refine ⟨_, _, _, fun stack => Demo.wd.formatterOf Demo.lib stack Demo.env.other
    ⟨.managed (some [(c!"name", c!"s1"), (c!"type", c!"syslog"), (c!"format", c!"f2")]), some 0⟩, h5, ⟨_, rfl, fun _ => rfl, rfl⟩, Demo.returned_last 0 _, rfl, hs⟩

/-! ## C87 -/

/-- C87, what holds: if the worker of an asynchronous output has begun when the manager's `Close` is done waiting for it, and the
output has not been closed before, then when `Close` returns everything logged by calls that had returned when it was called has
been written, and the worker has stopped. -/
theorem C87_close_flushes_partial {env : PEnv V} {up : Nat → Bool} {t : Nat} {os : List Nat} {a tr : List (PLab V)} {s : PState V}
    (h : PExec env (newProgram up) tr s) (hcall : CloseCall t os a tr) {o : Nat} {cfg : ACfg V} (hc : AsyncOut env s.w o cfg)
    (hopen : Open o a) (hbegin : WorkerFirst o tr) :
    (s.a o).worker = .stopped ∧ ∃ f before later, cfg.f = some f ∧ (s.a o).writes.flatten = textsOf cfg f (before ++ later) ∧
      InTime o tr (before ++ later) ∧ ∀ u, (Returned u a → shareOf u before = sentBy u o a) ∧
        (∀ x y, a = x ++ y → Returned u x → sentBy u o x <+: shareOf u before) ∧ shareOf u (before ++ later) <+ sentBy u o tr := by
  have hc := async_of hc
  have inv := pexec_inv h
  obtain ⟨⟨f, hf⟩, _⟩ := asyncOf_cfg inv.world hc
  obtain ⟨hp, _, hcl⟩ := close_done hcall h
  have ho : o ∈ os := closes_all hcall h (by rw [hc]; simp)
  obtain ⟨b, e, hb⟩ := hcall
  have e' : tr = a ++ (.close t os :: b ++ [.ret t]) := by rw [e]; simp
  have hx := inv.proj o cfg hc
  rw [e', outLabs_append] at hx
  -- no close request before
  have hreq : none ∉ queuedOf (outLabs o a) := by
    obtain ⟨s1, h1, h2⟩ := (e' ▸ h).split
    have inv1 := pexec_inv h1
    cases hc1 : s1.w.asyncOf env o with
    | none => rw [(inv1.none o hc1).1]; simp [queuedOf]
    | some cfg1 => exact (never_closed (fun u => (inv1.opened o hopen u).2) (inv1.proj o cfg1 hc1)).2.2.2.1
  obtain ⟨hw, later, rest, g1, g2, _⟩ := closed_written hf hx (inv.sound hp o) (hcl o ho (by rw [hc]; simp)) (by rw [← outLabs_append, ← e']; exact workerFirst_labs hbegin) hreq
  have ht := async_inTime h hc
  rw [e', outLabs_append, g1, ← e'] at ht
  refine ⟨hw, f, _, later, hf, g2, inTime_prefix ht, fun u => ⟨fun hr => (async_returned h hc u e' hopen hr).symm, fun x y ea hr => ?_, ?_⟩⟩
  · rw [async_returned h hc u (show tr = x ++ (y ++ (.close t os :: b ++ [.ret t])) by rw [e', ea]; simp) (open_left (ea ▸ hopen)) hr, ea, outLabs_append, pairsOf_append, shareOf_append]
    exact List.prefix_append _ _
  have hq := queued_logged h hc u
  rw [e', outLabs_append, g1, shareOf_append] at hq
  rw [e']
  exact (List.sublist_append_left _ _).trans hq

/-- C87 is refuted: `Close` of the manager returns while an event that was logged before, by a call that had returned, has not
been written. -/
theorem C87_close_flushes_refuted :
    ∃ (env : PEnv Nat) (up : Nat → Bool) (t : Nat) (os : List Nat) (a tr : List (PLab Nat)) (s : PState Nat) (o : Nat) (cfg : ACfg Nat) (u : Nat),
      PExec env (newProgram up) tr s ∧ CloseCall t os a tr ∧ AsyncOut env s.w o cfg ∧ Open o a ∧ Returned u a ∧ sentBy u o a = [Demo.hi] ∧
      textsOf cfg Demo.plain [(u, Demo.hi)] = [104, 105, 10] ∧ cfg.f = some Demo.plain ∧ (s.a o).writes = [] := by
  obtain ⟨s, h, hr, hw⟩ := Demo.hasty_program
  refine ⟨_, _, 1, [0, 1], Demo.setup ++ Demo.logged, _, s, 0, Demo.bcfg, 0, h, ⟨Demo.hurried, rfl, by simp [Demo.hurried]⟩, by rw [hr.world]; exact Demo.wb_out,
    ⟨?_, ?_⟩, Demo.logged_returned Demo.setup, rfl, ?_, rfl, hw⟩
  · intro t os h; simp [Demo.setup, Demo.logged] at h
  · intro t h; simp [Demo.setup, Demo.logged] at h
  · decide +kernel

/-- The hypotheses of `C87_close_flushes_partial` are met. -/
example : ∃ (up : Nat → Bool) (a tr : List (PLab Nat)) (s : PState Nat), PExec Demo.env (newProgram up) tr s ∧ CloseCall 1 [0, 1] a tr ∧
    AsyncOut Demo.env s.w 0 Demo.bcfg ∧ Open 0 a ∧ WorkerFirst 0 tr ∧ Returned 0 a ∧ sentBy 0 0 a = [Demo.hi] ∧ (s.a 0).writes = [[104, 105, 10]] := by
  obtain ⟨s, h, hr, hw, _⟩ := Demo.tidy_program
  exact ⟨_, _, _, s, h, ⟨Demo.closing, rfl, by simp [Demo.closing]⟩, by rw [hr.world]; exact Demo.wb_out, Demo.tidy_open, Demo.tidy_first,
    Demo.logged_returned (Demo.setup ++ [.out 0 .begin]), rfl, by rw [hw, Demo.plain_hi]⟩

/-! ## C88 -/

/-- C88 is refuted: a log call panics because another goroutine calls the manager's `Close`. -/
theorem C88_panics_refuted : ∃ (env : PEnv Nat) (up : Nat → Bool) (tr : List (PLab Nat)) (s : PState Nat),
    PExec env (newProgram up) (tr ++ [.out 0 (.panic 0)]) s ∧ Tame tr ∧ s.panicked = true ∧ (∃ ds, .log 0 ds ∈ tr) ∧ .ret 0 ∉ tr := by
  obtain ⟨s, h, hp, _⟩ := Demo.panic_program
  refine ⟨_, _, _, s, h, ?_, hp, ⟨[⟨0, Demo.hi⟩, ⟨1, Demo.hi⟩], by simp⟩, by simp [Demo.setup, Demo.overtaken]⟩
  intro t o hm
  simp [Demo.setup, Demo.overtaken] at hm

/-- C88, what holds: if the program does not close outputs itself, a panic after `init` is one of a call that never came to
an output, or that of a `Send` to an asynchronous output, in a log call or direct; and then the manager's `Close`, called by
another goroutine, closed the output during this call.  Workers do not panic, and neither does the manager's `Close`. -/
theorem C88_panics_partial {env : PEnv V} {up : Nat → Bool} {tr : List (PLab V)} {l : PLab V} {s : PState V}
    (h : PExec env (newProgram up) (tr ++ [l]) s) (ht : Tame tr) (hp : s.panicked = true) :
    (∃ t, l = .panic t) ∨ ∃ o t u x b y, l = .out o (.panic t) ∧ tr = x ++ b :: y ∧ ((∃ ds, b = .log t ds) ∨ ∃ p e, b = .direct t p (.send e)) ∧
      .ret t ∉ y ∧ .out o (.closed u) ∈ y ∧ u ≠ t := by
  rcases panic_from h hp with k | ⟨o, t, cfg, s1, rfl, h1, hc, hs, hpc, hcc⟩
  · exact .inl k
  · refine .inr ?_
    have inv := pexec_inv h1
    obtain ⟨e, hsend⟩ := panic_sends h1 ht hc hs
    have hx := (pexec_inv h1).proj o cfg hc
    obtain ⟨a, c, b, u, e1, _, e3, e4⟩ := (C50_panics_partial (hx.snoc hs)).1 t rfl
    have hcall : (s1.th t).call ≠ none := by
      intro hn
      rw [inv.away t o (by rw [inv.rest t hn]; simp)] at hpc
      exact hpc rfl
    obtain ⟨x, l, y, e5, hl, hy, hno⟩ := call_open h1 t hcall
    refine ⟨o, t, u, x, l, y, rfl, e5, ?_, hy, ?_, e3⟩
    · rcases hl with k | ⟨os, rfl⟩ | ⟨p, c, rfl⟩
      · exact .inl k
      · -- a `Close` of the manager does not send
        have hk := (call_is h1 e5 hy).2.1 os rfl
        exact absurd hsend (((inv.closes t hk).2 o).1 e)
      · cases c with
        | send e => exact .inr ⟨p, e, rfl⟩
        | close => exact absurd (by rw [e5]; simp) (ht t p)
    · have : .out o (.closed u) ∈ tr := mem_outLabs.mp (by rw [e1]; simp [e4])
      rw [e5] at this
      rcases List.mem_append.mp this with k | k
      · exact absurd k (hno o hpc u)
      · rcases List.mem_cons.mp k with k | k
        · rcases hl with ⟨_, rfl⟩ | ⟨_, rfl⟩ | ⟨_, _, rfl⟩ <;> simp at k
        · exact k

/-! ## C89, C92 -/

/-- C89: the manager's `Close` can always return, from wherever it is, with the help of nothing but the workers, if the
program does not close outputs itself. -/
theorem C89_close_returns {env : PEnv V} {up : Nat → Bool} {t : Nat} {os : List Nat} {a b : List (PLab V)} {s : PState V}
    (h : PExec env (newProgram up) (a ++ .close t os :: b) s) (hb : .ret t ∉ b) (ht : Tame (a ++ .close t os :: b)) (hp : s.panicked = false) :
    ∃ tr s', PExec env s (tr ++ [.ret t]) s' ∧ s'.panicked = false ∧ ∀ l ∈ tr, Helps t l :=
  manager_close_ends h ht hp ((call_is h rfl hb).2.1 os rfl)

/-- The hypotheses of `C89_close_returns` are met: `Close` is called while an event waits. -/
example : ∃ (up : Nat → Bool) (a : List (PLab Nat)) (s : PState Nat), PExec Demo.env (newProgram up) (a ++ .close 1 [0, 1] :: []) s ∧
    Tame (a ++ .close 1 [0, 1] :: []) ∧ s.panicked = false ∧ (s.a 0).chan = [some Demo.hi] := by
  obtain ⟨s1, h1, hw, hp, hc, _, hth, hl⟩ := Demo.log_program
  refine ⟨_, _, _, h1.snoc ⟨hp, .close (t := 1) (os := [0, 1]) (by rw [hth]) hl ?_⟩, ?_, hp, hc⟩
  · rw [hw]; exact Demo.wb_fit.outputs
  · intro t o hm; simp [Demo.setup, Demo.logged] at hm

/-- C92: if nothing has been closed, a log call or `Send` can always return, with the help of nothing but the workers. -/
theorem C92_log_returns {env : PEnv V} {up : Nat → Bool} {t : Nat} {l : PLab V} {a b : List (PLab V)} {s : PState V}
    (h : PExec env (newProgram up) (a ++ l :: b) s) (hl : Begins t l) (hb : .ret t ∉ b) (ho : ∀ o, Open o (a ++ l :: b)) (hp : s.panicked = false) :
    ∃ tr s', PExec env s (tr ++ [.ret t]) s' ∧ s'.panicked = false ∧ ∀ l ∈ tr, Helps t l := by
  obtain ⟨h1, h2, h3⟩ := call_is h rfl hb
  rcases hl with ⟨ds, hl⟩ | ⟨os, hl⟩ | ⟨o, c, hl⟩
  · exact log_ends h ho hp (h1 ds hl)
  · exact log_ends h ho hp (h2 os hl)
  · exact log_ends h ho hp (h3 o c hl)

/-- The hypotheses of `C92_log_returns` are met in the midst of a log call. -/
example : ∃ (up : Nat → Bool) (a b : List (PLab Nat)) (l : PLab Nat) (s : PState Nat), PExec Demo.env (newProgram up) (a ++ l :: b) s ∧ Begins 0 l ∧ .ret 0 ∉ b ∧
    (∀ o, Open o (a ++ l :: b)) ∧ s.panicked = false := by
  obtain ⟨s, h, _, hp⟩ := Demo.mid_run Demo.wb_fit
  refine ⟨_, _, _, _, s, Demo.begun.trans h, .inl ⟨_, rfl⟩, by simp, fun o => ⟨?_, ?_⟩, hp⟩
  · intro t os h; simp [Demo.setup] at h
  · intro t h; simp [Demo.setup] at h

/-! ## C90, C91 -/

/-- C90 is refuted: a synchronous output goes on writing after the manager's `Close`. -/
theorem C90_after_close_refuted :
    ∃ (env : PEnv Nat) (up : Nat → Bool) (t : Nat) (os : List Nat) (a tr b : List (PLab Nat)) (s1 s : PState Nat) (o : Nat),
      PExec env (newProgram up) tr s1 ∧ CloseCall t os a tr ∧ Tame tr ∧ PExec env s1 b s ∧ o ∈ os ∧ (∃ l f, SyncOut env s1.w o l f) ∧ s.wrote o ≠ s1.wrote o := by
  obtain ⟨s1, h1, hr, _, _, hw⟩ := Demo.tidy_program
  obtain ⟨s, h, _, _, hw', _⟩ := Demo.drop_run Demo.wb_fit hr
  refine ⟨_, _, 1, [0, 1], _, _, _, s1, s, 1, h1, ⟨Demo.closing, rfl, by simp [Demo.closing]⟩, ?_, h, by simp, ⟨_, _, by rw [hr.world]; exact Demo.wb_sync⟩,
    by rw [hw', hw]; decide⟩
  intro t o hm; simp [Demo.setup, Demo.logged, Demo.closing] at hm

/-- C91 is refuted: a program calls the manager's `Close`, then sets a configuration, and logs.  The output the configuration
describes exists, but the event will never be written. -/
theorem C91_reconfigured_refuted :
    ∃ (env : PEnv Nat) (up : Nat → Bool) (t : Nat) (os : List Nat) (a tr b : List (PLab Nat)) (cfg : Config) (order : List Nat) (s1 s : PState Nat) (n : Str) (o : Nat)
      (c : ACfg Nat),
      PExec env (newProgram up) tr s1 ∧ CloseCall t os a tr ∧ Tame tr ∧ PExec env s1 (.act (.setConfig cfg order) :: b) s ∧
      (∀ u ps, .close u ps ∉ b) ∧ Tame b ∧ s.w.mgr.config = cfg ∧ (some c!"console", n) ∈ cfg.outputs.map (fun m => (m.bind (Map.get · c!"type"), CfgMap.at m c!"name")) ∧
      Map.get s.w.mgr.outputs n = some o ∧ AsyncOut env s.w o c ∧ Returned 0 b ∧ sentBy 0 o b = [Demo.hi] ∧ c.t ≤ Demo.hi.level ∧
      ∀ d s', PExec env s d s' → (s'.a o).writes = (s1.a o).writes := by
  obtain ⟨s1, h1, hr, _, hst, hw⟩ := Demo.tidy_program
  obtain ⟨h2, hr2⟩ := Demo.again hr
  obtain ⟨s, h, e1, e2, _, _⟩ := Demo.drop_run Demo.wb'_fit hr2
  have hx := h2.trans h
  refine ⟨_, _, 1, [0, 1], _, _, Demo.dropped, Demo.both, [0, 1], s1, s, c!"a1", 0, Demo.bcfg, h1, ⟨Demo.closing, rfl, by simp [Demo.closing]⟩, ?_, hx, ?_, ?_,
    by rw [e1]; rfl, by decide, by rw [e1]; rfl, by rw [e1]; exact Demo.wb'_out, ?_, rfl, by decide, ?_⟩
  · intro t o hm; simp [Demo.setup, Demo.logged, Demo.closing] at hm
  · intro u ps hm; simp [Demo.dropped] at hm
  · intro t o hm; simp [Demo.dropped] at hm
  · exact Demo.returned_last 0 Demo.dropped.dropLast
  · intro d s' hd
    exact (stays_stopped (hx.trans hd) 0 hst).2

/-- C90, what holds: once the manager's `Close` has returned, nothing that is logged to the asynchronous outputs there are is
ever written; and if the worker had begun when `Close` was done waiting for it, nothing at all is. -/
theorem C90_after_close_partial {env : PEnv V} {up : Nat → Bool} {t : Nat} {os : List Nat} {a tr b : List (PLab V)} {s1 s : PState V}
    (h1 : PExec env (newProgram up) tr s1) (hcall : CloseCall t os a tr) (ht : Tame tr) (h : PExec env s1 b s) {o : Nat} {cfg : ACfg V}
    (hc : AsyncOut env s1.w o cfg) :
    (∃ f written, cfg.f = some f ∧ (s.a o).writes.flatten = textsOf cfg f written ∧ ∀ u, shareOf u written <+ sentBy u o tr) ∧
    (Open o a → WorkerFirst o tr → (s.a o).writes = (s1.a o).writes) := by
  have hc1 := async_of hc
  have hx := h1.trans h
  have inv := pexec_inv hx
  have inv1 := pexec_inv h1
  have ho : o ∈ os := closes_all hcall h1 (by rw [hc1]; simp)
  have hc : s.w.asyncOf env o = some cfg := by rw [ext_asyncOf env inv1.world (ext_exec inv1 h) (asyncOf_lt hc1), hc1]
  obtain ⟨⟨f, hf⟩, _, hb, _⟩ := asyncOf_cfg inv.world hc
  constructor
  · obtain ⟨u, hu⟩ := channel_closed hcall h1 ht ho hc1
    have hp := inv.proj o cfg hc
    obtain ⟨written, waiting, g1, g2, _⟩ := written_pairs hf hb hp
    rw [outLabs_append] at hp g1
    rw [pairsOf_append, none_queued hp hu, List.append_nil] at g1
    refine ⟨f, written, hf, g2, fun v => ?_⟩
    have hq := queued_logged h1 hc1 v
    rw [g1, shareOf_append] at hq
    exact (List.sublist_append_left _ _).trans hq
  · intro hopen hbegin
    obtain ⟨hp1, _, hcl⟩ := close_done hcall h1
    obtain ⟨b', e, _⟩ := hcall
    have e' : tr = a ++ (.close t os :: b' ++ [.ret t]) := by rw [e]; simp
    have hx1 := inv1.proj o cfg hc1
    rw [e', outLabs_append] at hx1
    have hreq : none ∉ queuedOf (outLabs o a) := by
      obtain ⟨s0, h0, _⟩ := (e' ▸ h1).split
      have inv0 := pexec_inv h0
      cases hc0 : s0.w.asyncOf env o with
      | none => rw [(inv0.none o hc0).1]; simp [queuedOf]
      | some cfg1 => exact (never_closed (fun u => (inv0.opened o hopen u).2) (inv0.proj o cfg1 hc0)).2.2.2.1
    obtain ⟨hw, _⟩ := closed_written hf hx1 (inv1.sound hp1 o) (hcl o ho (by rw [hc1]; simp)) (by rw [← outLabs_append, ← e']; exact workerFirst_labs hbegin) hreq
    exact (stays_stopped h o hw).2

/-- C91, what holds: after the manager's `Close`, a name that had an output keeps it, closed as it is (`C90_after_close_partial`
says what that means); but an output that is made later is open, until something closes it, and works as C86 says. -/
theorem C91_reconfigured_partial {env : PEnv V} {up : Nat → Bool} {t : Nat} {os : List Nat} {a tr b : List (PLab V)} {s1 s : PState V}
    (h1 : PExec env (newProgram up) tr s1) (hcall : CloseCall t os a tr) (ht : Tame tr) (h : PExec env s1 b s) :
    (∀ n o, Map.get s1.w.mgr.outputs n = some o → Map.get s.w.mgr.outputs n = some o) ∧
    (∀ o cfg, AsyncOut env s1.w o cfg → ∀ u e, .out o (.queued u e) ∉ b) ∧
    ∀ o, s1.w.mgr.oheap.length ≤ o → (∀ u ps, .close u ps ∈ b → o ∉ ps) → (∀ u, .direct u o .close ∉ b) → Open o (tr ++ b) := by
  have inv1 := pexec_inv h1
  refine ⟨fun n o => (ext_exec inv1 h).outputs n o, ?_, ?_⟩
  · intro o cfg hc u e hm
    have hc1 := async_of hc
    have hc : s.w.asyncOf env o = some cfg := by rw [ext_asyncOf env inv1.world (ext_exec inv1 h) (asyncOf_lt hc1), hc1]
    obtain ⟨v, hv⟩ := channel_closed hcall h1 ht (closes_all hcall h1 (by rw [hc1]; simp)) hc1
    have hp := (pexec_inv (h1.trans h)).proj o cfg hc
    rw [outLabs_append] at hp
    have hn := none_queued hp hv
    have hm : .queued u e ∈ outLabs o b := mem_outLabs.mpr hm
    obtain ⟨x, y, e1⟩ := List.append_of_mem hm
    rw [e1, pairsOf_append] at hn
    simp [pairsOf] at hn
  · intro o hlt k1 k2
    obtain ⟨g1, g2⟩ := labels_old h1
    refine ⟨fun u ps hm hin => ?_, fun u hm => ?_⟩
    · rcases List.mem_append.mp hm with hm | hm
      · have := g1 u ps hm o hin; omega
      · exact k1 u ps hm hin
    · rcases List.mem_append.mp hm with hm | hm
      · have := g2 u o _ hm; omega
      · exact k2 u hm

/-- The hypotheses of `C90_after_close_partial` and `C91_reconfigured_partial` are met. -/
example : ∃ (up : Nat → Bool) (a tr b : List (PLab Nat)) (s1 s : PState Nat), PExec Demo.env (newProgram up) tr s1 ∧ CloseCall 1 [0, 1] a tr ∧ Tame tr ∧
    PExec Demo.env s1 b s ∧ AsyncOut Demo.env s1.w 0 Demo.bcfg ∧ Open 0 a ∧ WorkerFirst 0 tr ∧ sentBy 0 0 b = [Demo.hi] := by
  obtain ⟨s1, h1, hr, _, _, _⟩ := Demo.tidy_program
  obtain ⟨s, h, _⟩ := Demo.drop_run Demo.wb_fit hr
  refine ⟨_, _, _, _, s1, s, h1, ⟨Demo.closing, rfl, by simp [Demo.closing]⟩, ?_, h, by rw [hr.world]; exact Demo.wb_out, Demo.tidy_open, Demo.tidy_first, rfl⟩
  intro t o hm; simp [Demo.setup, Demo.logged, Demo.closing] at hm

end Log4g
