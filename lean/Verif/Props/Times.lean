import Verif.Props.SystemOrder
import Verif.Lemmas.Times

/-! # C124: the times in a log go forward -/

namespace Log4g
open Spec
open scoped List
variable {V : Type}

namespace Demo

/-- A library that shows its arguments one after the other, and times as numbers. -/
def stampLib : Lib Nat := { lib with sprintf := fun _ args => args.flatMap fun | .str s => s | _ => [], timeFormat := fun t _ => Strconv.itoa t }
def stampEnv : PEnv Nat := { env with lib := stampLib }

/-- Lines with their times, in memory. -/
def stamped : Config where
  formats := [some [(c!"name", c!"f2"), (c!"type", c!"text"), (c!"layout", c!"%{time} %{msg}\n")]]
  outputs := [some [(c!"name", c!"m1"), (c!"type", c!"memory"), (c!"format", c!"f2")]]
  loggers := [⟨c!"root", c!"all", [c!"m1"]⟩]

def ws : World := [Act.setConfig stamped [], .getLogger c!"a"].foldl (fun w a => a.run w) (initWorld fun _ => false)

/-- The same event, logged at time 2. -/
def hi2 : Event Nat := { hi with time := 2 }

def stampSetup : List (PLab Nat) := [.act (.setConfig stamped []), .act (.getLogger c!"a")]

theorem ws_begun : PExec stampEnv (newProgram fun _ => false) stampSetup { w := ws } := by
  have h0 : PExec stampEnv (newProgram fun _ => false) [] _ := .nil
  have h1 := h0.snoc ⟨rfl, .act (a := .setConfig stamped []) (List.Perm.refl _) trivial (by simp [Act.panics]) (fun _ => rfl)⟩
  exact h1.snoc ⟨rfl, .act (a := .getLogger c!"a") trivial trivial (by simp [Act.panics]) (fun _ => rfl)⟩

theorem ws_sync : SyncOut stampEnv ws 0 Level.All fun stack => ws.formatterOf stampLib stack stampEnv.other
    ⟨.managed (some [(c!"name", c!"m1"), (c!"type", c!"memory"), (c!"format", c!"f2")]), some 0⟩ :=
  ⟨_, rfl, fun _ => rfl, .inr (.inl ⟨rfl, rfl⟩)⟩

theorem ws_hi : ws.printf 1 [⟨c!"main.go", 12, c!"main.main"⟩] 1 [] Level.Warn c!"hi" ([] : List Nat) = .sent [⟨0, hi⟩] := by rfl
theorem ws_hi2 : ws.printf 2 [⟨c!"main.go", 12, c!"main.main"⟩] 1 [] Level.Warn c!"hi" ([] : List Nat) = .sent [⟨0, hi2⟩] := by rfl
theorem ws_line : ws.sendWrites stampEnv.tc stampEnv.lib [] stampEnv.other ⟨0, hi⟩ = [c!"1 hi\n".map fun c => c.toNat.toUInt8] := by decide +kernel
theorem ws_line2 : ws.sendWrites stampEnv.tc stampEnv.lib [] stampEnv.other ⟨0, hi2⟩ = [c!"2 hi\n".map fun c => c.toNat.toUInt8] := by decide +kernel

/-- Goroutine 0 logs at time 1, goroutine 1 at time 2, and goroutine 1 comes first. -/
def crossing : List (PLab Nat) :=
  stampSetup ++ [.log 0 [⟨0, hi⟩], .log 1 [⟨0, hi2⟩], .plain 1 0 (.send hi2), .ret 1, .plain 0 0 (.send hi), .ret 0]

theorem crossing_run : ∃ s, PExec stampEnv (newProgram fun _ => false) crossing s ∧ s.w = ws ∧
    s.wrote 0 = [c!"2 hi\n".map fun c => c.toNat.toUInt8, c!"1 hi\n".map fun c => c.toNat.toUInt8] := by
  have h1 := ws_begun.snoc ⟨rfl, .log (t := 0) rfl (by decide) ws_hi⟩
  have h2 := h1.snoc ⟨rfl, .log (t := 1) rfl (by decide) ws_hi2⟩
  have h3 := h2.snoc ⟨rfl, .send (t := 1) [] rfl (by rfl)⟩
  have h4 := h3.snoc ⟨rfl, .ret (t := 1) rfl⟩
  have h5 := h4.snoc ⟨rfl, .send (t := 0) [] rfl (by rfl)⟩
  have h6 := h5.snoc ⟨rfl, .ret (t := 0) rfl⟩
  refine ⟨_, by simpa [crossing] using h6, rfl, ?_⟩
  show ([] ++ ws.sendWrites stampEnv.tc stampEnv.lib [] stampEnv.other ⟨0, hi2⟩) ++ ws.sendWrites stampEnv.tc stampEnv.lib [] stampEnv.other ⟨0, hi⟩ = _
  rw [ws_line, ws_line2]; rfl

/-- The same two goroutines, one after the other. -/
def inTurn : List (PLab Nat) :=
  stampSetup ++ [.log 0 [⟨0, hi⟩], .plain 0 0 (.send hi), .ret 0, .log 1 [⟨0, hi2⟩], .plain 1 0 (.send hi2), .ret 1]

theorem inTurn_run : ∃ s, PExec stampEnv (newProgram fun _ => false) inTurn s ∧ s.w = ws ∧
    s.wrote 0 = [c!"1 hi\n".map fun c => c.toNat.toUInt8, c!"2 hi\n".map fun c => c.toNat.toUInt8] := by
  have h1 := ws_begun.snoc ⟨rfl, .log (t := 0) rfl (by decide) ws_hi⟩
  have h2 := h1.snoc ⟨rfl, .send (t := 0) [] rfl (by rfl)⟩
  have h3 := h2.snoc ⟨rfl, .ret (t := 0) rfl⟩
  have h4 := h3.snoc ⟨rfl, .log (t := 1) rfl (by decide) ws_hi2⟩
  have h5 := h4.snoc ⟨rfl, .send (t := 1) [] rfl (by rfl)⟩
  have h6 := h5.snoc ⟨rfl, .ret (t := 1) rfl⟩
  refine ⟨_, by simpa [inTurn] using h6, rfl, ?_⟩
  show ([] ++ ws.sendWrites stampEnv.tc stampEnv.lib [] stampEnv.other ⟨0, hi⟩) ++ ws.sendWrites stampEnv.tc stampEnv.lib [] stampEnv.other ⟨0, hi2⟩ = _
  rw [ws_line, ws_line2]; rfl

theorem inTurn_serial : Serial inTurn := by
  intro a t ds b e u
  have nil : Returned u ([] : List (PLab Nat)) := fun x l y e => by simp at e
  have h2 : Returned u stampSetup := returned_snoc (returned_snoc nil (by simp [Begins])) (by simp [Begins])
  simp only [inTurn, stampSetup] at e
  rcases a with _ | ⟨_, _ | ⟨_, _ | ⟨_, _ | ⟨_, _ | ⟨_, _ | ⟨_, _ | ⟨_, _ | ⟨_, a⟩⟩⟩⟩⟩⟩⟩⟩ <;> simp at e
  · obtain ⟨rfl, rfl, _⟩ := e
    exact h2
  · obtain ⟨rfl, rfl, rfl, rfl, rfl, _⟩ := e
    by_cases hu : u = 0
    · subst hu
      exact returned_ret (tr := stampSetup ++ [.log 0 [⟨0, hi⟩], .plain 0 0 (.send hi)])
    · exact returned_snoc (returned_snoc (returned_snoc h2 (by simp [Begins, Ne.symm hu])) (by simp [Begins])) (by simp [Begins])

/-- A clock that shows 1 for three steps, then 2. -/
def tick (i : Nat) : Nat := if i ≤ 2 then 1 else 2

theorem tick_mono : ∀ i j, i ≤ j → tick i ≤ tick j := by
  intro i j h; unfold tick; split <;> split <;> omega

theorem crossing_clock : ByClock stampEnv (fun _ => false) tick crossing := by
  obtain ⟨s, h, _⟩ := crossing_run
  refine byClock_of h tick_mono fun a t ds b e => ?_
  simp only [crossing, stampSetup] at e
  rcases a with _ | ⟨_, _ | ⟨_, _ | ⟨_, _ | ⟨_, _ | ⟨_, _ | ⟨_, _ | ⟨_, _ | ⟨_, a⟩⟩⟩⟩⟩⟩⟩⟩ <;> simp at e
  · obtain ⟨_, _, ⟨_, rfl⟩, _⟩ := e; exact ⟨_, List.mem_singleton.mpr rfl, rfl⟩
  · obtain ⟨_, _, _, ⟨_, rfl⟩, _⟩ := e; exact ⟨_, List.mem_singleton.mpr rfl, rfl⟩

theorem inTurn_clock : ByClock stampEnv (fun _ => false) tick inTurn := by
  obtain ⟨s, h, _⟩ := inTurn_run
  refine byClock_of h tick_mono fun a t ds b e => ?_
  simp only [inTurn, stampSetup] at e
  rcases a with _ | ⟨_, _ | ⟨_, _ | ⟨_, _ | ⟨_, _ | ⟨_, _ | ⟨_, _ | ⟨_, _ | ⟨_, a⟩⟩⟩⟩⟩⟩⟩⟩ <;> simp at e
  · obtain ⟨_, _, ⟨_, rfl⟩, _⟩ := e; exact ⟨_, List.mem_singleton.mpr rfl, rfl⟩
  · obtain ⟨_, _, _, _, _, ⟨_, rfl⟩, _⟩ := e; exact ⟨_, List.mem_singleton.mpr rfl, rfl⟩

/-- With a clock that stands still. -/
theorem still_clock {env : PEnv Nat} {up : Nat → Bool} {tr : List (PLab Nat)} {s : PState Nat} (h : PExec env (newProgram up) tr s)
    (ht : ∀ l ∈ tr, ∀ t ds, l = .log t ds → ∃ d ∈ ds, d.evt.time = 1) : ByClock env up (fun _ => 1) tr :=
  byClock_of h (fun _ _ _ => Nat.le_refl _) fun _ t ds _ e => ht (.log t ds) (by rw [e]; simp) t ds rfl

end Demo

variable {env : PEnv V} {up : Nat → Bool} {tr : List (PLab V)} {s : PState V} {o : Nat}

/-- C124 does not hold: two goroutines log at the same time; the clock shows 1, then 2; the line of time 2 comes first. -/
theorem C124_forward_refuted : ∃ (env : PEnv Nat) (up : Nat → Bool) (clock : Nat → Nat) (tr : List (PLab Nat)) (s : PState Nat)
    (f : List Frame → Option (Formatter Nat)), PExec env (newProgram up) tr s ∧ SyncOut env s.w 0 Level.All f ∧ ByClock env up clock tr ∧ NoOwnSends 0 tr ∧ loggedTimes tr = [1, 2] ∧
    s.wrote 0 = [c!"2 hi\n".map fun c => c.toNat.toUInt8, c!"1 hi\n".map fun c => c.toNat.toUInt8] := by
  obtain ⟨s, h, hw, hl⟩ := Demo.crossing_run
  refine ⟨_, _, Demo.tick, _, s, _, h, by rw [hw]; exact Demo.ws_sync, Demo.crossing_clock, ?_, rfl, hl⟩
  intro t e hm; simp [Demo.crossing, Demo.stampSetup] at hm

/-- C124, synchronous outputs: if the clock does not go back, the lines are those of the log calls, in an order in which the times
go forward for each goroutine, go back only to a log call that was still running when the clock reached the later time, and do
not go back if no log calls overlap. -/
theorem C124_sync_partial (h : PExec env (newProgram up) tr s) {l : Level} {f : List Frame → Option (Formatter V)} (hc : SyncOut env s.w o l f)
    {clock : Nat → Nat} (hk : ByClock env up clock tr) (hd : NoOwnSends o tr) :
    ∃ written, s.wrote o = linesOf env.lib l f written ∧ InTime o tr (calls written) ∧ OnTime o tr (calls written) := by
  obtain ⟨w, h1, h2, _⟩ := C99_sync h hc
  exact ⟨w, h1, h2, on_time h h2 hk hd⟩

/-- The hypotheses of `C124_sync_partial` are met, with two goroutines in turn. -/
example : ∃ up clock tr s f, PExec Demo.stampEnv (newProgram up) tr s ∧ SyncOut Demo.stampEnv s.w 0 Level.All f ∧ ByClock Demo.stampEnv up clock tr ∧ NoOwnSends 0 tr ∧ Serial tr ∧
    s.wrote 0 = [c!"1 hi\n".map fun c => c.toNat.toUInt8, c!"2 hi\n".map fun c => c.toNat.toUInt8] := by
  obtain ⟨s, h, hw, hl⟩ := Demo.inTurn_run
  refine ⟨_, _, _, s, _, h, by rw [hw]; exact Demo.ws_sync, Demo.inTurn_clock, ?_, Demo.inTurn_serial, hl⟩
  · intro t e hm; simp [Demo.inTurn, Demo.stampSetup] at hm

/-- C124 for asynchronous outputs: what has been written, and what waits. -/
theorem C124_async_partial (h : PExec env (newProgram up) tr s) {cfg : ACfg V} (hc : AsyncOut env s.w o cfg) {clock : Nat → Nat} (hk : ByClock env up clock tr) (hd : NoOwnSends o tr) :
    ∃ f written waiting, cfg.f = some f ∧ (s.a o).writes.flatten = textsOf cfg f written ∧ InTime o tr (written ++ waiting) ∧
      OnTime o tr (written ++ waiting) := by
  obtain ⟨f, w, q, h1, h2, h3, _⟩ := C99_async h hc
  exact ⟨f, w, q, h1, h2, h3, on_time h h3 hk hd⟩

/-- The hypotheses of `C124_async_partial` are met. -/
example : ∃ up clock tr s cfg, PExec Demo.env (newProgram up) tr s ∧ AsyncOut Demo.env s.w 0 cfg ∧ ByClock Demo.env up clock tr ∧ NoOwnSends 0 tr ∧
    loggedTimes tr = [1, 1, 1, 1] ∧ (s.a 0).chan = [some Demo.hi, some Demo.hi] := by
  obtain ⟨s, h, hw, hc, _⟩ := Demo.turns_program
  refine ⟨_, _, _, s, Demo.bcfg, h, by rw [hw]; exact Demo.wb_out, Demo.still_clock h fun l hl t ds e => ?_, ?_, rfl, hc⟩
  · subst e
    simp [Demo.setup, Demo.logged, Demo.loggedNext] at hl
    rcases hl with ⟨_, rfl⟩ | ⟨_, rfl⟩ <;> exact ⟨_, List.mem_cons_self, rfl⟩
  · intro t e hm; simp [Demo.setup, Demo.logged, Demo.loggedNext] at hm

/-- C124 for syslog outputs. -/
theorem C124_syslog_partial (h : PExec env (newProgram up) tr s) {l : Level} {f : List Frame → Option (Formatter V)} (hc : SyslogOut env s.w o l f)
    {clock : Nat → Nat} (hk : ByClock env up clock tr) (hd : NoOwnSends o tr) :
    ∃ sent, SysSent env.lib l f sent (s.syslog o) ∧ InTime o tr (calls sent) ∧ OnTime o tr (calls sent) := by
  obtain ⟨w, h1, h2, _⟩ := C99_syslog h hc
  exact ⟨w, h1, h2, on_time h h2 hk hd⟩

/-- The hypotheses of `C124_syslog_partial` are met. -/
example : ∃ up clock tr s f, PExec Demo.env (newProgram up) tr s ∧ SyslogOut Demo.env s.w 0 Level.All f ∧ ByClock Demo.env up clock tr ∧ NoOwnSends 0 tr ∧
    loggedTimes tr = [1] ∧ s.syslog 0 = [.warning [104, 105, 10]] := by
  have hst : Demo.wd.printf 1 [⟨c!"main.go", 12, c!"main.main"⟩] 1 [] Level.Warn c!"hi" ([] : List Nat) = .sent [⟨0, Demo.hi⟩] := by rfl
  have h0 : PExec Demo.env (newProgram fun _ => true) [] _ := .nil
  have h1 := h0.snoc ⟨rfl, .act (a := .setConfig Demo.daemon []) (List.Perm.refl _) trivial (by simp [Act.panics]) (fun _ => rfl)⟩
  have h2 : PExec Demo.env (newProgram fun _ => true) [.act (.setConfig Demo.daemon []), .act (.getLogger c!"a")] { w := Demo.wd } :=
    h1.snoc ⟨rfl, .act (a := .getLogger c!"a") trivial trivial (by simp [Act.panics]) (fun _ => rfl)⟩
  have h3 := h2.snoc ⟨rfl, .log (t := 0) rfl (by decide) hst⟩
  have h4 := h3.snoc ⟨rfl, .send (t := 0) [] rfl (by rfl)⟩
  have hs : Demo.wd.sendSyslog Demo.env [] ⟨0, Demo.hi⟩ = [.warning [104, 105, 10]] := by decide +kernel
  refine ⟨_, _, [.act (.setConfig Demo.daemon []), .act (.getLogger c!"a"), .log 0 [⟨0, Demo.hi⟩], .plain 0 0 (.send Demo.hi)], _,
    fun stack => Demo.wd.formatterOf Demo.lib stack Demo.env.other
    ⟨.managed (some [(c!"name", c!"s1"), (c!"type", c!"syslog"), (c!"format", c!"f2")]), some 0⟩, by simpa using h4, ⟨_, rfl, fun _ => rfl, rfl⟩, Demo.still_clock h4 fun l hl t ds e => ?_, ?_, rfl, ?_⟩
  · subst e
    simp at hl
    exact ⟨_, by rw [hl.2]; exact List.mem_singleton.mpr rfl, rfl⟩
  · intro t e hm; simp at hm
  · show [] ++ Demo.wd.sendSyslog Demo.env [] ⟨0, Demo.hi⟩ = _
    rw [hs]; rfl

end Log4g
