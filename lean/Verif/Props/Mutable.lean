import Verif.Lemmas.Mutable
import Verif.Props.Async

/-! # C104: arguments that change after the log call

The claim is: a line shows the arguments as they were when the log call was made.  Synchronous outputs keep to it.
Asynchronous ones do not: they make the text when the worker gets to the event. -/

namespace Log4g
open Spec
variable {M V : Type}

namespace Demo

/-- Memory: what is at each address.  The Go library prints what pointers point to. -/
def memLib (m : Nat → Str) : Lib Nat := { Demo.lib with sprint := fun vs => vs.flatMap m }

/-- `log.Warn(p)` with a pointer `p`. -/
def pointed : Event Nat := { Demo.event with format := [], arguments := [0] }

def memF (m : Nat → Str) : Formatter Nat := textFormatter (memLib m) [] ((parser c!"%{msg}\n").getD [])

def mcfg : MCfg (Nat → Str) Nat := { queueSize := 10, batchNum := 10, t := Level.All, f := some memF }

def mprog : Nat → List (ACall Nat) := fun t => if t = 0 then [.send pointed] else []

/-- The call returns, then the program changes what the pointer points to. -/
theorem changed : ∃ s, MutExec mcfg ⟨newAsync mprog, fun _ => c!"old"⟩
    [.out .begin, .out (.start 0 (.send pointed)), .out (.queued 0 pointed), .change (fun _ => c!"new"), .out (.took (some pointed)), .out .tick] s ∧
    s.a.panicked = false ∧ s.a.writes.flatten = Str.bytes c!"new\n" := by
  have h0 : MutExec mcfg ⟨newAsync mprog, fun _ => c!"old"⟩ [] _ := .nil
  have h1 := h0.snoc (.out ⟨rfl, .begin rfl⟩)
  have h2 := h1.snoc (.out ⟨rfl, .sendStart (t := 0) (e := pointed) rfl rfl⟩)
  have h3 := h2.snoc (.out ⟨rfl, .sendQueue (t := 0) (e := pointed) rfl rfl (by decide)⟩)
  have h4 := h3.snoc (.change (m := fun _ => c!"new") rfl)
  have h5 := h4.snoc (.out ⟨rfl, .takeEvent rfl rfl rfl⟩)
  have h6 := h5.snoc (.out ⟨rfl, .tick rfl⟩)
  exact ⟨_, h6, rfl, by decide +kernel⟩

/-- The same, but the program changes it only when the line is written. -/
theorem patient : ∃ s, MutExec mcfg ⟨newAsync mprog, fun _ => c!"old"⟩
    ([.out .begin, .out (.start 0 (.send pointed)), .out (.queued 0 pointed), .out (.took (some pointed)), .out .tick] ++ [.change (fun _ => c!"new")]) s := by
  have h0 : MutExec mcfg ⟨newAsync mprog, fun _ => c!"old"⟩ [] _ := .nil
  have h1 := h0.snoc (.out ⟨rfl, .begin rfl⟩)
  have h2 := h1.snoc (.out ⟨rfl, .sendStart (t := 0) (e := pointed) rfl rfl⟩)
  have h3 := h2.snoc (.out ⟨rfl, .sendQueue (t := 0) (e := pointed) rfl rfl (by decide)⟩)
  have h5 := h3.snoc (.out ⟨rfl, .takeEvent rfl rfl rfl⟩)
  have h6 := h5.snoc (.out ⟨rfl, .tick rfl⟩)
  exact ⟨_, h6.snoc (.change (m := fun _ => c!"new") rfl)⟩

end Demo

/-- C104 fails: a program logs "old" to an asynchronous output, and after the call has returned it changes the variable;
the line is "new". -/
theorem C104_as_logged_refuted : ∃ (cfg : MCfg (Nat → Str) Nat) (f : (Nat → Str) → Formatter Nat) (prog : Nat → List (ACall Nat)) (m0 : Nat → Str)
    (before after : List (MutLab (Nat → Str) Nat)) (e : Event Nat) (m : Nat → Str) (s : MutState (Nat → Str) Nat),
    cfg.f = some f ∧ MutExec cfg ⟨newAsync prog, m0⟩ (before ++ .out (.queued 0 e) :: .change m :: after) s ∧ s.a.panicked = false ∧
    shownAs cfg.t f (logged m0 (before ++ .out (.queued 0 e) :: .change m :: after)).sent = Str.bytes c!"old\n" ∧ s.a.writes.flatten = Str.bytes c!"new\n" := by
  obtain ⟨s, h, h1, h2⟩ := Demo.changed
  exact ⟨Demo.mcfg, Demo.memF, Demo.mprog, fun _ => c!"old", [.out .begin, .out (.start 0 (.send Demo.pointed))], [.out (.took (some Demo.pointed)), .out .tick],
    Demo.pointed, fun _ => c!"new", s, rfl, h, h1, by decide +kernel, h2⟩

/-- C104, what holds of asynchronous outputs: if the program leaves alone what is on its way, what they write is the text
of what was sent, in order, with the memory as it was when each call began. -/
theorem C104_unchanged_partial {cfg : MCfg M V} {f : M → Formatter V} (hf : cfg.f = some f) {prog : Nat → List (ACall V)} {m0 : M}
    {tr : List (MutLab M V)} {s : MutState M V} (h : MutExec cfg ⟨newAsync prog, m0⟩ tr s) (ha : LeavesAlone cfg f ⟨newAsync prog, m0⟩ tr) :
    ∃ done waiting, (logged m0 tr).sent = done ++ waiting ∧ waiting.map (·.1) = eventsOf s.a.chan ∧
      s.a.writes.flatten ++ s.a.buf = shownAs cfg.t f done := by
  obtain ⟨old, done, wait, inv, hl⟩ := mutexec_inv hf h
  exact ⟨old, wait, inv.sent, inv.chan.symm, by rw [inv.text, (hl ha).1]⟩

/-- The premises are met by a program that changes its variable in the end. -/
example : ∃ tr s, MutExec Demo.mcfg ⟨newAsync Demo.mprog, fun _ => c!"old"⟩ tr s ∧ LeavesAlone Demo.mcfg Demo.memF ⟨newAsync Demo.mprog, fun _ => c!"old"⟩ tr ∧
    MutLab.change (fun _ => c!"new") ∈ tr := by
  obtain ⟨s, h⟩ := Demo.patient
  refine ⟨_, s, h, ?_, by simp⟩
  intro x m y s' hx hs' e he
  have hx' : x = [MutLab.out .begin, .out (.start 0 (.send Demo.pointed)), .out (.queued 0 Demo.pointed), .out (.took (some Demo.pointed)), .out .tick] := by
    rcases x with _ | ⟨a, _ | ⟨b, _ | ⟨c, _ | ⟨d, _ | ⟨e, _ | ⟨g, x⟩⟩⟩⟩⟩⟩ <;> simp at hx ⊢
    obtain ⟨h1, h2, h3, h4, h5, -, -⟩ := hx
    exact ⟨h1.symm, h2.symm, h3.symm, h4.symm, h5.symm⟩
  subst hx'
  obtain ⟨hq, -⟩ := still_exec (tr := [.begin, .start 0 (.send Demo.pointed), .queued 0 Demo.pointed, .took (some Demo.pointed), .tick]) hs'
  rcases he with he | ⟨t, he⟩
  · have h1 := queue_events rfl hq
    have h2 : e ∈ eventsOf s'.a.chan := by simpa [eventsOf, List.mem_filterMap] using he
    have h3 : eventsOf s'.a.chan = [] := by simpa [queuedOf, takenOf, eventsOf] using h1
    rw [h3] at h2; cases h2
  · refine absurd he (sent_idle hq (by simp) ?_ e)
    by_cases h0 : t = 0
    · subst h0; rfl
    · have h0' : ¬ 0 = t := fun h => h0 h.symm
      simp [queuedBy, Demo.mprog, sendsOf, h0, h0']

/-- C104, in any case: each line is the text of what was sent, in order, with the memory at some moment between the call
and now. -/
theorem C104_moment_partial {cfg : MCfg M V} {f : M → Formatter V} (hf : cfg.f = some f) {prog : Nat → List (ACall V)} {m0 : M}
    {tr : List (MutLab M V)} {s : MutState M V} (h : MutExec cfg ⟨newAsync prog, m0⟩ tr s) :
    ∃ shown waiting, (logged m0 tr).sent.map (·.1) = shown.map (·.1) ++ waiting ∧ waiting = eventsOf s.a.chan ∧
      s.a.writes.flatten ++ s.a.buf = shownAs cfg.t f shown ∧
      ∀ (i : Nat) e m, shown[i]? = some (e, m) → ∃ x y, tr = x ++ y ∧ (logged m0 x).mem = m ∧ i < (logged m0 x).sent.length := by
  obtain ⟨old, done, wait, inv, -⟩ := mutexec_inv hf h
  exact ⟨done, wait.map (·.1), by rw [inv.sent, List.map_append, inv.same], inv.chan.symm, inv.text, inv.moment⟩

example : ∃ tr s, MutExec Demo.mcfg ⟨newAsync Demo.mprog, fun _ => c!"old"⟩ tr s ∧ (logged (fun _ => c!"old") tr).sent.length = 1 := by
  obtain ⟨s, h, _⟩ := Demo.changed
  exact ⟨_, s, h, rfl⟩

/-- C104 for synchronous outputs: what is written is the text of each event with the memory when it is sent, whatever the
program changes afterwards. -/
theorem C104_sync_partial (lib : M → Lib V) (t : Level) (f : Option (M → Formatter V)) (acts : List (MutAct M V)) (m : M) :
    (acts.foldl (mutSync lib t f) ([], m)).1 =
      ((passed m acts).filter fun x => decide (t ≤ x.1.level)).map fun x => textOf (lib x.2) (f.map (· x.2)) x.1 := by
  rw [mutSync_writes]; rfl

/-- Two lines, "old" and "new". -/
example : ([.send Demo.pointed, .change fun _ => c!"new", .send Demo.pointed].foldl (mutSync Demo.memLib 1 (some Demo.memF)) ([], fun _ => c!"old")).1 =
    [Str.bytes c!"old\n", Str.bytes c!"new\n"] := by decide +kernel

end Log4g
