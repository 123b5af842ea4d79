import Verif.Props.System
import Verif.Lemmas.SystemOrder

/-! # C99: the order of the lines is that of the calls, across goroutines -/

namespace Log4g
open Spec
open scoped List
variable {V : Type}

namespace Demo

/-- The log call of another goroutine. -/
def loggedNext : List (PLab Nat) :=
  [.log 1 [⟨0, hi⟩, ⟨1, hi⟩], .enter 1 0 (.send hi), .out 0 (.start 1 (.send hi)), .out 0 (.queued 1 hi), .leave 1 0, .plain 1 1 (.send hi), .ret 1]

/-- Goroutine 1 has begun nothing yet. -/
theorem idle_returned : Returned 1 (setup ++ .out 0 .begin :: logged) := by
  intro x l y e hb
  have hm : l ∈ setup ++ .out 0 .begin :: logged := by rw [e]; simp
  rcases hb with ⟨ds, rfl⟩ | ⟨os, rfl⟩ | ⟨o, c, rfl⟩ <;> simp [setup, logged] at hm

/-- Two goroutines log, one after the other. -/
theorem turns_program : ∃ s, PExec env (newProgram fun _ => false) (setup ++ .out 0 .begin :: logged ++ loggedNext) s ∧ s.w = wb ∧
    (s.a 0).chan = [some hi, some hi] ∧ s.wrote 1 = [[104, 105, 10], [104, 105, 10]] := by
  have hw := wb_fit
  have h0 : PExec env ({ w := wb } : PState Nat) [] _ := .nil
  have h0 := h0.snoc ⟨rfl, .out (o := 0) hw.async ⟨rfl, .begin rfl⟩⟩
  have h1 := h0.snoc ⟨rfl, .log (t := 0) rfl hw.heap hw.hi⟩
  have h2 := h1.snoc ⟨rfl, .enter (t := 0) rfl hw.async⟩
  have h3 := h2.snoc ⟨rfl, .out (o := 0) hw.async ⟨rfl, .sendStart (t := 0) (e := hi) rfl rfl⟩⟩
  have h4 := h3.snoc ⟨rfl, .out (o := 0) hw.async ⟨rfl, .sendQueue (t := 0) (e := hi) rfl rfl (show (0 : Nat) < 2 by decide)⟩⟩
  have h5 := h4.snoc ⟨rfl, .leave (t := 0) rfl rfl⟩
  have h6 := h5.snoc ⟨rfl, .send (t := 0) [] rfl hw.none⟩
  have h7 := h6.snoc ⟨rfl, .ret (t := 0) rfl⟩
  have h8 := h7.snoc ⟨rfl, .log (t := 1) rfl hw.heap hw.hi⟩
  have h9 := h8.snoc ⟨rfl, .enter (t := 1) rfl hw.async⟩
  have h10 := h9.snoc ⟨rfl, .out (o := 0) hw.async ⟨rfl, .sendStart (t := 1) (e := hi) rfl rfl⟩⟩
  have h11 := h10.snoc ⟨rfl, .out (o := 0) hw.async ⟨rfl, .sendQueue (t := 1) (e := hi) rfl rfl (show (1 : Nat) < 2 by decide)⟩⟩
  have h12 := h11.snoc ⟨rfl, .leave (t := 1) rfl rfl⟩
  have h13 := h12.snoc ⟨rfl, .send (t := 1) [] rfl hw.none⟩
  have h14 := h13.snoc ⟨rfl, .ret (t := 1) rfl⟩
  have := begun.trans h14
  refine ⟨_, by simpa [logged, loggedNext] using this, rfl, rfl, ?_⟩
  show ([] ++ wb.sendWrites env.tc env.lib [] env.other ⟨1, Demo.hi⟩) ++ wb.sendWrites env.tc env.lib [] env.other ⟨1, Demo.hi⟩ = _
  rw [hw.write]; rfl

end Demo

variable {env : PEnv V} {up : Nat → Bool} {tr : List (PLab V)} {s : PState V} {o : Nat}

/-- C99: what an asynchronous output has written, and what waits, is in the order of the calls, whichever goroutines made them: of two calls one of
which returned before the other began, the event of the first comes first.  As long as the program has not closed the output,
the event of every call that has returned is there. -/
theorem C99_async (h : PExec env (newProgram up) tr s) {cfg : ACfg V} (hc : AsyncOut env s.w o cfg) :
    ∃ f written waiting, cfg.f = some f ∧ (s.a o).writes.flatten = textsOf cfg f written ∧ InTime o tr (written ++ waiting) ∧
      (Open o tr → ∀ t a b, tr = a ++ b → Returned t a → sentBy t o a <+: shareOf t (written ++ waiting)) := by
  have hc := async_of hc
  have inv := pexec_inv h
  obtain ⟨⟨f, hf⟩, _, hb, _⟩ := asyncOf_cfg inv.world hc
  obtain ⟨written, waiting, h1, h2, h3⟩ := written_pairs hf hb (inv.proj o cfg hc)
  refine ⟨f, written, waiting, hf, h2, by rw [← h1]; exact async_inTime h hc, ?_⟩
  rw [← h1]
  intro ho t a b e hr
  have ho' : Open o a := by rw [e] at ho; exact open_left ho
  rw [async_returned h hc t e ho' hr, e, outLabs_append, pairsOf_append, shareOf_append]
  exact List.prefix_append _ _

/-- The hypotheses of `C99_async` are met, with a call that returned before another goroutine's began. -/
example : ∃ up a b s cfg, PExec Demo.env (newProgram up) (a ++ b) s ∧ AsyncOut Demo.env s.w 0 cfg ∧ Open 0 (a ++ b) ∧ Returned 0 a ∧ Returned 1 a ∧
    sentBy 0 0 a = [Demo.hi] ∧ sentBy 1 0 a = [] ∧ sentBy 1 0 b = [Demo.hi] ∧ (s.a 0).chan = [some Demo.hi, some Demo.hi] := by
  obtain ⟨s, h, hw, hc, _⟩ := Demo.turns_program
  refine ⟨_, _, _, s, Demo.bcfg, h, by rw [hw]; exact Demo.wb_out, ?_, Demo.logged_returned (Demo.setup ++ [.out 0 .begin]), ?_, rfl, rfl, rfl, hc⟩
  · constructor
    · intro t os h; simp [Demo.setup, Demo.logged, Demo.loggedNext] at h
    · intro t h; simp [Demo.setup, Demo.logged, Demo.loggedNext] at h
  · exact Demo.idle_returned

/-- C99 for synchronous outputs. -/
theorem C99_sync (h : PExec env (newProgram up) tr s) {l : Level} {f : List Frame → Option (Formatter V)} (hc : SyncOut env s.w o l f) :
    ∃ written, s.wrote o = linesOf env.lib l f written ∧ InTime o tr (calls written) ∧
      ∀ t a b, tr = a ++ b → Returned t a → sentBy t o a <+: shareOf t (calls written) := by
  obtain ⟨q, hq⟩ := pexec_sinv h
  refine ⟨q o, by rw [hq.wrote, sync_lines hc], ?_, fun t => ?_⟩ <;> rw [hq.made]
  · exact plain_inTime h (sync_none hc)
  · exact (plain_order h (sync_none hc) t).2

/-- The hypotheses of `C99_sync` are met, with a call that returned before another goroutine's began. -/
example : ∃ up a b s f, PExec Demo.env (newProgram up) (a ++ b) s ∧ SyncOut Demo.env s.w 1 Level.All f ∧ Returned 0 a ∧ Returned 1 a ∧
    sentBy 0 1 a = [Demo.hi] ∧ sentBy 1 1 a = [] ∧ sentBy 1 1 b = [Demo.hi] ∧ s.wrote 1 = [[104, 105, 10], [104, 105, 10]] := by
  obtain ⟨s, h, hw, _, hwr⟩ := Demo.turns_program
  exact ⟨_, _, _, s, _, h, by rw [hw]; exact Demo.wb_sync, Demo.logged_returned (Demo.setup ++ [.out 0 .begin]), Demo.idle_returned, rfl, rfl, rfl, hwr⟩

/-- C99 for syslog outputs. -/
theorem C99_syslog (h : PExec env (newProgram up) tr s) {l : Level} {f : List Frame → Option (Formatter V)} (hc : SyslogOut env s.w o l f) :
    ∃ sent, SysSent env.lib l f sent (s.syslog o) ∧ InTime o tr (calls sent) ∧
      ∀ t a b, tr = a ++ b → Returned t a → sentBy t o a <+: shareOf t (calls sent) := by
  obtain ⟨q, hq⟩ := pexec_sinv h
  refine ⟨q o, by rw [hq.syslog]; exact syslog_sent hc _, ?_, fun t => ?_⟩ <;> rw [hq.made]
  · exact plain_inTime h (syslog_none hc)
  · exact (plain_order h (syslog_none hc) t).2

/-- The hypotheses of `C99_syslog` are met, with two goroutines that log, one after the other. -/
example : ∃ up a b s f, PExec Demo.env (newProgram up) (a ++ b) s ∧ SyslogOut Demo.env s.w 0 Level.All f ∧ Returned 0 a ∧
    sentBy 0 0 a = [Demo.hi] ∧ sentBy 1 0 a = [] ∧ sentBy 1 0 b = [Demo.hi] ∧ s.syslog 0 = [.warning [104, 105, 10], .warning [104, 105, 10]] := by
  have hst : Demo.wd.printf 1 [⟨c!"main.go", 12, c!"main.main"⟩] 1 [] Level.Warn c!"hi" ([] : List Nat) = .sent [⟨0, Demo.hi⟩] := by rfl
  have h0 : PExec Demo.env (newProgram fun _ => true) [] _ := .nil
  have h1 := h0.snoc ⟨rfl, .act (a := .setConfig Demo.daemon []) (List.Perm.refl _) trivial (by simp [Act.panics]) (fun _ => rfl)⟩
  have h2 : PExec Demo.env (newProgram fun _ => true) [.act (.setConfig Demo.daemon []), .act (.getLogger c!"a")] { w := Demo.wd } :=
    h1.snoc ⟨rfl, .act (a := .getLogger c!"a") trivial trivial (by simp [Act.panics]) (fun _ => rfl)⟩
  have h3 := h2.snoc ⟨rfl, .log (t := 0) rfl (by decide) hst⟩
  have h4 := h3.snoc ⟨rfl, .send (t := 0) [] rfl (by rfl)⟩
  have h5 := h4.snoc ⟨rfl, .ret (t := 0) rfl⟩
  have h6 := h5.snoc ⟨rfl, .log (t := 1) rfl (by decide) hst⟩
  have h7 := h6.snoc ⟨rfl, .send (t := 1) [] rfl (by rfl)⟩
  have h8 := h7.snoc ⟨rfl, .ret (t := 1) rfl⟩
  have hs : Demo.wd.sendSyslog Demo.env [] ⟨0, Demo.hi⟩ = [.warning [104, 105, 10]] := by decide +kernel
  refine ⟨_, [.act (.setConfig Demo.daemon []), .act (.getLogger c!"a")] ++ [.log 0 [⟨0, Demo.hi⟩]] ++ [.plain 0 0 (.send Demo.hi)] ++ [.ret 0],
    [.log 1 [⟨0, Demo.hi⟩]] ++ [.plain 1 0 (.send Demo.hi)] ++ [.ret 1], _, fun stack => Demo.wd.formatterOf Demo.lib stack Demo.env.other
    ⟨.managed (some [(c!"name", c!"s1"), (c!"type", c!"syslog"), (c!"format", c!"f2")]), some 0⟩, by simpa using h8, ⟨_, rfl, fun _ => rfl, rfl⟩,
    Demo.returned_last 0 _, rfl, rfl, rfl, ?_⟩
  show ([] ++ Demo.wd.sendSyslog Demo.env [] ⟨0, Demo.hi⟩) ++ Demo.wd.sendSyslog Demo.env [] ⟨0, Demo.hi⟩ = _
  rw [hs]; rfl

end Log4g
