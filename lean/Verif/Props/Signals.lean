import Verif.Lemmas.Signals
import Verif.Props.MachineLive
import Verif.Lemmas.FairRuns

/-! # C101-C102: SIGINT and SIGTERM -/

namespace Log4g
open Spec Strconv
open scoped List
variable {V : Type}

namespace Demo

theorem wb_rolls (o : Nat) : wb.rollOf env.tc o = none := by
  match o with
  | 0 => rfl
  | 1 => rfl
  | n + 2 => rfl

/-- A run of the program without files. -/
theorem unfiled {l : List (PLab Nat)} {p : PState Nat} (h : PExec env (newProgram fun _ => false) l p) (hw : p.w = wb) :
    ∃ m, MExec env fhost (newMachine (fun _ => false) fun _ => fvol.vol) (l.map .prog) m ∧ m.p = p :=
  ⟨_, (quiet_lift (tr := []) (m := newMachine (fun _ => false) fun _ => fvol.vol) (host := fhost) .nil (fun _ => ⟨rfl, rfl⟩) h
    (fun o c ho => by rw [hw, wb_rolls] at ho; cases ho)).1, rfl⟩

/-- What a program does, as labels. -/
def does (l : List (PLab Nat)) : List (GLab Nat) := (l.map MLab.prog).map .step

theorem progOf_map (l : List (PLab Nat)) : progOf (l.map .prog) = l := by
  induction l with
  | nil => rfl
  | cons x l ih => rw [List.map_cons, show MLab.prog x :: l.map .prog = [MLab.prog x] ++ l.map .prog from rfl, progOf_append, ih]; rfl

theorem does_prog (l : List (PLab Nat)) : programOf (does l) = l := by rw [does, programOf_steps, progOf_map]

/-- A signal comes; the library closes the manager. -/
theorem signalled {a b : List (PLab Nat)} {p : PState Nat} (h : PExec env (newProgram fun _ => false) (a ++ .close 1 [0, 1] :: b) p) (hw : p.w = wb)
    (hno : ∀ l ∈ a ++ b, ¬ l.startedBy 1) :
    ∃ s, GExec env fhost 1 (newSignalled (fun _ => false) fun _ => fvol.vol) (does a ++ .signal :: .received :: does (.close 1 [0, 1] :: b)) s ∧ s.m.p = p := by
  obtain ⟨m, hm, hmp⟩ := unfiled h hw
  rw [List.map_append, List.map_cons] at hm
  exact ⟨_, signal_at hm (by rw [progOf_map]; exact fun l hl => hno l (List.mem_append_left _ hl)) (by rw [progOf_map]; exact fun l hl => hno l (List.mem_append_right _ hl)), hmp⟩

theorem signalled_prog (a b : List (PLab Nat)) : programOf (does a ++ .signal :: .received :: does b) = a ++ b := by
  rw [programOf_append, programOf_cons, programOf_cons .received, does_prog, does_prog]; rfl

theorem flogged_split : fsetup ++ flogged = ((fsetup ++ [.out 0 .begin]) ++ logged) ++ [.out 0 (.took (some hi)), .out 0 .tick] := by simp [flogged]

/-- A log call panics because of a signal. -/
theorem signal_panics : ∃ (tr : List (GLab Nat)) (s : Signalled Nat),
    GExec env fhost 1 (newSignalled (fun _ => false) fun _ => fvol.vol) (tr ++ [.step (.prog (.out 0 (.panic 0)))]) s ∧ LeavesOpen 1 tr ∧
      .log 0 [⟨0, hi⟩, ⟨1, hi⟩] ∈ programOf tr ∧ .ret 0 ∉ programOf tr ∧ s.m.p.panicked = true := by
  obtain ⟨p, h, hp, hw⟩ := panic_program
  rw [show (setup ++ PLab.log 0 [⟨0, hi⟩, ⟨1, hi⟩] :: overtaken ++ [PLab.out 0 (ALab.panic 0)]) =
    (setup ++ .log 0 [⟨0, hi⟩, ⟨1, hi⟩] :: overtaken.take 2) ++ .close 1 [0, 1] :: (overtaken.drop 3 ++ [.out 0 (.panic 0)]) by simp [overtaken]] at h
  obtain ⟨s, g, hs⟩ := signalled h hw (by simp [setup, overtaken, PLab.startedBy])
  have hprog := signalled_prog (setup ++ .log 0 [⟨0, hi⟩, ⟨1, hi⟩] :: overtaken.take 2) (.close 1 [0, 1] :: overtaken.drop 3)
  rw [show does (PLab.close 1 [0, 1] :: (overtaken.drop 3 ++ [.out 0 (.panic 0)])) =
    does (.close 1 [0, 1] :: overtaken.drop 3) ++ [.step (.prog (.out 0 (.panic 0)))] by simp [does]] at g
  refine ⟨does (setup ++ .log 0 [⟨0, hi⟩, ⟨1, hi⟩] :: overtaken.take 2) ++ .signal :: .received :: does (.close 1 [0, 1] :: overtaken.drop 3),
    s, by simpa using g, ⟨?_, ?_⟩, by rw [hprog]; simp, by rw [hprog]; simp [setup, overtaken], by rw [hs]; exact hp⟩
  · intro t os h
    rw [hprog] at h
    simp [setup, overtaken] at h
    exact h.1
  · intro t o h
    rw [hprog] at h
    simp [setup, overtaken] at h

end Demo

variable {env : PEnv V} {host : Host} {me : Nat} {up : Nat → Bool} {v0 : Nat → Volume} {tr : List (GLab V)} {s : Signalled V}

/-- C101 is refuted: a program that closes nothing logs after a signal; the log call returns, and the event will never be written. -/
theorem C101_after_signal_refuted :
    ∃ (env : PEnv Nat) (host : Host) (me : Nat) (up : Nat → Bool) (v0 : Nat → Volume) (a b : List (GLab Nat)) (s : Signalled Nat) (o : Nat) (cfg : ACfg Nat),
      GExec env host me (newSignalled up v0) (a ++ b) s ∧ LeavesOpen me (a ++ b) ∧ .signal ∈ a ∧ AsyncOut env s.m.p.w o cfg ∧ Returned 0 (programOf b) ∧
      sentBy 0 o (programOf b) = [Demo.hi] ∧ sentBy 0 o (programOf (a ++ b)) = [Demo.hi, Demo.hi] ∧ cfg.t ≤ Demo.hi.level ∧ s.m.p.panicked = false ∧
      ∀ d s', GExec env host me s d s' → (s'.m.p.a o).writes = [[104, 105, 10]] := by
  obtain ⟨s1, h1, hr, hw1, hst, _⟩ := Demo.tidy_program
  obtain ⟨s2, h2, e1, e2, _, hp⟩ := Demo.drop_run Demo.wb_fit hr
  have hx := h1.trans h2
  rw [show (Demo.setup ++ PLab.out 0 ALab.begin :: Demo.logged ++ PLab.close 1 [0, 1] :: Demo.closing ++ [PLab.ret 1] ++ Demo.dropped) =
    (Demo.setup ++ .out 0 .begin :: Demo.logged) ++ .close 1 [0, 1] :: (Demo.closing ++ [.ret 1] ++ Demo.dropped) by simp] at hx
  obtain ⟨s, g, hs⟩ := Demo.signalled hx e1 (by simp [Demo.setup, Demo.logged, Demo.closing, Demo.dropped, PLab.startedBy])
  have et : Demo.does (Demo.setup ++ .out 0 .begin :: Demo.logged) ++ .signal :: .received :: Demo.does (.close 1 [0, 1] :: (Demo.closing ++ [.ret 1] ++ Demo.dropped)) =
      (Demo.does (Demo.setup ++ .out 0 .begin :: Demo.logged) ++ .signal :: .received :: Demo.does (.close 1 [0, 1] :: (Demo.closing ++ [.ret 1]))) ++ Demo.does Demo.dropped := by
    simp [Demo.does]
  have hprog := Demo.signalled_prog (Demo.setup ++ .out 0 .begin :: Demo.logged) (.close 1 [0, 1] :: (Demo.closing ++ [.ret 1] ++ Demo.dropped))
  rw [et] at g hprog
  refine ⟨Demo.env, Demo.fhost, 1, _, _, _, _, s, 0, Demo.bcfg, g, ⟨?_, ?_⟩, by simp, by rw [hs, e1]; exact Demo.wb_out, by rw [Demo.does_prog]; exact Demo.returned_last 0 Demo.dropped.dropLast,
    by rw [Demo.does_prog]; rfl, by rw [hprog]; rfl, by decide, by rw [hs]; exact hp, ?_⟩
  · intro t os h
    rw [hprog] at h
    simp [Demo.setup, Demo.logged, Demo.closing, Demo.dropped] at h
    exact h.1
  · intro t o h
    rw [hprog] at h
    simp [Demo.setup, Demo.logged, Demo.closing, Demo.dropped] at h
  · intro d s' hd
    have h3 := gexec_run hd
    rw [hs] at h3
    rw [(stays_stopped (h2.trans h3) 0 hst).2, hw1, Demo.plain_hi]

/-- C101 is refuted in another way: a log call that is under way when a signal comes panics, though the program closes nothing. -/
theorem C101_panics_refuted :
    ∃ (env : PEnv Nat) (host : Host) (me : Nat) (up : Nat → Bool) (v0 : Nat → Volume) (tr : List (GLab Nat)) (s : Signalled Nat) (ds : List (World.Delivery Nat)),
      GExec env host me (newSignalled up v0) (tr ++ [.step (.prog (.out 0 (.panic 0)))]) s ∧ LeavesOpen me tr ∧ .log 0 ds ∈ programOf tr ∧ .ret 0 ∉ programOf tr ∧ s.m.p.panicked = true := by
  obtain ⟨tr, s, h⟩ := Demo.signal_panics
  exact ⟨_, _, _, _, _, tr, s, _, h⟩

/-- C101, what holds: in a program that closes nothing, an asynchronous output loses nothing as long as no signal has come. -/
theorem C101_before_signal_partial (h : GExec env host me (newSignalled up v0) tr s) (hl : LeavesOpen me tr) (hs : .signal ∉ tr) {o : Nat} {cfg : ACfg V} (hc : AsyncOut env s.m.p.w o cfg) :
    ∃ f written waiting, cfg.f = some f ∧ (s.m.p.a o).writes.flatten = textsOf cfg f written ∧
      (accepted cfg.t (waiting.map (·.2))).length < cfg.queueSize + cfg.batchNum ∧
      ∀ t, shareOf t (written ++ waiting) <+: sentBy t o (programOf tr) ∧
        ∀ a b, programOf tr = a ++ b → Returned t a → sentBy t o a <+: shareOf t (written ++ waiting) :=
  C86_nothing_lost (gexec_prog h) hc ((open_before h hl hs).2 o)

/-- The hypotheses of `C101_before_signal_partial` are met, with an event that has been logged. -/
example : ∃ (up : Nat → Bool) (v0 : Nat → Volume) (tr : List (GLab Nat)) (s : Signalled Nat), GExec Demo.env Demo.fhost 1 (newSignalled up v0) tr s ∧ LeavesOpen 1 tr ∧ .signal ∉ tr ∧
    AsyncOut Demo.env s.m.p.w 0 Demo.bcfg ∧ Returned 0 (programOf tr) ∧ sentBy 0 0 (programOf tr) = [Demo.hi] := by
  obtain ⟨p, h, hw, _⟩ := Demo.log_program
  obtain ⟨m, hm, hmp⟩ := Demo.unfiled h hw
  have g := lift_steps (me := 1) hm false .waits (by rw [Demo.progOf_map]; simp [Demo.setup, Demo.logged, PLab.startedBy])
  have e := Demo.does_prog (Demo.setup ++ .out 0 .begin :: Demo.logged)
  refine ⟨_, _, Demo.does (Demo.setup ++ .out 0 .begin :: Demo.logged), _, g, ⟨?_, ?_⟩, by simp [Demo.does], by rw [hmp, hw]; exact Demo.wb_out,
    by rw [e]; exact Demo.logged_returned (Demo.setup ++ [.out 0 .begin]), by rw [e]; rfl⟩
  · rw [e]; simp [Demo.setup, Demo.logged]
  · rw [Tame, e]; simp [Demo.setup, Demo.logged]

/-- C101, what holds: a synchronous output loses nothing, signal or not. -/
theorem C101_sync_partial (h : GExec env host me (newSignalled up v0) tr s) {o : Nat} {l : Level} {f : List Frame → Option (Formatter V)} (hc : SyncOut env s.m.p.w o l f) :
    ∃ written, s.m.p.wrote o = linesOf env.lib l f written ∧
      ∀ t, shareOf t (calls written) <+: sentBy t o (programOf tr) ∧ ∀ a b, programOf tr = a ++ b → Returned t a → sentBy t o a <+: shareOf t (calls written) :=
  C86_sync (gexec_prog h) hc

/-- The hypotheses of `C101_sync_partial` are met, with events logged before and after a signal. -/
example : ∃ (up : Nat → Bool) (v0 : Nat → Volume) (a b : List (GLab Nat)) (s : Signalled Nat) (f : List Frame → Option (Formatter Nat)),
    GExec Demo.env Demo.fhost 1 (newSignalled up v0) (a ++ .signal :: b) s ∧ SyncOut Demo.env s.m.p.w 1 Level.All f ∧ sentBy 0 1 (programOf a) = [Demo.hi] ∧
      Returned 0 (programOf (a ++ .signal :: b)) ∧ sentBy 0 1 (programOf (a ++ .signal :: b)) = [Demo.hi, Demo.hi] := by
  obtain ⟨s1, h1, hr, hw1, hst, _⟩ := Demo.tidy_program
  obtain ⟨s2, h2, e1, e2, _, hp⟩ := Demo.drop_run Demo.wb_fit hr
  have hx := h1.trans h2
  rw [show (Demo.setup ++ PLab.out 0 ALab.begin :: Demo.logged ++ PLab.close 1 [0, 1] :: Demo.closing ++ [PLab.ret 1] ++ Demo.dropped) =
    (Demo.setup ++ .out 0 .begin :: Demo.logged) ++ .close 1 [0, 1] :: (Demo.closing ++ [.ret 1] ++ Demo.dropped) by simp] at hx
  obtain ⟨s, g, hs⟩ := Demo.signalled hx e1 (by simp [Demo.setup, Demo.logged, Demo.closing, Demo.dropped, PLab.startedBy])
  have hprog := Demo.signalled_prog (Demo.setup ++ .out 0 .begin :: Demo.logged) (.close 1 [0, 1] :: (Demo.closing ++ [.ret 1] ++ Demo.dropped))
  refine ⟨_, _, _, _, s, _, g, by rw [hs, e1]; exact Demo.wb_sync, by rw [Demo.does_prog]; rfl, ?_, by rw [hprog]; rfl⟩
  rw [hprog]
  have := Demo.returned_last 0 (Demo.setup ++ .out 0 .begin :: Demo.logged ++ .close 1 [0, 1] :: (Demo.closing ++ [.ret 1] ++ Demo.dropped.dropLast))
  simpa [Demo.dropped] using this

/-- C101, what holds: the outputs make no call panic before a signal has come and the library has begun to close the manager. -/
theorem C101_panics_partial {l : MLab V} (h : GExec env host me (newSignalled up v0) (tr ++ [.step l]) s) (hl : LeavesOpen me tr) (hp : s.m.p.panicked = true) :
    (∃ t, programOf (tr ++ [.step l]) = programOf tr ++ [.panic t]) ∨ (.signal ∈ tr ∧ ∃ os, .close me os ∈ programOf tr) := by
  obtain ⟨s1, h1, h2⟩ := h.split
  have hprog := gexec_prog h
  have hm : PExec env s1.m.p (programOf [.step l]) s.m.p := gexec_run h2
  have halive : s1.m.p.panicked = false := by
    obtain ⟨m1, k1, k2⟩ := mexec_first (gexec_machine h2)
    exact step_alive k1
  rw [programOf_append] at hprog ⊢
  have hone : programOf [.step l] = [] ∨ ∃ p, programOf [GLab.step l] = [p] := by
    cases l
    · exact .inr ⟨_, rfl⟩
    · exact .inr ⟨_, rfl⟩
    · exact .inl rfl
    · exact .inl rfl
  rcases hone with e | ⟨p, e⟩
  · rw [e] at hm
    generalize hq : ([] : List (PLab V)) = q at hm
    generalize s.m.p = p1 at hm hp
    generalize s1.m.p = p0 at hm halive
    cases hm with
    | nil => rw [halive] at hp; cases hp
    | snoc _ _ => simp at hq
  · rw [e] at hprog ⊢
    rcases panic_from hprog hp with ⟨t, rfl⟩ | ⟨o, t, cfg, s1', rfl, k1, hc, hs, hpc, hcc⟩
    · exact .inl ⟨t, rfl⟩
    · refine .inr ?_
      have inv := pexec_inv k1
      have key : ∃ os, .close me os ∈ programOf tr := Classical.byContradiction fun hno => by
        have ho : Open o (programOf tr) := ⟨fun u os hu => by
          have := hl.1 u os hu
          subst this
          exact (hno ⟨os, hu⟩).elim, fun u => hl.2 u o⟩
        rw [(never_closed (fun u => (inv.opened o ho u).2) (inv.proj o cfg hc)).2.2.1] at hcc
        cases hcc
      refine ⟨Classical.byContradiction fun hs => ?_, key⟩
      obtain ⟨os, hk⟩ := key
      exact (open_before h1 hl hs).1 me os hk

/-- The hypotheses of `C101_panics_partial` are met. -/
example : ∃ (up : Nat → Bool) (v0 : Nat → Volume) (tr : List (GLab Nat)) (l : MLab Nat) (s : Signalled Nat), GExec Demo.env Demo.fhost 1 (newSignalled up v0) (tr ++ [.step l]) s ∧
    LeavesOpen 1 tr ∧ s.m.p.panicked = true := by
  obtain ⟨tr, s, h, hl, _, _, hp⟩ := Demo.signal_panics
  exact ⟨_, _, tr, _, s, h, hl, hp⟩

/-! ## C102 -/

variable {os : Answers V}

/-- C102: when the first signal has come, the library by itself can go on, however the operating system answers, until every asynchronous output has written
the texts of the events that calls that had returned by then were given, in their order; and if no call to the operating system failed,
except perhaps for archives, the files hold them. -/
theorem C102_flushes {a b : List (GLab V)} (hos : PossibleAnswers env host up v0 os) (h : GExec env host me (newSignalled up v0) (a ++ .signal :: b) s) (ha : .signal ∉ a)
    (hl : LeavesOpen me (a ++ .signal :: b)) (hp : s.m.p.panicked = false) :
    ∃ gtr s', GExec env host me s gtr s' ∧ (∀ l ∈ gtr, ByLibrary me l) ∧ AnsweredBy os (machineOf (a ++ .signal :: b)) (machineOf gtr) ∧ s'.m.p.panicked = false ∧
      (∀ o, (s'.m.wr o).job = none) ∧
      ∀ o cfg, AsyncOut env s'.m.p.w o cfg → ∃ f before later, cfg.f = some f ∧ (s'.m.p.a o).writes.flatten = textsOf cfg f (before ++ later) ∧
        InTime o (programOf (a ++ .signal :: b ++ gtr)) (before ++ later) ∧
        (∀ u, (∀ x y, programOf a = x ++ y → Returned u x → sentBy u o x <+: shareOf u before) ∧ shareOf u (before ++ later) <+ sentBy u o (programOf (a ++ .signal :: b ++ gtr))) ∧
        ∀ c k hs0, Housed env host v0 (machineOf (a ++ .signal :: b ++ gtr)) s'.m o c k hs0 → LogCallsOk (callsOf o (ioIn k (machineOf (a ++ .signal :: b ++ gtr)))) →
          KeepsLog host.lib c (files c (v0 k).dir hs0) ((accepted cfg.t ((before ++ later).map (·.2))).map f) (s'.m.vol k).dir := by
  obtain ⟨sa, hsa, hb⟩ := h.split
  obtain ⟨gtr, s', k1, k2, k3, k4, k5, k6⟩ := can_write hos hsa ha hb hl hp
  refine ⟨gtr, s', k1, k2, k3, k4, fun o => (k5 o).1, fun o cfg hc => ?_⟩
  have hc := async_of hc
  have hall := hsa.trans (hb.trans k1)
  obtain ⟨f, gs, before, later, j1, j2, j3, j4, j5⟩ := signal_texts hsa ha (leaves_left hl) (hb.trans k1) k4 hc fun ho => k6 o ho (by rw [hc]; simp)
  rw [← List.append_assoc] at j4 j5 hall
  refine ⟨f, before, later, j1, by rw [j2, textsOf, ← j3, flatMap_groups], j4, j5, fun c k hs0 hd hok => ?_⟩
  exact disk_texts (mexec_inv (gexec_machine hall)) hd hok hc (k5 o).1 j2 j3

/-- The hypotheses of `C102_flushes` are met, with an event that has been logged and answers that are not those one would like to have. -/
example : ∃ (up : Nat → Bool) (v0 : Nat → Volume) (os : Answers Nat) (a b : List (GLab Nat)) (s : Signalled Nat), PossibleAnswers Demo.env Demo.fhost up v0 os ∧
    GExec Demo.env Demo.fhost 1 (newSignalled up v0) (a ++ .signal :: b) s ∧ .signal ∉ a ∧ LeavesOpen 1 (a ++ .signal :: b) ∧ s.m.p.panicked = false ∧
    AsyncOut Demo.env s.m.p.w 0 Demo.bcfg ∧ ∃ x y, programOf a = x ++ y ∧ Returned 0 x ∧ sentBy 0 0 x = [Demo.hi] := by
  obtain ⟨tr1, m1, tr2, m2, h1, h2, e1, e2, e3, e4, f1, f2, g1, g2⟩ := Demo.filed_run
  have hp : m1.p.panicked = false := unpanicked (mexec_inv h1).prog rfl (by rw [e1]; simp [Demo.fsetup, Demo.flogged, Demo.logged]) (by rw [e1]; simp [Demo.fsetup, Demo.flogged, Demo.logged])
    (by rw [e1]; simp [Demo.fsetup, Demo.flogged, Demo.logged])
  have g := (lift_steps (me := 1) h1 false .waits (by rw [e1]; simp [Demo.fsetup, Demo.flogged, Demo.logged, PLab.startedBy])).snoc (.signal hp)
  have e : programOf (tr1.map GLab.step) = Demo.fsetup ++ Demo.flogged := by rw [programOf_steps, e1]
  have e' : programOf (tr1.map GLab.step ++ [.signal]) = Demo.fsetup ++ Demo.flogged := by rw [programOf_append, e]; rfl
  refine ⟨_, _, _, _, [], _, Demo.broken_possible, g, by simp, ⟨?_, ?_⟩, hp, by rw [f1]; exact Demo.wf_out, _, _, by rw [e]; exact Demo.flogged_split, Demo.logged_returned _, rfl⟩
  · rw [e']; simp [Demo.fsetup, Demo.flogged, Demo.logged]
  · rw [Tame, e']; simp [Demo.fsetup, Demo.flogged, Demo.logged]

/-- The library calls `Close` only after a signal, and once. -/
theorem C102_once (h : GExec env host me (newSignalled up v0) tr s) :
    (∀ p ∈ programOf tr, p.startedBy me → .signal ∈ tr ∧ ∃ os, p = .close me os) ∧
    ∀ x y os p, programOf tr = x ++ .close me os :: y → p ∈ x ++ y → ¬ p.startedBy me := by
  have inv := gexec_inv h
  by_cases hpc : s.pc = .closes
  · obtain ⟨x, os, y, e, hno⟩ := inv.once hpc
    refine ⟨fun p hp hs => ⟨inv.told (by rw [hpc]; simp), ?_⟩, fun x' y' os' p e' => ?_⟩
    · rw [e] at hp
      rcases List.mem_append.mp hp with k | k
      · exact (hno p (List.mem_append_left _ k) hs).elim
      · rcases List.mem_cons.mp k with k | k
        · exact ⟨os, k⟩
        · exact (hno p (List.mem_append_right _ k) hs).elim
    · have key : x' = x ∧ y' = y := by
        rw [e] at e'
        rcases List.append_eq_append_iff.mp e' with ⟨d, k1, k2⟩ | ⟨d, k1, k2⟩
        · cases d with
          | nil => simp_all
          | cons z d =>
            obtain ⟨rfl, k2'⟩ := List.cons.inj k2
            exact (hno (.close me os') (by rw [k2']; simp) rfl).elim
        · cases d with
          | nil => simp_all
          | cons z d =>
            obtain ⟨rfl, k2'⟩ := List.cons.inj k2
            exact (hno (.close me os') (by rw [k1]; simp) rfl).elim
      rw [key.1, key.2]
      exact fun hp => hno p hp
  · refine ⟨fun p hp hs => (inv.quiet hpc p hp hs).elim, fun x y os p e _ => ?_⟩
    exact (inv.quiet hpc (.close me os) (by rw [e]; simp) rfl).elim

/-- C102: once the library's call of `Close` has returned, they are written, if the worker of the output had begun; and if no call to the
operating system failed, except perhaps for archives, the files hold them. -/
theorem C102_closed {a b : List (GLab V)} (h : GExec env host me (newSignalled up v0) (a ++ .signal :: b) s) (ha : .signal ∉ a) (hl : LeavesOpen me (a ++ .signal :: b))
    {q : List (PLab V)} (hret : programOf (a ++ .signal :: b) = q ++ [.ret me]) {o : Nat} {cfg : ACfg V} (hc : AsyncOut env s.m.p.w o cfg)
    (hbegin : WorkerFirst o (programOf (a ++ .signal :: b))) :
    ∃ f before later, cfg.f = some f ∧ (s.m.p.a o).writes.flatten = textsOf cfg f (before ++ later) ∧ InTime o (programOf (a ++ .signal :: b)) (before ++ later) ∧
      (∀ u, (∀ x y, programOf a = x ++ y → Returned u x → sentBy u o x <+: shareOf u before) ∧ shareOf u (before ++ later) <+ sentBy u o (programOf (a ++ .signal :: b))) ∧
      ∀ c k hs0, Housed env host v0 (machineOf (a ++ .signal :: b)) s.m o c k hs0 → LogCallsOk (callsOf o (ioIn k (machineOf (a ++ .signal :: b)))) →
        KeepsLog host.lib c (files c (v0 k).dir hs0) ((accepted cfg.t ((before ++ later).map (·.2))).map f) (s.m.vol k).dir := by
  obtain ⟨sa, hsa, hb⟩ := h.split
  obtain ⟨os, x, hcall, hno⟩ := returned_close h hret
  have hprog := gexec_prog h
  have hopen : Open o x := by
    obtain ⟨z, e, _⟩ := hcall
    refine ⟨fun t os' hm => ?_, fun t hm => ?_⟩
    · have := hl.1 t os' (by rw [e]; simp [hm])
      subst this
      exact (hno _ hm rfl).elim
    · exact hl.2 t o (by rw [e]; simp [hm])
  have hst := (C87_close_flushes_partial hprog hcall hc hopen hbegin).1
  obtain ⟨hp, _, hcl⟩ := close_done hcall hprog
  have hc := async_of hc
  have hclosed := hcl o (closes_all hcall hprog (by rw [hc]; simp)) (by rw [hc]; simp)
  obtain ⟨f, gs, before, later, j1, j2, j3, j4, j5⟩ := signal_texts hsa ha (leaves_left hl) hb hp hc fun _ => hst
  refine ⟨f, before, later, j1, by rw [j2, textsOf, ← j3, flatMap_groups], j4, j5, fun c k hs0 hd hok => ?_⟩
  exact disk_texts (mexec_inv (gexec_machine h)) hd hok hc (closed_idle (gexec_machine h) hbegin (.inr hclosed)) j2 j3

/-- The hypotheses of `C102_closed` are met, also those about files, with an event that has been logged. -/
example : ∃ (up : Nat → Bool) (v0 : Nat → Volume) (a b : List (GLab Nat)) (s : Signalled Nat) (q : List (PLab Nat)) (c : RCfg),
    GExec Demo.env Demo.fhost 1 (newSignalled up v0) (a ++ .signal :: b) s ∧ .signal ∉ a ∧ LeavesOpen 1 (a ++ .signal :: b) ∧ programOf (a ++ .signal :: b) = q ++ [.ret 1] ∧
    AsyncOut Demo.env s.m.p.w 0 Demo.bcfg ∧ WorkerFirst 0 (programOf (a ++ .signal :: b)) ∧ (∃ x y, programOf a = x ++ y ∧ Returned 0 x ∧ sentBy 0 0 x = [Demo.hi]) ∧
    Housed Demo.env Demo.fhost v0 (machineOf (a ++ .signal :: b)) s.m 0 c 0 [c!"log.7"] ∧ LogCallsOk (callsOf 0 (ioIn 0 (machineOf (a ++ .signal :: b)))) := by
  obtain ⟨tr1, m1, tr2, m2, h1, h2, e1, e2, e3, e4, f1, f2, g1, g2⟩ := Demo.filed_run
  obtain ⟨x, y, exy, ex, ey, g⟩ := signal_steps (me := 1) (os := [0, 1]) (h1.trans h2) (a := Demo.fsetup ++ Demo.flogged) (b := Demo.fclosing ++ [.ret 1]) (by rw [progOf_append, e1, e2]; simp)
    (by simp [Demo.fsetup, Demo.flogged, Demo.logged, Demo.fclosing, PLab.startedBy])
  have em : machineOf (x.map GLab.step ++ .signal :: .received :: .step (.prog (.close 1 [0, 1])) :: y.map .step) = tr1 ++ tr2 := by
    rw [exy, machineOf_append, show (GLab.signal :: .received :: .step (.prog (.close 1 [0, 1])) :: y.map GLab.step : List (GLab Nat)) =
      [.signal, .received] ++ (MLab.prog (.close 1 [0, 1]) :: y).map GLab.step from rfl, machineOf_append, machineOf_steps, machineOf_steps]
    rfl
  have ep : programOf (x.map GLab.step ++ .signal :: .received :: .step (.prog (.close 1 [0, 1])) :: y.map .step) =
      Demo.fsetup ++ Demo.flogged ++ (.close 1 [0, 1] :: Demo.fclosing ++ [.ret 1]) := by rw [programOf, em, progOf_append, e1, e2]
  have ex' : programOf (x.map GLab.step) = Demo.fsetup ++ Demo.flogged := by rw [programOf_steps, ex]
  refine ⟨_, _, _, _, _, Demo.fsetup ++ Demo.flogged ++ .close 1 [0, 1] :: Demo.fclosing, _, g, by simp, ⟨?_, ?_⟩, by rw [ep]; simp, by rw [f2]; exact Demo.wf_out, ?_,
    ⟨_, _, by rw [ex']; exact Demo.flogged_split, Demo.logged_returned _, rfl⟩, Demo.filed_log f2 ?_, ?_⟩
  · rw [ep]; simp [Demo.fsetup, Demo.flogged, Demo.logged, Demo.fclosing]
  · rw [Tame, ep]; simp [Demo.fsetup, Demo.flogged, Demo.logged, Demo.fclosing]
  · rw [ep]; exact workerFirst_of (by simp [Demo.flogged]) (by simp [Demo.flogged, Demo.fsetup, Demo.logged])
  · rw [em, ioIn_append, e3, e4]; decide +kernel
  · rw [em, ioIn_append, e3, e4]; exact logCallsOkB_ok ((by decide +kernel))

end Log4g
