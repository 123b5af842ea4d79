import Verif.Lemmas.RetentionOutput

/-! # C113, from what is logged: the newest events are in the files -/

namespace Log4g
open Spec

variable {V : Type} {cfg : ACfg V} {umask : Nat} {lib : RLib} {c : RCfg}

/-- C113, an asynchronous output at work.  When nothing failed except perhaps for archives: the text of an accepted event which the worker has taken
from the queue is in the log, in one piece, as soon as `batch_num - 1` accepted events have been taken after it and as long as their
texts have less than `maxRolls` times `max` bytes. -/
theorem C113_async {f : Formatter V} (hf : cfg.f = some f) (hbn : 1 ≤ cfg.batchNum) {max : Int} (hk : c.kind = .size max) (hmax : 0 < max) {d0 : Disk} {hs0 : List Str}
    (hb : Backups lib c d0.dir hs0) {B : Int} (hB : 0 ≤ B) (hnum : ∀ n ∈ hs0, ∀ v, Backup lib c n v → v ≤ B)
    {prog : Nat → List (ACall V)} {tr : List (ALab V)} {st : STrace} {s : OState V} (h : OExec cfg umask lib c (newOutput d0 prog) tr st s)
    (hn : LogCallsOk st) (hnr : B + rolls st < 2 ^ 63) {pre post : List (Event V)} {e : Event V}
    (he : accepted cfg.t (eventsOf (takenOf tr)) = pre ++ e :: post) (hpost : cfg.batchNum ≤ post.length + 1)
    (hr : ((post.flatMap f).length : Int) < c.maxRolls * max) : InLog lib c s.disk.dir (f e) := by
  obtain ⟨ha, hs⟩ := oexec_parts h
  obtain ⟨gs, b, bi⟩ := aexec_binv hf ha
  have hlt : b.length < cfg.batchNum := by rw [← bi.num]; exact bi.batch hbn
  rw [bi.groups] at hs
  have hsp := bi.split.symm.trans he
  rcases List.append_eq_append_iff.mp hsp with ⟨as, h1, h2⟩ | ⟨bs, h1, h2⟩
  · have : b.length = as.length + (post.length + 1) := by rw [h2]; simp
    omega
  · cases bs with
    | nil =>
      have : b.length = post.length + 1 := by rw [← h2.trans (List.nil_append _)]; rfl
      omega
    | cons x bs =>
      simp only [List.cons_append, List.cons.injEq] at h2
      obtain ⟨rfl, rfl⟩ := h2
      refine groups_retain hk hmax hb hB hnum hs hn hnr h1 ?_
      rw [List.flatMap_append, List.length_append] at hr
      omega

/-- C113, an asynchronous output whose worker has stopped: the last events before the first close request are in the log. -/
theorem C113_closed {f : Formatter V} (hf : cfg.f = some f) {max : Int} (hk : c.kind = .size max) (hmax : 0 < max) {d0 : Disk} {hs0 : List Str}
    (hb : Backups lib c d0.dir hs0) {B : Int} (hB : 0 ≤ B) (hnum : ∀ n ∈ hs0, ∀ v, Backup lib c n v → v ≤ B)
    {prog : Nat → List (ACall V)} {tr : List (ALab V)} {st : STrace} {s : OState V} (h : OExec cfg umask lib c (newOutput d0 prog) tr st s)
    (hp : s.a.panicked = false) (hw : s.a.worker = .stopped) (hn : LogCallsOk st) (hnr : B + rolls st < 2 ^ 63) :
    ∃ (es : List (Event V)) (rest : List (Option (Event V))), queuedOf tr = es.map some ++ none :: rest ∧
      ∀ pre e post, accepted cfg.t es = pre ++ e :: post → ((post.flatMap f).length : Int) < c.maxRolls * max → InLog lib c s.disk.dir (f e) := by
  obtain ⟨ha, hs⟩ := oexec_parts h
  obtain ⟨es, rest, h1, h2, _⟩ := stopped_written hf ha hp hw
  refine ⟨es, rest, h1, fun pre e post he hr => ?_⟩
  obtain ⟨gs, b, bi⟩ := aexec_binv hf ha
  have hb0 := bi.idle (by simp [hw])
  subst hb0
  have hsplit := bi.split
  rw [h2, eventsOf_append] at hsplit
  have hev : eventsOf (es.map some) = es := by simp [eventsOf]
  rw [hev] at hsplit
  have hsplit : accepted cfg.t es = gs.flatten := by simpa [eventsOf] using hsplit
  rw [bi.groups] at hs
  exact groups_retain hk hmax hb hB hnum hs hn hnr (hsplit.symm.trans he) hr

/-- C113, a synchronous output to which goroutines send events: when all calls have returned, there is an order of the accepted events which
respects that of each goroutine and whose last texts, less than `maxRolls` times `max` bytes, are in the log. -/
theorem C113_sync (vlib : Lib V) (o : BaseOutput V) (ho : o.w = []) {max : Int} (hk : c.kind = .size max) (hmax : 0 < max) {d0 : Disk} {hs0 : List Str}
    (hb : Backups lib c d0.dir hs0) {B : Int} (hB : 0 ≤ B) (hnum : ∀ n ∈ hs0, ∀ v, Backup lib c n v → v ≤ B)
    {es : Nat → List (Event V)} {tr : List RLab} {s : RState}
    (h : RExec umask lib c (newThreads d0 fun t => ((es t).foldl (BaseOutput.send vlib) o).w) tr s)
    (hall : ∀ t, starts t tr = ((es t).foldl (BaseOutput.send vlib) o).w) (hq : ∀ t, (returns t tr).map (·.1) = starts t tr)
    (hn : LogCallsOk (sysCalls tr)) (hnr : B + rolls (sysCalls tr) < 2 ^ 63) :
    ∃ order : List (Nat × Bytes), (∀ t, (order.filter fun x => x.1 = t).map (·.2) = (accepted o.t (es t)).map (textOf vlib o.f)) ∧
      ∀ pre x post, order = pre ++ x :: post → (((post.map (·.2)).flatten).length : Int) < c.maxRolls * max → InLog lib c s.disk.dir x.2 := by
  obtain ⟨order, rw, h1, h2⟩ := C65_quiescent h hq
  refine ⟨order.map fun x => (x.1, x.2.1), fun t => ?_, fun pre x post he hr => ?_⟩
  · have := congrArg (List.map (·.1)) (h1 t)
    rw [hq t, hall t, (C42_sync vlib o (es t)).1, ho, List.nil_append] at this
    rw [← this, List.filter_map, List.map_map, List.map_map]
    congr 1
  · have hs := later_session h2
    have hm : order.map (·.2.1) = pre.map (·.2) ++ x.2 :: post.map (·.2) := by
      have := congrArg (List.map (·.2)) he
      simpa [Function.comp_def] using this
    rw [hm] at hs
    exact session_retains hk hmax hb hB hnum hs hn hnr hr

/-! Cases: the executions of C73; the log rolls at two bytes and keeps two backups. -/

/- The hypotheses of `C113_async` and `C113_closed` hold: the second event of three; the log has rolled after it. -/
example : Demo.acfg.f = some (fun _ => [120]) ∧ 1 ≤ Demo.acfg.batchNum ∧ demoRCfg.kind = .size 2 ∧ Backups demoRLib demoRCfg demoDisk0.disk.dir [c!"log.7"] ∧
    (∀ n ∈ [c!"log.7"], ∀ v, Backup demoRLib demoRCfg n v → v ≤ 7) ∧
    (∃ tr s, OExec Demo.acfg 0o022 demoRLib demoRCfg (newOutput demoDisk0.disk e2eProg) tr (e2eWrite1.tr ++ e2eWrite2.tr ++ e2eWrite3.tr) s ∧
      s.a.panicked = false ∧ s.a.worker = .stopped ∧ accepted Demo.acfg.t (eventsOf (takenOf tr)) = [Demo.evt] ++ Demo.evt :: [Demo.evt] ∧
      s.disk.dir c!"log" = some (.file [120] 0o600)) ∧ Demo.acfg.batchNum ≤ [Demo.evt].length + 1 ∧
    ((([Demo.evt].flatMap fun _ => [(120 : UInt8)]).length : Int) < demoRCfg.maxRolls * 2) ∧
    LogCallsOk (e2eWrite1.tr ++ e2eWrite2.tr ++ e2eWrite3.tr) ∧ (7 : Int) + rolls (e2eWrite1.tr ++ e2eWrite2.tr ++ e2eWrite3.tr) < 2 ^ 63 ∧
    rolls e2eWrite3.tr = 1 := by
  refine ⟨rfl, by decide, rfl, backupsB_ok (by decide +kernel), demo_numbers, ?_, by decide, by decide, logCallsOk_of (noneFailedB_ok (by decide +kernel)), by decide +kernel, by decide +kernel⟩
  obtain ⟨tr, s, h, h1, h2, h3, h4⟩ := e2eExec
  refine ⟨tr, s, h, h1, h2, ?_, ?_⟩
  · rw [h4]; rfl
  · rw [h3]; decide +kernel

/- The hypotheses of `C113_sync` hold: two goroutines. -/
example : e2eBase.w = [] ∧ (∃ s, RExec 0o022 demoRLib demoRCfg (newThreads demoDisk0.disk fun t => ((e2eEvents t).foldl (BaseOutput.send Demo.lib) e2eBase).w) thTrace s) ∧
    (∀ t, starts t thTrace = ((e2eEvents t).foldl (BaseOutput.send Demo.lib) e2eBase).w) ∧ (∀ t, (returns t thTrace).map (·.1) = starts t thTrace) ∧
    LogCallsOk (sysCalls thTrace) ∧ (7 : Int) + rolls (sysCalls thTrace) < 2 ^ 63 := by
  obtain ⟨s, h, _⟩ := thExec
  obtain ⟨h1, h2⟩ := thTrace_done
  refine ⟨rfl, ⟨s, by rw [e2eEvents_prog]; exact h⟩, fun t => by rw [congrFun e2eEvents_prog t]; exact h1 t, h2, ?_, ?_⟩
  · rw [thTrace_calls]; exact logCallsOk_of (noneFailedB_ok (by decide +kernel))
  · rw [thTrace_calls]; decide +kernel

end Log4g
