import Verif.Lemmas.RollOutput
import Verif.Props.Output
import Verif.Props.Async
import Verif.Props.Rolling
import Verif.Props.RollingThreads
import Verif.Props.RollingConfig

/-! # From what is logged to what is on the disk -/

namespace Log4g
open Spec

variable {V : Type} {cfg : ACfg V} {umask : Nat} {lib : RLib} {c : RCfg}

/-- C73.  When the worker of an asynchronous output with a size-rolling writer has stopped and nothing failed except perhaps for archives, the
backups and the log file are a gap-free final part of what was there before and of the texts of the accepted events
queued before the first close request, in the order of the queue.  No text is cut in two. -/
theorem C73_closed {f : Formatter V} (hf : cfg.f = some f) {max : Int} (hk : c.kind = .size max) (hmax : 0 < max) {d0 : Disk} {hs0 : List Str}
    (hb : Backups lib c d0.dir hs0) {B : Int} (hB : 0 ≤ B) (hnum : ∀ n ∈ hs0, ∀ v, Backup lib c n v → v ≤ B)
    {prog : Nat → List (ACall V)} {tr : List (ALab V)} {st : STrace} {s : OState V} (h : OExec cfg umask lib c (newOutput d0 prog) tr st s)
    (hp : s.a.panicked = false) (hw : s.a.worker = .stopped) (hn : LogCallsOk st) (hnr : B + rolls st < 2 ^ 63) :
    ∃ (es : List (Event V)) (post : List (Option (Event V))), queuedOf tr = es.map some ++ none :: post ∧
      KeepsLog lib c (files c d0.dir hs0) ((accepted cfg.t es).map f) s.disk.dir := by
  obtain ⟨ha, hs⟩ := oexec_parts h
  obtain ⟨es, post, h1, h2, _⟩ := stopped_written hf ha hp hw
  refine ⟨es, post, h1, ?_⟩
  obtain ⟨gs, b, bi⟩ := aexec_binv hf ha
  have hb0 := bi.idle (by simp [hw])
  subst hb0
  have hsplit := bi.split
  rw [h2, eventsOf_append] at hsplit
  have he : eventsOf (es.map some) = es := by simp [eventsOf]
  rw [he] at hsplit
  have hsplit : accepted cfg.t es = gs.flatten := by simpa [eventsOf] using hsplit
  have hc := session_chunks (fun m hm => by rw [hk] at hm; cases hm; exact hmax) hs hn
  have key := holds_of_gapFree (xs := gs.map (·.map f)) (C54_size_rolling_gap_free hk hb hB hnum hs.life (removesOk_of_logCalls hn) hnr)
    (by rw [hc, bi.groups]; simp [List.flatMap, Function.comp_def])
  rw [hsplit, List.map_flatten]
  exact key

/-- C73, while the output is at work: as long as nothing failed except perhaps for archives, the disk has a gap-free final part of what was there
before and of what the worker has taken from the queue but for fewer than `batch_num` events, which wait to be written. -/
theorem C73_any_moment {f : Formatter V} (hf : cfg.f = some f) (hbn : 1 ≤ cfg.batchNum) {max : Int} (hk : c.kind = .size max) (hmax : 0 < max) {d0 : Disk} {hs0 : List Str}
    (hb : Backups lib c d0.dir hs0) {B : Int} (hB : 0 ≤ B) (hnum : ∀ n ∈ hs0, ∀ v, Backup lib c n v → v ≤ B)
    {prog : Nat → List (ACall V)} {tr : List (ALab V)} {st : STrace} {s : OState V} (h : OExec cfg umask lib c (newOutput d0 prog) tr st s)
    (hn : LogCallsOk st) (hnr : B + rolls st < 2 ^ 63) :
    ∃ written waiting, accepted cfg.t (eventsOf (takenOf tr)) = written ++ waiting ∧ waiting.length < cfg.batchNum ∧
      KeepsLog lib c (files c d0.dir hs0) (written.map f) s.disk.dir := by
  obtain ⟨ha, hs⟩ := oexec_parts h
  obtain ⟨gs, b, bi⟩ := aexec_binv hf ha
  refine ⟨gs.flatten, b, bi.split, by rw [← bi.num]; exact bi.batch hbn, ?_⟩
  have hc := session_chunks (fun m hm => by rw [hk] at hm; cases hm; exact hmax) hs hn
  have key := holds_of_gapFree (xs := gs.map (·.map f)) (C54_size_rolling_gap_free hk hb hB hnum hs.life (removesOk_of_logCalls hn) hnr)
    (by rw [hc, bi.groups]; simp [List.flatMap, Function.comp_def])
  rw [List.map_flatten]
  exact key

/-- C73, when the process dies while the worker writes: the disk has a gap-free final part of what was there before
and of the bytes of the events taken from the queue, up to somewhere in the last batch. -/
theorem C73_crash {f : Formatter V} (hf : cfg.f = some f) {max : Int} (hk : c.kind = .size max) (hmax : 0 < max) {d0 : Disk} {hs0 : List Str}
    (hb : Backups lib c d0.dir hs0) {B : Int} (hB : 0 ≤ B) (hnum : ∀ n ∈ hs0, ∀ v, Backup lib c n v → v ≤ B)
    {prog : Nat → List (ACall V)} {tr : List (ALab V)} {st : STrace} {s : OState V} (h : OExec cfg umask lib c (newOutput d0 prog) tr st s) (hn : LogCallsOk st)
    {l : ALab V} {a : AState V} {bs : Bytes} (hstep : AStep cfg s.a l a) (hw : a.writes = s.a.writes ++ [bs]) {st' : STrace} {d : Disk}
    (hd : Stops umask (c.write lib s.rw bs) s.disk st' d) (hrm : RemovesOk st') (hnr : B + rolls (st ++ st') < 2 ^ 63) :
    ∃ hs dropped written, Backups lib c d.dir hs ∧ dropped ++ (files c d.dir hs).flatten = (files c d0.dir hs0).flatten ++ written ∧
      (dropped = [] ∨ c.maxRolls ≤ hs.length) ∧ s.a.writes.flatten <+: written ∧
      written <+: (accepted cfg.t (eventsOf (takenOf (tr ++ [l])))).flatMap f := by
  obtain ⟨ha, hss⟩ := oexec_parts h
  have hc := session_chunks (fun m hm => by rw [hk] at hm; cases hm; exact hmax) hss hn
  have hrm' : RemovesOk (st ++ st') := fun n r hm => (List.mem_append.mp hm).elim (removesOk_of_logCalls hn n r) (hrm n r)
  obtain ⟨hs, dropped, groups, h1, h2, h3, h4⟩ := C54_size_rolling_gap_free hk hb hB hnum (.crash hss.life hd) hrm' hnr
  obtain ⟨gs, b, bi⟩ := aexec_binv hf (ha.snoc hstep)
  obtain ⟨q, hq⟩ := stops_chunks (session_knows hss) hd
  refine ⟨hs, dropped.flatten, (chunks (st ++ st')).flatten, h1, ?_, ?_, ?_, ?_⟩
  · rw [← List.flatten_append, ← h3, ← List.flatten_append, ← h2, List.flatten_flatten]
  · exact h4.imp (by rintro rfl; rfl) id
  · rw [chunks_append, hc, List.flatten_append]; exact List.prefix_append _ _
  · rw [bi.split, List.flatMap_append, ← bi.writes, hw, chunks_append, hc, List.flatten_append, List.flatten_append]
    refine ⟨q ++ b.flatMap f, ?_⟩
    simp [← hq]

/-- C73, for a synchronous output: goroutines send events to it, each its own, one after the other.  When all calls have
returned and nothing failed except perhaps for archives, the disk has a gap-free final part of what was there before and of the texts of the
accepted events of all goroutines, in an order that respects that of each goroutine. -/
theorem C73_sync (vlib : Lib V) (o : BaseOutput V) (ho : o.w = []) {max : Int} (hk : c.kind = .size max) (hmax : 0 < max) {d0 : Disk} {hs0 : List Str}
    (hb : Backups lib c d0.dir hs0) {B : Int} (hB : 0 ≤ B) (hnum : ∀ n ∈ hs0, ∀ v, Backup lib c n v → v ≤ B)
    {es : Nat → List (Event V)} {tr : List RLab} {s : RState}
    (h : RExec umask lib c (newThreads d0 fun t => ((es t).foldl (BaseOutput.send vlib) o).w) tr s)
    (hall : ∀ t, starts t tr = ((es t).foldl (BaseOutput.send vlib) o).w) (hq : ∀ t, (returns t tr).map (·.1) = starts t tr)
    (hn : LogCallsOk (sysCalls tr)) (hnr : B + rolls (sysCalls tr) < 2 ^ 63) :
    ∃ order : List (Nat × Bytes), (∀ t, (order.filter fun x => x.1 = t).map (·.2) = (accepted o.t (es t)).map (textOf vlib o.f)) ∧
      KeepsLog lib c (files c d0.dir hs0) (order.map (·.2)) s.disk.dir := by
  obtain ⟨order, rw, h1, h2⟩ := C65_quiescent h hq
  refine ⟨order.map fun x => (x.1, x.2.1), fun t => ?_, ?_⟩
  · have := congrArg (List.map (·.1)) (h1 t)
    rw [hq t, hall t, (C42_sync vlib o (es t)).1, ho, List.nil_append] at this
    rw [← this, List.filter_map, List.map_map, List.map_map]
    congr 1
  · have hs := later_session h2
    have hc := session_chunks (fun m hm => by rw [hk] at hm; cases hm; exact hmax) hs hn
    have key := holds_of_gapFree (xs := (order.map (·.2.1)).map fun x => [x]) (C54_size_rolling_gap_free hk hb hB hnum hs.life (removesOk_of_logCalls hn) hnr)
      (by rw [hc]; simp [Function.comp_def])
    have e : ((order.map (·.2.1)).map fun x => [x]).flatten = order.map (·.2.1) := by
      generalize order.map (·.2.1) = xs
      induction xs with
      | nil => rfl
      | cons x xs ih => rw [List.map_cons, List.flatten_cons, ih]; rfl
    rw [e] at key
    simpa [Function.comp_def] using key

/-- C73, from the configuration: an output configured as an asynchronous `size_rolling_file`, whose size is not an overlong
number with a unit. -/
theorem C73_configured (tc : Strconv.Toolchain) {m : CfgMap} (ht : m.at c!"type" = c!"size_rolling_file") (hasync : m.at c!"async" = c!"true")
    (hsize : ¬ (HasUnit (m.at c!"size") ∧ (Overlong [] (m.at c!"size") ∨ Overlong ['+'] (m.at c!"size")))) :
    ∃ c t queueSize batchNum, newRollingOutput tc m = some (c, .async t queueSize batchNum) ∧ 1 ≤ queueSize ∧ 1 ≤ batchNum ∧
      ∀ (f : Formatter V) (umask : Nat) (lib : RLib) (d0 : Disk) (hs0 : List Str) (B : Int), Backups lib c d0.dir hs0 → 0 ≤ B → (∀ n ∈ hs0, ∀ v, Backup lib c n v → v ≤ B) →
      ∀ (prog : Nat → List (ACall V)) (tr : List (ALab V)) (st : STrace) (s : OState V),
        OExec { queueSize := queueSize.toNat, batchNum := batchNum.toNat, t := t, f := some f } umask lib c (newOutput d0 prog) tr st s →
        s.a.panicked = false → s.a.worker = .stopped → LogCallsOk st → B + rolls st < 2 ^ 63 →
      ∃ (es : List (Event V)) (post : List (Option (Event V))), queuedOf tr = es.map some ++ none :: post ∧
        KeepsLog lib c (files c d0.dir hs0) ((accepted t es).map f) s.disk.dir := by
  have hsome : ∃ c, newRollingWriter tc m = some c := by
    replace ht : m.type = _ := ht
    simp only [newRollingWriter, ht, if_true]
    exact ⟨_, rfl⟩
  obtain ⟨c, hc⟩ := hsome
  refine ⟨c, GetThresholdLvl (m.at c!"threshold"), GetQueueSize (m.at c!"queue_size"), GetBatchNum (m.at c!"batch_num"), by simp only [newRollingOutput, hc, hasync, if_true], ((C28_ranges.1 _).1).1, ((C28_ranges.2.1 _).1).1, ?_⟩
  intro f umask lib d0 hs0 B hb hB hnum prog tr st s h hp hw hn hnr
  rcases rollingWriter_kind hc with ⟨_, hk⟩ | ⟨h', _⟩
  · exact C73_closed rfl hk ((C31_size_positive_partial _).mpr hsize) hb hB hnum h hp hw hn hnr
  · rw [ht] at h'; exact absurd h' (by decide)

/-! ## Concrete executions -/

def e2eCfg : CfgMap := some [(c!"type", c!"size_rolling_file"), (c!"file", c!"logs/log"), (c!"size", c!"2"), (c!"backups", c!"2"), (c!"async", c!"true")]

/-- One byte, then two, then one. -/
def e2eProg : Nat → List (ACall Nat) := fun t => if t = 0 then [.send Demo.evt, .send Demo.evt, .send Demo.evt, .close] else []

def e2eWrite1 : SimWrite 0o022 demoRLib demoRCfg (fun _ => (false, 0)) [] {} demoDisk0 := simWrite _ _ _ _ _ _ _ (by decide +kernel)
def e2eWrite2 : SimWrite 0o022 demoRLib demoRCfg (fun _ => (false, 0)) [120, 120] e2eWrite1.rw' e2eWrite1.L' := simWrite _ _ _ _ _ _ _ (by decide +kernel)
def e2eWrite3 : SimWrite 0o022 demoRLib demoRCfg (fun _ => (false, 0)) [120] e2eWrite2.rw' e2eWrite2.L' := simWrite _ _ _ _ _ _ _ (by decide +kernel)

/-- An idle tick, a full batch, and the rest when the output is closed: up to the last flush. -/
theorem e2eExec' : ∃ tr s, OExec Demo.acfg 0o022 demoRLib demoRCfg (newOutput demoDisk0.disk e2eProg) tr (e2eWrite1.tr ++ e2eWrite2.tr) s ∧
    s.rw = e2eWrite2.rw' ∧ s.disk = e2eWrite2.L'.disk ∧
    ∃ a, AStep Demo.acfg s.a (.took none) a ∧ a.writes = s.a.writes ++ [[120]] ∧ a.panicked = false ∧ a.worker = .stopped ∧ takenOf tr = [some Demo.evt, some Demo.evt, some Demo.evt] := by
  have h0 : OExec Demo.acfg 0o022 demoRLib demoRCfg (newOutput demoDisk0.disk e2eProg) [] [] _ := .nil
  have h1 := h0.snoc (.quiet (s := newOutput demoDisk0.disk e2eProg) ⟨rfl, .begin rfl⟩ rfl)
  have h2 := h1.snoc (.flush ⟨rfl, .tick rfl⟩ rfl e2eWrite1.runs)
  have h3 := h2.snoc (.quiet ⟨rfl, .sendStart (t := 0) (e := Demo.evt) rfl rfl⟩ rfl)
  have h4 := h3.snoc (.quiet ⟨rfl, .sendQueue (t := 0) (e := Demo.evt) rfl rfl (by decide)⟩ rfl)
  have h5 := h4.snoc (.quiet ⟨rfl, .takeEvent (f := fun _ => [120]) rfl rfl rfl⟩ rfl)
  have h6 := h5.snoc (.quiet ⟨rfl, .sendStart (t := 0) (e := Demo.evt) rfl rfl⟩ rfl)
  have h7 := h6.snoc (.quiet ⟨rfl, .sendQueue (t := 0) (e := Demo.evt) rfl rfl (by decide)⟩ rfl)
  have h8 := h7.snoc (.flush ⟨rfl, .takeEvent (f := fun _ => [120]) rfl rfl rfl⟩ rfl e2eWrite2.runs)
  have h9 := h8.snoc (.quiet ⟨rfl, .sendStart (t := 0) (e := Demo.evt) rfl rfl⟩ rfl)
  have h10 := h9.snoc (.quiet ⟨rfl, .sendQueue (t := 0) (e := Demo.evt) rfl rfl (by decide)⟩ rfl)
  have h11 := h10.snoc (.quiet ⟨rfl, .closeStart (t := 0) rfl rfl⟩ rfl)
  have h12 := h11.snoc (.quiet ⟨rfl, .takeEvent (f := fun _ => [120]) rfl rfl rfl⟩ rfl)
  have h13 := h12.snoc (.quiet ⟨rfl, .closeRequest (t := 0) rfl rfl (by decide)⟩ rfl)
  exact ⟨_, _, by simpa using h13, rfl, rfl, _, ⟨rfl, .takeNil rfl rfl⟩, rfl, rfl, rfl, rfl⟩

theorem e2eExec : ∃ tr s, OExec Demo.acfg 0o022 demoRLib demoRCfg (newOutput demoDisk0.disk e2eProg) tr (e2eWrite1.tr ++ e2eWrite2.tr ++ e2eWrite3.tr) s ∧
    s.a.panicked = false ∧ s.a.worker = .stopped ∧ s.disk = e2eWrite3.L'.disk ∧ takenOf tr = [some Demo.evt, some Demo.evt, some Demo.evt, none] := by
  obtain ⟨tr, s, h, h1, h2, a, h3, h4, h5, h6, h7⟩ := e2eExec'
  exact ⟨_, _, h.snoc (.flush h3 h4 (by rw [h1, h2]; exact e2eWrite3.runs)), h5, h6, rfl, by rw [takenOf_append, h7]; rfl⟩

/-- The process dies in the third write, after the log file has got its new name. -/
def e2eStop3 : SimStop 0o022 demoRLib demoRCfg (fun _ => (false, 0)) 4 [120] e2eWrite2.rw' e2eWrite2.L' := simStop _ _ _ _ _ _ _ _ (by decide +kernel)

/- The hypotheses of `C73_closed` and `C73_any_moment` hold; the log has rolled. -/
example : Demo.acfg.f = some (fun _ => [120]) ∧ 1 ≤ Demo.acfg.batchNum ∧ demoRCfg.kind = .size 2 ∧ Backups demoRLib demoRCfg demoDisk0.disk.dir [c!"log.7"] ∧
    (∀ n ∈ [c!"log.7"], ∀ v, Backup demoRLib demoRCfg n v → v ≤ 7) ∧
    (∃ tr s, OExec Demo.acfg 0o022 demoRLib demoRCfg (newOutput demoDisk0.disk e2eProg) tr (e2eWrite1.tr ++ e2eWrite2.tr ++ e2eWrite3.tr) s ∧
      s.a.panicked = false ∧ s.a.worker = .stopped ∧ s.disk.dir c!"log" = some (.file [120] 0o600) ∧ s.disk.dir c!"log.8" = some (.file [1, 120, 120] 0o500)) ∧
    LogCallsOk (e2eWrite1.tr ++ e2eWrite2.tr ++ e2eWrite3.tr) ∧ (7 : Int) + rolls (e2eWrite1.tr ++ e2eWrite2.tr ++ e2eWrite3.tr) < 2 ^ 63 := by
  refine ⟨rfl, by decide, rfl, backupsB_ok (by decide +kernel), demo_numbers, ?_, logCallsOk_of (noneFailedB_ok (by decide +kernel)), by decide +kernel⟩
  obtain ⟨tr, s, h, h1, h2, h3, _⟩ := e2eExec
  refine ⟨tr, s, h, h1, h2, ?_, ?_⟩
  · rw [h3]; decide +kernel
  · rw [h3]; decide +kernel

/- The hypotheses of `C73_crash` hold: the process dies in the middle of a roll, when there is no log file. -/
example : ∃ tr s l a, OExec Demo.acfg 0o022 demoRLib demoRCfg (newOutput demoDisk0.disk e2eProg) tr (e2eWrite1.tr ++ e2eWrite2.tr) s ∧ LogCallsOk (e2eWrite1.tr ++ e2eWrite2.tr) ∧
    AStep Demo.acfg s.a l a ∧ a.writes = s.a.writes ++ [[120]] ∧ Stops 0o022 (demoRCfg.write demoRLib s.rw [120]) s.disk e2eStop3.tr e2eStop3.L'.disk ∧ RemovesOk e2eStop3.tr ∧
    (7 : Int) + rolls (e2eWrite1.tr ++ e2eWrite2.tr ++ e2eStop3.tr) < 2 ^ 63 ∧ e2eStop3.L'.disk.dir c!"log" = none ∧ e2eStop3.L'.disk.dir c!"log.8" = some (.file [1, 120, 120] 0o500) := by
  obtain ⟨tr, s, h, h1, h2, a, h3, h4, _⟩ := e2eExec'
  exact ⟨tr, s, _, a, h, logCallsOk_of (noneFailedB_ok (by decide +kernel)), h3, h4, by rw [h1, h2]; exact e2eStop3.stops, removesOkB_ok (by decide +kernel), by decide +kernel, by decide +kernel, by decide +kernel⟩

/-- A formatter and events whose texts are the messages of `thProg`. -/
def e2eBase : BaseOutput Nat := { t := Level.Info, f := some fun e => if e.level = Level.Error then [2] else [3, 3] }

def e2eEvents : Nat → List (Event Nat)
  | 0 => [{ Demo.evt with level := Level.Debug }, { Demo.evt with level := Level.Error }]
  | 1 => [{ Demo.evt with level := Level.Info }]
  | _ => []

theorem e2eEvents_prog : (fun t => ((e2eEvents t).foldl (BaseOutput.send Demo.lib) e2eBase).w) = thProg := by
  funext t
  rcases t with _ | _ | t
  · decide
  · decide
  · rfl

/- The hypotheses of `C73_sync` hold: two goroutines; the second to call gets the lock first, and the other write rolls. -/
example : e2eBase.w = [] ∧ ∃ s, RExec 0o022 demoRLib demoRCfg (newThreads demoDisk0.disk fun t => ((e2eEvents t).foldl (BaseOutput.send Demo.lib) e2eBase).w) thTrace s ∧
    (∀ t, starts t thTrace = ((e2eEvents t).foldl (BaseOutput.send Demo.lib) e2eBase).w) ∧ (∀ t, (returns t thTrace).map (·.1) = starts t thTrace) ∧
    LogCallsOk (sysCalls thTrace) ∧ (7 : Int) + rolls (sysCalls thTrace) < 2 ^ 63 := by
  obtain ⟨s, h, _⟩ := thExec
  obtain ⟨h1, h2⟩ := thTrace_done
  have hp := fun t => congrFun e2eEvents_prog t
  refine ⟨rfl, s, by rw [e2eEvents_prog]; exact h, fun t => by rw [hp t]; exact h1 t, h2, ?_, ?_⟩
  · rw [thTrace_calls]; exact logCallsOk_of (noneFailedB_ok (by decide +kernel))
  · rw [thTrace_calls]; decide +kernel

/-- The writer and the output `e2eCfg` configures. -/
def e2eACfg : ACfg Nat := { queueSize := (1000 : Int).toNat, batchNum := (20 : Int).toNat, t := Level.All, f := some fun _ => [120] }

def e2eRest1 : SimWrite 0o022 demoRLib plainRCfg (fun _ => (false, 0)) [] {} demoDisk0 := simWrite _ _ _ _ _ _ _ (by decide +kernel)
def e2eRest2 : SimWrite 0o022 demoRLib plainRCfg (fun _ => (false, 0)) [120] e2eRest1.rw' e2eRest1.L' := simWrite _ _ _ _ _ _ _ (by decide +kernel)

theorem e2eConfigured : ∃ tr s, OExec e2eACfg 0o022 demoRLib plainRCfg (newOutput demoDisk0.disk Demo.prog1) tr (e2eRest1.tr ++ e2eRest2.tr) s ∧
    s.a.panicked = false ∧ s.a.worker = .stopped := by
  have h0 : OExec e2eACfg 0o022 demoRLib plainRCfg (newOutput demoDisk0.disk Demo.prog1) [] [] _ := .nil
  have h1 := h0.snoc (.quiet (s := newOutput demoDisk0.disk Demo.prog1) ⟨rfl, .begin rfl⟩ rfl)
  have h2 := h1.snoc (.flush ⟨rfl, .tick rfl⟩ rfl e2eRest1.runs)
  have h3 := h2.snoc (.quiet ⟨rfl, .sendStart (t := 0) (e := Demo.evt) rfl rfl⟩ rfl)
  have h4 := h3.snoc (.quiet ⟨rfl, .sendQueue (t := 0) (e := Demo.evt) rfl rfl (by decide)⟩ rfl)
  have h5 := h4.snoc (.quiet ⟨rfl, .closeStart (t := 0) rfl rfl⟩ rfl)
  have h6 := h5.snoc (.quiet ⟨rfl, .takeEvent (f := fun _ => [120]) rfl rfl rfl⟩ rfl)
  have h7 := h6.snoc (.quiet ⟨rfl, .closeRequest (t := 0) rfl rfl (by decide)⟩ rfl)
  have h8 := h7.snoc (.flush ⟨rfl, .takeNil rfl rfl⟩ rfl e2eRest2.runs)
  exact ⟨_, _, by simpa using h8, rfl, rfl⟩

/- The hypotheses of `C73_configured` hold, those on the configuration and those on the execution. -/
example : e2eCfg.type = c!"size_rolling_file" ∧ e2eCfg.at c!"async" = c!"true" ∧ ¬ HasUnit (e2eCfg.at c!"size") ∧
    (∀ tc, newRollingOutput tc e2eCfg = some (plainRCfg, .async Level.All 1000 20)) ∧ Backups demoRLib plainRCfg demoDisk0.disk.dir [c!"log.7"] ∧
    (∃ tr s, OExec e2eACfg 0o022 demoRLib plainRCfg (newOutput demoDisk0.disk Demo.prog1) tr (e2eRest1.tr ++ e2eRest2.tr) s ∧ s.a.panicked = false ∧ s.a.worker = .stopped) ∧
    LogCallsOk (e2eRest1.tr ++ e2eRest2.tr) ∧ (7 : Int) + rolls (e2eRest1.tr ++ e2eRest2.tr) < 2 ^ 63 := by
  refine ⟨by decide, by decide, ?_, fun tc => by cases tc <;> decide +kernel, backupsB_ok (by decide +kernel), e2eConfigured, logCallsOk_of (noneFailedB_ok (by decide +kernel)), by decide +kernel⟩
  rintro ⟨t, c, h, hc⟩
  have h : c!"2" = t ++ [c] := h
  have h := congrArg List.getLast? h
  rw [List.getLast?_concat] at h
  cases h
  rcases hc with hc | hc | hc <;> exact absurd hc (by decide)

end Log4g
