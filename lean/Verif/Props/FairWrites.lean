import Verif.Lemmas.FairLoops
import Verif.Props.Fair

/-! # C98: what is logged is written, under a fair scheduler, without `Close` -/

namespace Log4g
open Spec Strconv
open scoped List
variable {V : Type}

namespace Demo

/-- The files when `log` has rolled, and one more empty write. -/
def base4 : LShared := { vol := seg3.2.vol, wr := [(0, seg3.2.at' 0), (1, seg3.2.at' 1)] }
def seg4 := seg base4 (whole 0 [] 1) (by decide +kernel)

/-- Whether two are the same, with nobody writing. -/
def sameB (a b : LShared) : Bool :=
  decide (a.vol = b.vol) && (a.wr.map (·.1) ++ b.wr.map (·.1)).all fun i => decide ((a.at' i).rw = (b.at' i).rw) && decide ((a.at' i).fd = (b.at' i).fd) && (a.at' i).job.isNone && (b.at' i).job.isNone

theorem sameB_ok {a b : LShared} (h : sameB a b = true) : a.shared = b.shared := by
  simp only [sameB, Bool.and_eq_true, decide_eq_true_eq, List.all_eq_true, Option.isNone_iff_eq_none] at h
  obtain ⟨hv, h⟩ := h
  unfold LShared.shared
  rw [hv]
  congr 1
  funext i
  by_cases hi : i ∈ a.wr.map (·.1) ++ b.wr.map (·.1)
  · obtain ⟨⟨⟨h1, h2⟩, h3⟩, h4⟩ := h i hi
    show a.at' i = b.at' i
    generalize a.at' i = x at *
    generalize b.at' i = y at *
    cases x; cases y; simp_all
  · have ha : a.wr.get i = none := by
      cases e : a.wr.get i with
      | none => rfl
      | some x => exact absurd (List.mem_append_left _ (List.mem_map.mpr ⟨_, Map.mem_of_get e, rfl⟩)) hi
    have hb : b.wr.get i = none := by
      cases e : b.wr.get i with
      | none => rfl
      | some x => exact absurd (List.mem_append_right _ (List.mem_map.mpr ⟨_, Map.mem_of_get e, rfl⟩)) hi
    rw [ha, hb]

theorem base_same : seg3.2.shared = base4.shared := sameB_ok (by decide +kernel)
theorem loop_same : seg4.2.shared = base4.shared := sameB_ok (by decide +kernel)

/-- The worker waits for events. -/
structure Awaits (m : Machine Nat) : Prop where
  world : m.p.w = wf
  well : m.p.panicked = false
  worker : (m.p.a 0).worker = .running
  chan : (m.p.a 0).chan = []
  open_ : (m.p.a 0).chanClosed = false
  buf : (m.p.a 0).buf = []
  sound : (m.p.a 0).panicked = false

/-- A label of the time in which the worker only ticks, and everything works. -/
structure Ticking (x : MLab Nat) : Prop where
  tick : ∀ l ∈ progOf [x], l = .out 0 .tick
  works : LogCallsOk (callsOf 0 (ioIn 0 [x]))
  rolls : Spec.rolls (callsOf 0 (ioIn 0 [x])) = 0

theorem awaits_step {m m' : Machine Nat} {x : MLab Nat} (h : Awaits m) (hx : ∀ l ∈ progOf [x], l = .out 0 .tick) (hs : MStep env fhost m x m') : Awaits m' := by
  rcases mstep_prog hs with ⟨l, k1, k2⟩ | ⟨_, k⟩
  · have := hx l (by rw [k1]; simp)
    subst this
    obtain ⟨h1, h2, h3, h4, h5, h6, h7⟩ := h
    have key : ∀ p, PStep env m.p (.out 0 .tick) p → p.w = m.p.w ∧ p.a 0 = (m.p.a 0).flush ∧ p.panicked = (m.p.a 0).panicked := fun p hp => by
      cases hp.2 with
      | out hc hx =>
        cases hx.2 with
        | tick _ => exact ⟨rfl, by simp [PState.setOut], rfl⟩
    obtain ⟨g1, g2, g3⟩ := key _ k2
    exact ⟨by rw [g1]; exact h1, by rw [g3]; exact h7, by rw [g2]; exact h3, by rw [g2]; exact h4, by rw [g2]; exact h5, by rw [g2]; rfl, by rw [g2]; exact h7⟩
  · obtain ⟨h1, h2, h3, h4, h5, h6, h7⟩ := h
    exact ⟨by rw [k]; exact h1, by rw [k]; exact h2, by rw [k]; exact h3, by rw [k]; exact h4, by rw [k]; exact h5, by rw [k]; exact h6, by rw [k]; exact h7⟩

theorem awaits_exec {m m' : Machine Nat} {tr : List (MLab Nat)} (h : Awaits m) (hs : MExec env fhost m tr m') (hx : ∀ l ∈ progOf tr, l = .out 0 .tick) : Awaits m' := by
  induction hs with
  | nil => exact h
  | @snoc tr m1 x m2 _ hs ih =>
    rw [progOf_append] at hx
    exact awaits_step (ih fun l hl => hx l (List.mem_append_left _ hl)) (fun l hl => hx l (List.mem_append_right _ hl)) hs

/-- The tick of a worker that has nothing. -/
theorem awaits_tick {m : Machine Nat} (h : Awaits m) : ∃ p, PStep env m.p (.out 0 .tick) p ∧ p.w = wf ∧ p.panicked = false ∧ p.given env 0 = m.p.given env 0 ++ [[]] := by
  refine ⟨_, ⟨h.well, .out (by rw [h.world]; exact wf_files.async) ⟨h.sound, .tick h.worker⟩⟩, h.world, h.sound, ?_⟩
  rw [wf_files.given0 h.world, wf_files.given0 (p := { m.p.setOut 0 (m.p.a 0).flush with panicked := (m.p.a 0).flush.panicked }) h.world]
  simp [PState.setOut, AState.flush, h.buf]

/-- One round. -/
theorem one_round {tr : List (MLab Nat)} {m : Machine Nat} {L : LShared} {n : Nat} (hi : (shMoves 0o022 demoRLib (writers [logR, traceR]) [] L (whole 0 [] n)).isSome = true)
    (hx : MExec env fhost (newMachine (fun _ => false) fun _ => fvol.vol) tr m) (hc : Calm m) (ha : Awaits m) (hv : m.view env fhost 0 = L.shared)
    (h1 : callsB 0 [] (seg L (whole 0 [] n) hi).1 = true) (h2 : ((seg L (whole 0 [] n) hi).2.wr.all fun x => ((seg L (whole 0 [] n) hi).2.at' x.1).job.isNone) = true) :
    ∃ mtr m', MExec env fhost m mtr m' ∧ progOf mtr = [.out 0 .tick] ∧ ioIn 0 mtr = (seg L (whole 0 [] n) hi).1 ∧ Calm m' ∧ m'.view env fhost 0 = (seg L (whole 0 [] n) hi).2.shared ∧
      m'.p.w = wf := by
  obtain ⟨t, e, k⟩ := callsB_ok h1
  have s := (seg_ok hi).mono (writers_of wf_files)
  rw [e] at s
  obtain ⟨p, w, f1, n1, g⟩ := awaits_tick ha
  obtain ⟨u, m', x2, i1, i2, i3, i4, hc2, _⟩ := write_lift hx hc w n1 (o := 0) (k := 0) (c := logR) (bs := []) (by rw [f1]; exact wf_files.log) rfl
    g (t := t) (s := (seg L (whole 0 [] n) hi).2.shared) (by rw [hv, f1]; exact s) k (jobs_ok h2)
  exact ⟨u, m', x2, i1, by rw [i2, e], hc2, i4, by rw [i3, f1]⟩

/-- The program has logged, and the worker has written. -/
theorem awaits_first {tr : List (MLab Nat)} {m : Machine Nat} (hx : MExec env fhost (newMachine (fun _ => false) fun _ => fvol.vol) tr m) (e : progOf tr = fsetup ++ flogged) (hw : m.p.w = wf) :
    Awaits m := by
  have hx := (mexec_inv hx).prog
  have inv := pexec_inv hx
  have hp : m.p.panicked = false := unpanicked hx rfl (by rw [e]; simp [fsetup, flogged, logged]) (by rw [e]; simp [fsetup, flogged, logged])
    (by rw [e]; simp [fsetup, flogged, logged])
  have hc : m.p.w.asyncOf env 0 = some bcfg := by rw [hw]; exact wf_files.async
  have hy := inv.proj 0 _ hc
  have ai := aexec_inv hy (inv.sound hp 0)
  have hb := Log4g.begun hy (.inr (by rw [e]; simp [fsetup, flogged, logged, outLabs]))
  refine ⟨hw, hp, ?_, ?_, (never_closed (fun u => (inv.opened 0 (by rw [e]; exact flogged_open) u).2) hy).2.2.1, ?_, inv.sound hp 0⟩
  · cases hk : (m.p.a 0).worker with
    | running => rfl
    | starting => exact absurd hk hb
    | stopped =>
      obtain ⟨pre, k, _⟩ := ai.stopped hk
      rw [e] at k
      have := congrArg (none ∈ ·) k
      simp [fsetup, flogged, logged, outLabs, takenOf] at this
  · have := ai.queue
    rw [e] at this
    simpa [fsetup, flogged, logged, outLabs, queuedOf, takenOf] using this
  · rw [e, show fsetup ++ flogged = (fsetup ++ .out 0 .begin :: logged ++ [.out 0 (.took (some hi))]) ++ [.out 0 .tick] by simp [flogged]] at hx
    obtain ⟨s1, _, h2⟩ := hx.split
    generalize m.p = p at h2
    generalize hl : [PLab.out 0 ALab.tick] = l at h2
    cases h2 with
    | nil => simp at hl
    | @snoc tr s2 l _ h3 h4 =>
      have : tr = [] ∧ l = .out 0 .tick := by
        cases tr with
        | nil => simp at hl; exact ⟨rfl, hl.symm⟩
        | cons a tr => simp at hl
      obtain ⟨rfl, rfl⟩ := this
      cases h4.2 with
      | out hc hx =>
        cases hx.2 with
        | tick _ => simp [PState.setOut, AState.flush]

/-- A program that has logged, and goes on for ever; everything works. -/
theorem filed_ticks : ∃ (up : Nat → Bool) (v0 : Nat → Volume) (r : Forever env fhost (newMachine up v0)) (n : Nat), (∀ n, (r.at_ n).p.panicked = false) ∧
    r.fairToWorkers ∧ AsyncOut env (r.at_ n).p.w 0 bcfg ∧ (∀ m, Open 0 (progOf (r.trace m))) ∧
    (∀ m, n ≤ m → Housed env fhost v0 (r.trace m) (r.at_ m) 0 logR 0 [c!"log.7"]) ∧ (∀ m, LogCallsOk (callsOf 0 (ioIn 0 (r.trace m)))) ∧
    Returned 0 (progOf (r.trace n)) ∧ sentBy 0 0 (progOf (r.trace n)) = [hi] := by
  obtain ⟨tr1, m1, _, _, h1, _, e1, _, e3, _, f1, _, g1, _, v1⟩ := filed_both
  have a1 := awaits_first h1 e1 f1
  obtain ⟨tr2, m2, h2, e2, i2, g2, v2, f2⟩ := one_round (L := seg2.2) (n := 14) (by decide +kernel) h1 g1 a1 v1 (by decide +kernel) (by decide +kernel)
  have a2 := awaits_exec a1 h2 (by rw [e2]; simp)
  have hx := h1.trans h2
  obtain ⟨r0, r1, r2, r3⟩ := loop_forever (env := env) (host := fhost) (K := fun m => Calm m ∧ Awaits m ∧ m.view env fhost 0 = base4.shared ∧
      ∃ tr, MExec env fhost (newMachine (fun _ => false) fun _ => fvol.vol) tr m) (A := Ticking) (T := fun x => progOf [x] = [.out 0 .tick]) (fun m hm => by
    obtain ⟨k1, k2, k3, tr, k4⟩ := hm
    obtain ⟨tr3, m3, h3, e3, i3, g3, v3, f3⟩ := one_round (L := base4) (n := 1) (by decide +kernel) k4 k1 k2 k3 (by decide +kernel) (by decide +kernel)
    have hnf : LogCallsOk (callsOf 0 (ioIn 0 tr3)) := by rw [i3]; exact logCallsOkB_ok ((by decide +kernel))
    have hr : rolls (callsOf 0 (ioIn 0 tr3)) = 0 := by rw [i3]; decide +kernel
    refine ⟨tr3, m3, h3, ?_, fun y hy => ?_, g3, awaits_exec k2 h3 (by rw [e3]; simp), by rw [v3]; exact loop_same, _, k4.trans h3⟩
    · obtain ⟨i, x, k5, k6⟩ := prog_mem (tr := tr3) (l := .out 0 .tick) (by rw [e3]; simp)
      exact ⟨x, List.mem_of_getElem? k5, k6⟩
    · obtain ⟨a, b, rfl⟩ := List.append_of_mem hy
      rw [show a ++ y :: b = a ++ ([y] ++ b) from rfl] at e3 hnf hr
      rw [ioIn_append, ioIn_append, callsOf_append, callsOf_append] at hnf hr
      rw [rolls_append, rolls_append] at hr
      rw [progOf_append, progOf_append] at e3
      refine ⟨fun l hl => ?_, (logCallsOk_append.mp (logCallsOk_append.mp hnf).2).1, by omega⟩
      have : l ∈ progOf a ++ (progOf [y] ++ progOf b) := by simp [hl]
      rw [e3] at this; simpa using this)
    (m0 := m2) ⟨g2, a2, by rw [v2]; exact base_same, _, hx⟩
  obtain ⟨r, s1, s2, s3, s4, s5⟩ := forever_after hx r0
  have aw : ∀ i, Awaits (r0.at_ i) := by
    intro i
    induction i with
    | zero => rw [r0.init]; exact a2
    | succ i ih =>
      obtain ⟨x, k1, k2⟩ := r1 i
      have st := r0.step i
      rw [k1] at st
      exact awaits_step ih k2.tick st
  have labs : ∀ i, (∀ l ∈ progOf (r0.trace i), l = .out 0 .tick) ∧ LogCallsOk (callsOf 0 (ioIn 0 (r0.trace i))) ∧ rolls (callsOf 0 (ioIn 0 (r0.trace i))) = 0 := by
    intro i
    induction i with
    | zero => exact ⟨by simp [Forever.trace, progOf], by simp [Forever.trace, ioIn, callsOf, LogCallsOk], by simp [Forever.trace, ioIn, callsOf, rolls]⟩
    | succ i ih =>
      obtain ⟨x, k1, k2⟩ := r1 i
      have e : r0.trace (i + 1) = r0.trace i ++ [x] := by show _ ++ (r0.lab i).toList = _; rw [k1]; rfl
      rw [e, progOf_append, ioIn_append, callsOf_append, rolls_append]
      refine ⟨fun l hl => ?_, logCallsOk_append.mpr ⟨ih.2.1, k2.works⟩, by rw [ih.2.2, k2.rolls]⟩
      rcases List.mem_append.mp hl with hl | hl
      · exact ih.1 l hl
      · exact k2.tick l hl
  have after : ∀ n, Awaits (r.at_ ((tr1 ++ tr2).length + n)) := fun n => by rw [s2]; exact aw n
  have hio : ioIn 0 (tr1 ++ tr2) = seg1.1 ++ seg2.1 ++ seg3.1 := by rw [ioIn_append, e3, i2]; rfl
  have hpr : progOf (tr1 ++ tr2) = fsetup ++ flogged ++ [.out 0 .tick] := by rw [progOf_append, e1, e2]
  have no : ∀ {who : MLab Nat → Prop}, (∀ m x m', Awaits m → who x → ¬ MStep env fhost m x m') → r.fair who := by
    intro who hno ho
    obtain ⟨i, k1, x, m', k2, k3⟩ := ho (tr1 ++ tr2).length
    obtain ⟨j, rfl⟩ := Nat.le.dest k1
    exact absurd k3 (hno _ _ _ (after j) k2)
  have away : ∀ {m : Machine Nat} {o : Nat}, Awaits m → m.p.w.asyncOf env o ≠ none → o = 0 := fun {m o} ha hn => by
    cases hc : m.p.w.asyncOf env o with
    | none => exact absurd hc hn
    | some cfg => exact filed_async ha.world hc
  refine ⟨_, _, r, (tr1 ++ tr2).length, fun n => ?_, ⟨fun o => no ?_, fun o => no ?_, fun o => ?_, fun o => writer_fair r ?_⟩, ?_, fun m => ?_, fun m hm => ?_, fun m => ?_, ?_, ?_⟩
  · exact earlier_well r (Nat.le_add_left n (tr1 ++ tr2).length) (after n).well
  · intro m x m' ha k1 k2
    rcases mstep_prog k2 with ⟨l, k3, k4⟩ | ⟨k, _⟩
    · rw [k1] at k3; cases k3
      obtain ⟨q1, q2⟩ := begins_needs k4
      have := away ha q1; subst this
      rw [ha.worker] at q2; cases q2
    · rw [k1] at k; cases k
  · rintro m x m' ha ⟨e, k1⟩ k2
    rcases mstep_prog k2 with ⟨l, k3, k4⟩ | ⟨k, _⟩
    · rw [k1] at k3; cases k3
      obtain ⟨q1, _, q2⟩ := takes_needs k4
      have := away ha q1; subst this
      rcases q2 with q2 | q2
      · exact q2 ha.chan
      · rw [ha.open_] at q2; cases q2
    · rw [k1] at k; cases k
  · by_cases ho : o = 0
    · subst ho
      intro _ n
      obtain ⟨i, k1, x, k2, k3⟩ := r3 n
      exact ⟨(tr1 ++ tr2).length + i, by omega, x, by rw [s1]; exact k2, k3⟩
    · refine no ?_
      intro m x m' ha k1 k2
      rcases mstep_prog k2 with ⟨l, k3, k4⟩ | ⟨k, _⟩
      · rw [k1] at k3; cases k3
        exact ho (away ha (ticks_needs k4))
      · rw [k1] at k; cases k
  · intro n
    obtain ⟨i, k1, k2⟩ := r2 n
    exact ⟨(tr1 ++ tr2).length + i, by omega, by simp only [s2]; exact (k2.1 o).1⟩
  · have := s2 0
    rw [Nat.add_zero] at this
    rw [this, (aw 0).world]; exact wf_out
  · obtain ⟨l, el⟩ := trace_add r m (Nat.le_add_left m (tr1 ++ tr2).length)
    have : Open 0 (progOf (r.trace ((tr1 ++ tr2).length + m))) := by
      rw [s5, progOf_append, hpr]
      refine ⟨fun t os k => ?_, fun t k => ?_⟩
      · rcases List.mem_append.mp k with k | k
        · simp [fsetup, flogged, logged] at k
        · exact absurd ((labs m).1 _ k) (by simp)
      · rcases List.mem_append.mp k with k | k
        · simp [fsetup, flogged, logged] at k
        · exact absurd ((labs m).1 _ k) (by simp)
    rw [el, progOf_append] at this
    exact open_left this
  · obtain ⟨i, rfl⟩ := Nat.le.dest hm
    refine filed_log (after i).world ?_
    rw [s5, ioIn_append, callsOf_append, rolls_append, (labs i).2.2, hio]
    decide +kernel
  · obtain ⟨l, el⟩ := trace_add r m (Nat.le_add_left m (tr1 ++ tr2).length)
    have : LogCallsOk (callsOf 0 (ioIn 0 (r.trace ((tr1 ++ tr2).length + m)))) := by
      rw [s5, ioIn_append, callsOf_append, hio]
      exact logCallsOk_append.mpr ⟨logCallsOkB_ok ((by decide +kernel)), (labs m).2.1⟩
    rw [el, ioIn_append, callsOf_append] at this
    exact (logCallsOk_append.mp this).1
  · rw [s3 _ (Nat.le_refl _), List.take_length, hpr]
    repeat refine returned_cons (by simp [Begins] <;> (rintro rfl; simp)) ?_
    exact returned_nil _
  · rw [s3 _ (Nat.le_refl _), List.take_length, hpr]
    rfl

end Demo

variable {env : PEnv V} {host : Host} {up : Nat → Bool} {v0 : Nat → Volume} {r : Forever env host (newMachine up v0)}

/-- C98, any asynchronous output: if the scheduler is fair to the workers, their tickers and the writers, whatever the operating
system answers, and the output is not closed: for every moment there is a later one at which the output has written, in
batches, everything that had been logged to it, by every goroutine, in the order in which it logged it. -/
theorem C98_written (hp : ∀ n, (r.at_ n).p.panicked = false) (hf : r.fairToWorkers) {n o : Nat} {cfg : ACfg V}
    (hc : AsyncOut env (r.at_ n).p.w o cfg) (ho : ∀ m, Open o (progOf (r.trace m))) :
    ∃ m f written, n ≤ m ∧ cfg.f = some f ∧ Batched cfg f written ((r.at_ m).p.a o).writes ∧
      InTime o (progOf (r.trace m)) written ∧ ∀ t, shareOf t written <+: sentBy t o (progOf (r.trace m)) ∧ (Returned t (progOf (r.trace n)) → sentBy t o (progOf (r.trace n)) <+: shareOf t written) := by
  obtain ⟨m, f, gs, written, h1, h2, h3, h4, h5, h6⟩ := all_written hp hf (async_of hc) ho
  exact ⟨m, f, written, h1, h3, ⟨gs, h5, h4⟩, h6⟩

/-- The hypotheses of `C98_written` are met, with an event that has been logged. -/
example : ∃ (up : Nat → Bool) (v0 : Nat → Volume) (r : Forever Demo.env Demo.fhost (newMachine up v0)) (n : Nat), (∀ n, (r.at_ n).p.panicked = false) ∧
    r.fairToWorkers ∧ AsyncOut Demo.env (r.at_ n).p.w 0 Demo.bcfg ∧ (∀ m, Open 0 (progOf (r.trace m))) ∧
    Returned 0 (progOf (r.trace n)) ∧ sentBy 0 0 (progOf (r.trace n)) = [Demo.hi] := by
  obtain ⟨up, v0, r, n, h1, h2, h3, h4, h5, h6, h7, h8⟩ := Demo.filed_ticks
  exact ⟨up, v0, r, n, h1, h2, h3, h4, h7, h8⟩

/-- C98, files: if no call to the operating system failed, except perhaps for archives, at that moment the backups and the log file hold, after what the
directory held and except for whole backups that rolling removed, the texts of these events; nothing else. -/
theorem C98_on_disk (hp : ∀ n, (r.at_ n).p.panicked = false) (hf : r.fairToWorkers) {n o : Nat} {cfg : ACfg V}
    (hc : AsyncOut env (r.at_ n).p.w o cfg) (ho : ∀ m, Open o (progOf (r.trace m))) {c : RCfg} {k : Nat} {hs0 : List Str}
    (hd : ∀ m, n ≤ m → Housed env host v0 (r.trace m) (r.at_ m) o c k hs0) (hok : ∀ m, LogCallsOk (callsOf o (ioIn k (r.trace m)))) :
    ∃ m f written, n ≤ m ∧ cfg.f = some f ∧ KeepsLog host.lib c (files c (v0 k).dir hs0) ((accepted cfg.t (written.map (·.2))).map f) ((r.at_ m).vol k).dir ∧
      InTime o (progOf (r.trace m)) written ∧ ∀ t, shareOf t written <+: sentBy t o (progOf (r.trace m)) ∧ (Returned t (progOf (r.trace n)) → sentBy t o (progOf (r.trace n)) <+: shareOf t written) := by
  obtain ⟨m, f, gs, written, h1, h2, h3, h4, h5, h6⟩ := all_written hp hf (async_of hc) ho
  refine ⟨m, f, written, h1, h3, ?_, h6⟩
  have hd := hd m h1
  have inv := mexec_inv (forever_exec r m)
  obtain ⟨before, part, g1, _, _, hnil, g4⟩ := disk_messages inv hd.order (rolling_iff.mp hd.out) hd.place hd.apart hd.backups hd.names (hok m)
  have hgiven : (r.at_ m).p.given env o = ((r.at_ m).p.a o).writes := by unfold PState.given; rw [forever_async r h1 (async_of hc)]
  have hdo : doing ((r.at_ m).wr o) = [] := by simp [doing, h2]
  rw [hgiven, hdo, List.append_nil, h4] at g1
  rw [hnil h2, List.append_nil, ← g1] at g4
  have := keeps_regroup (lib := host.lib) (c := c) (F0 := files c (v0 k).dir hs0) (xs := gs.map (·.map f)) (d := ((r.at_ m).vol k).dir)
    (by rw [List.map_map]; simpa [Function.comp_def, List.flatMap] using g4)
  rw [← h5, List.map_flatten]
  exact this

/-- The hypotheses of `C98_on_disk` are met, with an event that has been logged. -/
example : ∃ (up : Nat → Bool) (v0 : Nat → Volume) (r : Forever Demo.env Demo.fhost (newMachine up v0)) (n : Nat), (∀ n, (r.at_ n).p.panicked = false) ∧
    r.fairToWorkers ∧ AsyncOut Demo.env (r.at_ n).p.w 0 Demo.bcfg ∧ (∀ m, Open 0 (progOf (r.trace m))) ∧
    (∀ m, n ≤ m → Housed Demo.env Demo.fhost v0 (r.trace m) (r.at_ m) 0 Demo.logR 0 [c!"log.7"]) ∧ (∀ m, LogCallsOk (callsOf 0 (ioIn 0 (r.trace m)))) ∧
    Returned 0 (progOf (r.trace n)) ∧ sentBy 0 0 (progOf (r.trace n)) = [Demo.hi] := Demo.filed_ticks

end Log4g
