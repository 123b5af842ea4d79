import Verif.Lemmas.FairRuns
import Verif.Lemmas.FairWrites
import Verif.Props.MachineLive

/-! # C97: calls return, under a fair scheduler -/

namespace Log4g
open Spec Strconv
open scoped List
variable {V : Type}

namespace Demo

theorem filed_async {m : Machine Nat} (h : m.p.w = wf) {o : Nat} {cfg : ACfg Nat} (hc : m.p.w.asyncOf env o = some cfg) : o = 0 := by
  rw [h] at hc
  have := asyncOf_lt hc
  rw [wf_files.two] at this
  match o, this with
  | 0, _ => rfl
  | 1, _ => rw [wf_files.none] at hc; cases hc

/-- The program that has logged, for ever after. -/
theorem filed_logs : ∃ (up : Nat → Bool) (v0 : Nat → Volume) (r : Forever env fhost (newMachine up v0)) (n : Nat), (∀ n, (r.at_ n).p.panicked = false) ∧
    (∀ t, r.fairTo t) ∧ r.does n (.log 0 [⟨0, hi⟩, ⟨1, hi⟩]) ∧ ∀ o m, Open o (progOf (r.trace m)) := by
  obtain ⟨tr1, m1, tr2, m2, h1, h2, e1, e2, e3, e4, f1, f2, g1, g2⟩ := Demo.filed_run
  obtain ⟨r, r1, r2, r3⟩ := exec_forever h1
  have inv := pexec_inv (mexec_inv h1).prog
  have hp : m1.p.panicked = false := unpanicked (mexec_inv h1).prog rfl (by rw [e1]; simp [fsetup, flogged, logged]) (by rw [e1]; simp [fsetup, flogged, logged])
    (by rw [e1]; simp [fsetup, flogged, logged])
  have ho : ∀ o, Open o (progOf tr1) := fun o => by
    rw [e1]
    exact ⟨by simp [fsetup, flogged, logged], by simp [fsetup, flogged, logged]⟩
  have hr : AtRest env m1 := by
    refine ⟨fun t => ?_, fun o cfg hc => ?_, fun o => (g1 o).1⟩
    · rw [at_rest (mexec_inv h1).prog (t := t)]
      rw [e1]
      repeat refine returned_cons (by simp [Begins] <;> (rintro rfl; simp)) ?_
      exact returned_nil _
    · have hx := inv.proj o cfg hc
      have ai := aexec_inv hx (inv.sound hp o)
      have := filed_async f1 hc; subst this
      refine ⟨Log4g.begun hx (.inr (by rw [e1]; simp [fsetup, flogged, logged, outLabs])), .inr ⟨?_, (never_closed (fun u => (inv.opened 0 (ho 0) u).2) hx).2.2.1⟩⟩
      have := ai.queue
      rw [e1] at this
      simpa [fsetup, flogged, logged, outLabs, queuedOf, takenOf] using this
  have hb := rest_before r3 hp
  obtain ⟨n, x, hx, hy⟩ := prog_mem (tr := tr1) (l := .log 0 [⟨0, hi⟩, ⟨1, hi⟩]) (by rw [e1]; simp [flogged, logged])
  refine ⟨_, _, r, n, hb, rest_fair h1 hr r3, ⟨x, by rw [r1, hx], hy⟩, fun o m => ?_⟩
  rw [r2]
  refine open_left (b := progOf (tr1.drop m)) ?_
  rw [← progOf_append, List.take_append_drop]; exact ho o

/-- The program that has logged and closed, for ever after. -/
theorem filed_rest {mtr : List (MLab Nat)} {m : Machine Nat} (h3 : MExec env fhost (newMachine (fun _ => false) fun _ => fvol.vol) mtr m)
    (e5 : progOf mtr = fsetup ++ flogged ++ (.close 1 [0, 1] :: fclosing ++ [.ret 1])) (f2 : m.p.w = wf) (g2 : Calm m) :
    m.p.panicked = false ∧ AtRest env m ∧ Tame (progOf mtr) := by
  have inv := pexec_inv (mexec_inv h3).prog
  have hp : m.p.panicked = false := unpanicked (mexec_inv h3).prog rfl (by rw [e5]; simp [fsetup, flogged, logged, fclosing]) (by rw [e5]; simp [fsetup, flogged, logged, fclosing])
    (by rw [e5]; simp [fsetup, flogged, logged, fclosing])
  refine ⟨hp, ⟨fun t => ?_, fun o cfg hc => ?_, fun o => (g2 o).1⟩, ?_⟩
  · rw [at_rest (mexec_inv h3).prog (t := t)]
    rw [e5]
    repeat refine returned_cons (by simp [Begins] <;> (rintro rfl; simp)) ?_
    exact returned_nil _
  · have hx := inv.proj o cfg hc
    have ai := aexec_inv hx (inv.sound hp o)
    have := filed_async f2 hc; subst this
    have hb := Log4g.begun hx (.inr (by rw [e5]; simp [fsetup, flogged, logged, outLabs]))
    refine ⟨hb, .inl ?_⟩
    cases hw : (m.p.a 0).worker with
    | stopped => rfl
    | starting => exact absurd hw hb
    | running =>
      refine absurd ?_ (ai.running hw)
      rw [e5]
      simp [fsetup, flogged, logged, fclosing, outLabs, takenOf]
  · rw [e5]
    intro t o
    simp [fsetup, flogged, logged, fclosing]

theorem filed_closes : ∃ (up : Nat → Bool) (v0 : Nat → Volume) (r : Forever env fhost (newMachine up v0)) (n : Nat), (∀ n, (r.at_ n).p.panicked = false) ∧
    (∀ t, r.fairTo t) ∧ r.does n (.close 1 [0, 1]) ∧ ∀ m, Tame (progOf (r.trace m)) := by
  obtain ⟨tr1, m1, tr2, m2, h1, h2, e1, e2, e3, e4, f1, f2, g1, g2⟩ := Demo.filed_run
  have h3 := h1.trans h2
  have e5 : progOf (tr1 ++ tr2) = fsetup ++ flogged ++ (.close 1 [0, 1] :: fclosing ++ [.ret 1]) := by rw [progOf_append, e1, e2]
  obtain ⟨r, r1, r2, r3⟩ := exec_forever h3
  obtain ⟨hp, hr, ht⟩ := filed_rest h3 e5 f2 g2
  have hb := rest_before r3 hp
  obtain ⟨n, x, hx, hy⟩ := prog_mem (tr := tr1 ++ tr2) (l := .close 1 [0, 1]) (by rw [e5]; simp)
  refine ⟨_, _, r, n, hb, rest_fair h3 hr r3, ⟨x, by rw [r1, hx], hy⟩, fun m t o hm => ht t o ?_⟩
  rw [r2] at hm
  rw [← List.take_append_drop m (tr1 ++ tr2), progOf_append]
  exact List.mem_append_left _ hm

def sent : List (PLab Nat) :=
  [.out 0 .begin, .direct 0 0 (.send hi), .enter 0 0 (.send hi), .out 0 (.start 0 (.send hi)), .out 0 (.queued 0 hi), .leave 0 0, .ret 0, .out 0 (.took (some hi))]

theorem send_run {w : World} (hw : Files w) : ∃ p : PState Nat, PExec env { w := w } sent p ∧ p.w = w := by
  have a0 : PExec env ({ w := w } : PState Nat) [] _ := .nil
  have a1 := a0.snoc ⟨rfl, .out (o := 0) hw.async ⟨rfl, .begin rfl⟩⟩
  have a2 := a1.snoc ⟨rfl, .direct (t := 0) (o := 0) (c := .send hi) rfl (show 0 < w.mgr.oheap.length by rw [hw.two]; decide)⟩
  have a3 := a2.snoc ⟨rfl, .enter (t := 0) rfl hw.async⟩
  have a4 := a3.snoc ⟨rfl, .out (o := 0) hw.async ⟨rfl, .sendStart (t := 0) (e := hi) rfl rfl⟩⟩
  have a5 := a4.snoc ⟨rfl, .out (o := 0) hw.async ⟨rfl, .sendQueue (t := 0) (e := hi) rfl rfl (show (0 : Nat) < 2 by decide)⟩⟩
  have a6 := a5.snoc ⟨rfl, .leave (t := 0) rfl rfl⟩
  have a7 := a6.snoc ⟨rfl, .ret (t := 0) rfl⟩
  have a8 := a7.snoc ⟨rfl, .out (o := 0) hw.async ⟨rfl, .takeEvent (e := hi) rfl rfl rfl⟩⟩
  exact ⟨_, a8, rfl⟩

/-- A program that has sent an event to an output itself, for ever after. -/
theorem filed_sends : ∃ (up : Nat → Bool) (v0 : Nat → Volume) (r : Forever env fhost (newMachine up v0)) (n : Nat), (∀ n, (r.at_ n).p.panicked = false) ∧
    (∀ t, r.fairTo t) ∧ r.does n (.direct 0 0 (.send hi)) ∧ ∀ o m, Open o (progOf (r.trace m)) := by
  obtain ⟨p, h0, f0⟩ := send_run wf_files
  have h0 := fbegun.trans h0
  have hp : p.panicked = false := unpanicked h0 rfl (by simp [fsetup, sent]) (by simp [fsetup, sent]) (by simp [fsetup, sent])
  obtain ⟨tr1, m1, h1, e1, _, rfl, g1⟩ := run_lift (broken_possible (up := fun _ => false) (v0 := fun _ => fvol.vol)) .nil rfl h0 hp
  have f1 := f0
  obtain ⟨r, r1, r2, r3⟩ := exec_forever h1
  have inv := pexec_inv (mexec_inv h1).prog
  have ho : ∀ o, Open o (progOf tr1) := fun o => by
    rw [e1]
    exact ⟨by simp [fsetup, sent], by simp [fsetup, sent]⟩
  have hr : AtRest env m1 := by
    refine ⟨fun t => ?_, fun o cfg hc => ?_, fun o => (g1 o).1⟩
    · rw [at_rest (mexec_inv h1).prog (t := t)]
      rw [e1]
      repeat refine returned_cons (by simp [Begins] <;> (rintro rfl; simp)) ?_
      exact returned_nil _
    · have hx := inv.proj o cfg hc
      have ai := aexec_inv hx (inv.sound hp o)
      have := filed_async f1 hc; subst this
      refine ⟨Log4g.begun hx (.inr (by rw [e1]; simp [fsetup, sent, outLabs])), .inr ⟨?_, (never_closed (fun u => (inv.opened 0 (ho 0) u).2) hx).2.2.1⟩⟩
      have := ai.queue
      rw [e1] at this
      simpa [fsetup, sent, outLabs, queuedOf, takenOf] using this
  have hb := rest_before r3 hp
  obtain ⟨n, x, hx, hy⟩ := prog_mem (tr := tr1) (l := .direct 0 0 (.send hi)) (by rw [e1]; simp [sent])
  refine ⟨_, _, r, n, hb, rest_fair h1 hr r3, ⟨x, by rw [r1, hx], hy⟩, fun o m => ?_⟩
  rw [r2]
  refine open_left (b := progOf (tr1.drop m)) ?_
  rw [← progOf_append, List.take_append_drop]; exact ho o

end Demo

variable {env : PEnv V} {host : Host} {up : Nat → Bool} {v0 : Nat → Volume} {r : Forever env host (newMachine up v0)}

/-- C97, log calls: a log call returns, whatever the operating system answers, if the scheduler is fair to the goroutine, the
workers and the writers, and the outputs are not closed. -/
theorem C97_log_returns (hp : ∀ n, (r.at_ n).p.panicked = false) {t : Nat} (hf : r.fairTo t) {n : Nat} {ds : List (World.Delivery V)}
    (hl : r.does n (.log t ds)) (ho : ∀ d ∈ ds, ∀ m, Open d.out (progOf (r.trace m))) : ∃ m, n < m ∧ r.does m (.ret t) := by
  obtain ⟨x, hx, hy⟩ := hl
  have st := r.step n
  rw [hx] at st
  simp only at st
  have key : (r.at_ (n + 1)).p.th t = { call := some .log, todo := ds.map fun d => (d.out, .send d.evt) } := by
    generalize r.at_ (n + 1) = b at st ⊢
    rcases mstep_prog st with ⟨l, k1, k2⟩ | ⟨k, _⟩
    · rw [hy] at k1; cases k1
      generalize b.p = p at k2
      cases k2.2 with
      | log _ _ _ => simp [PState.set]
    · rw [hy] at k; cases k
  obtain ⟨m, h1, h2⟩ := open_returns hp hf.writers hf (n := n + 1) (k := .log) (by rw [key]) (fun o hu => by
    rcases hu with hu | ⟨c, hu⟩ <;> rw [key] at hu
    · cases hu
    · obtain ⟨d, h1, h2⟩ := List.mem_map.mp hu
      cases h2
      exact ho d h1)
  exact ⟨m, h1, _, h2, rfl⟩

/-- The hypotheses of `C97_log_returns` are met. -/
example : ∃ (up : Nat → Bool) (v0 : Nat → Volume) (r : Forever Demo.env Demo.fhost (newMachine up v0)) (n : Nat), (∀ n, (r.at_ n).p.panicked = false) ∧
    (∀ t, r.fairTo t) ∧ r.does n (.log 0 [⟨0, Demo.hi⟩, ⟨1, Demo.hi⟩]) ∧ ∀ o m, Open o (progOf (r.trace m)) := Demo.filed_logs

/-- C97, `Send` of an output. -/
theorem C97_send_returns (hp : ∀ n, (r.at_ n).p.panicked = false) {t : Nat} (hf : r.fairTo t) {n o : Nat} {e : Event V}
    (hl : r.does n (.direct t o (.send e))) (ho : ∀ m, Open o (progOf (r.trace m))) : ∃ m, n < m ∧ r.does m (.ret t) := by
  obtain ⟨x, hx, hy⟩ := hl
  have st := r.step n
  rw [hx] at st
  simp only at st
  have key : (r.at_ (n + 1)).p.th t = { call := some .direct, todo := [(o, .send e)] } := by
    generalize r.at_ (n + 1) = b at st ⊢
    rcases mstep_prog st with ⟨l, k1, k2⟩ | ⟨k, _⟩
    · rw [hy] at k1; cases k1
      generalize b.p = p at k2
      cases k2.2 with
      | direct _ _ => simp [PState.set]
    · rw [hy] at k; cases k
  obtain ⟨m, h1, h2⟩ := open_returns hp hf.writers hf (n := n + 1) (k := .direct) (by rw [key]) (fun q hu => by
    rcases hu with hu | ⟨c, hu⟩ <;> rw [key] at hu
    · cases hu
    · simp at hu
      rw [hu.1]; exact ho)
  exact ⟨m, h1, _, h2, rfl⟩

/-- The hypotheses of `C97_send_returns` are met, by an asynchronous output of which the files cannot be written. -/
example : ∃ (up : Nat → Bool) (v0 : Nat → Volume) (r : Forever Demo.env Demo.fhost (newMachine up v0)) (n : Nat), (∀ n, (r.at_ n).p.panicked = false) ∧
    (∀ t, r.fairTo t) ∧ r.does n (.direct 0 0 (.send Demo.hi)) ∧ ∀ o m, Open o (progOf (r.trace m)) := Demo.filed_sends

/-- C97, `Close`: the manager's `Close` returns, whatever the operating system answers, if the scheduler is fair to the goroutine,
the workers and the writers, and the program does not close outputs itself. -/
theorem C97_close_returns (hp : ∀ n, (r.at_ n).p.panicked = false) {t : Nat} (hf : r.fairTo t) {n : Nat} {ids : List Nat}
    (hl : r.does n (.close t ids)) (ht : ∀ m, Tame (progOf (r.trace m))) : ∃ m, n < m ∧ r.does m (.ret t) := by
  obtain ⟨x, hx, hy⟩ := hl
  have st := r.step n
  rw [hx] at st
  simp only at st
  have key : ((r.at_ (n + 1)).p.th t).call = some .close := by
    generalize r.at_ (n + 1) = b at st ⊢
    rcases mstep_prog st with ⟨l, k1, k2⟩ | ⟨k, _⟩
    · rw [hy] at k1; cases k1
      generalize b.p = p at k2
      cases k2.2 with
      | close _ _ _ => simp [PState.set]
    · rw [hy] at k; cases k
  obtain ⟨m, h1, h2⟩ := manager_returns hp hf.writers hf ht key
  exact ⟨m, h1, _, h2, rfl⟩

/-- The hypotheses of `C97_close_returns` are met. -/
example : ∃ (up : Nat → Bool) (v0 : Nat → Volume) (r : Forever Demo.env Demo.fhost (newMachine up v0)) (n : Nat), (∀ n, (r.at_ n).p.panicked = false) ∧
    (∀ t, r.fairTo t) ∧ r.does n (.close 1 [0, 1]) ∧ ∀ m, Tame (progOf (r.trace m)) := Demo.filed_closes

/-- C97, the manager's lock: it is free again and again, so that whoever waits for it, and is treated fairly, gets it. -/
theorem C97_lock_free (hp : ∀ n, (r.at_ n).p.panicked = false) (hf : ∀ t, r.fairTo t) (ht : ∀ m, Tame (progOf (r.trace m))) :
    Often fun n => (r.at_ n).p.lock = none := by
  intro n
  cases e : (r.at_ n).p.lock with
  | none => exact ⟨n, Nat.le_refl _, e⟩
  | some t =>
    -- somebody is in `Close`
    have hc := ((pexec_inv (forever_prog r n)).lock t).mp e
    obtain ⟨m1, g1, g2⟩ := manager_returns hp (hf t).writers (hf t) ht hc
    obtain ⟨m, h1, ⟨x, h2, h4⟩, h3⟩ := first_time (Q := fun i => r.does i (.ret t)) ⟨m1, g1, _, g2, rfl⟩
    refine ⟨m + 1, by omega, ?_⟩
    have key : ∀ i, n ≤ i → i ≤ m → ((r.at_ i).p.th t).call = some .close := by
      intro i hi him
      induction hi with
      | refl => exact hc
      | @step i hi ih =>
        have hi : n ≤ i := hi
        have ih := ih (by omega)
        rcases moment r i with ⟨y, l, k1, k2, k3⟩ | k
        · exact call_kept k3 ih fun e => h3 i hi (by omega) ⟨y, k1, by rw [k2, e]⟩
        · rw [k]; exact ih
    have hcm := key m h1 (Nat.le_refl _)
    have st := r.step m
    rw [h2] at st
    rcases mstep_prog st with ⟨l, k1, k2⟩ | ⟨k, _⟩
    · rw [h4] at k1; cases k1
      simp only
      generalize (r.at_ (m + 1)).p = q at k2 ⊢
      cases k2.2 with
      | ret k =>
        rw [k] at hcm
        simp at hcm
        subst hcm
        rfl
    · rw [h4] at k; cases k

/-- The hypotheses of `C97_lock_free` are met, by a program that closes the manager. -/
example : ∃ (up : Nat → Bool) (v0 : Nat → Volume) (r : Forever Demo.env Demo.fhost (newMachine up v0)) (n : Nat), (∀ n, (r.at_ n).p.panicked = false) ∧
    (∀ t, r.fairTo t) ∧ r.does n (.close 1 [0, 1]) ∧ ∀ m, Tame (progOf (r.trace m)) := Demo.filed_closes

end Log4g
