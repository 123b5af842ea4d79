import Verif.Lemmas.SignalFair
import Verif.Props.Signals
import Verif.Props.Fair

/-! # C102 under a fair scheduler: after a signal everything that was logged before it is written -/

namespace Log4g
open Spec Strconv
open scoped List
variable {V : Type} {env : PEnv V} {host : Host} {me : Nat} {up : Nat → Bool} {v0 : Nat → Volume} {r : GForever env host me (newSignalled up v0)}

/-- C102, under a scheduler that is fair to the library, whatever the operating system answers: if the first signal comes at moment `n`, the library's call of
`Close` returns, and from some moment on an asynchronous output there was has written the texts of all events that calls that had returned by
moment `n` were given, in their order; its writer has nothing more to do, and if no call to the operating system failed, except perhaps for
archives, the files hold them. -/
theorem C102_eventually (hp : ∀ i, (r.at_ i).m.p.panicked = false) (hf : r.fairToLibrary) (hl : ∀ i, LeavesOpen me (r.trace i)) {n : Nat} (hs : r.lab n = some .signal)
    (hfirst : .signal ∉ r.trace n) {o : Nat} {cfg : ACfg V} (hc : AsyncOut env (r.at_ n).m.p.w o cfg) :
    ∃ m, n < m ∧ ∀ i, m ≤ i → .ret me ∈ programOf (r.trace i) ∧ ((r.at_ i).m.wr o).job = none ∧
      ∃ f before later, cfg.f = some f ∧ ((r.at_ i).m.p.a o).writes.flatten = textsOf cfg f (before ++ later) ∧ InTime o (programOf (r.trace i)) (before ++ later) ∧
        (∀ u, (∀ x y, programOf (r.trace n) = x ++ y → Returned u x → sentBy u o x <+: shareOf u before) ∧ shareOf u (before ++ later) <+ sentBy u o (programOf (r.trace i))) ∧
        ∀ c k hs0, Housed env host v0 (machineOf (r.trace i)) (r.at_ i).m o c k hs0 → LogCallsOk (callsOf o (ioIn k (machineOf (r.trace i)))) →
          KeepsLog host.lib c (files c (v0 k).dir hs0) ((accepted cfg.t ((before ++ later).map (·.2))).map f) ((r.at_ i).m.vol k).dir := by
  have hc := async_of hc
  have hlt := asyncOf_lt hc
  have es : r.trace (n + 1) = r.trace n ++ [.signal] := by show _ ++ (r.lab n).toList = _; rw [hs]; rfl
  have split : ∀ i, n ≤ i → ∃ c, r.trace i = r.trace n ++ c ∧ GExec env host me (r.at_ n) c (r.at_ i) := by
    intro i hi
    induction hi with
    | refl => exact ⟨[], by simp, .nil⟩
    | @step i _ ih =>
      obtain ⟨c, e, h⟩ := ih
      refine ⟨c ++ (r.lab i).toList, by rw [← List.append_assoc, ← e]; rfl, ?_⟩
      have st := r.step i
      cases e' : r.lab i with
      | none => rw [e'] at st; simp only at st; rw [st]; simpa using h
      | some l => rw [e'] at st; exact h.snoc st
  have async : ∀ i, n ≤ i → (r.at_ i).m.p.w.asyncOf env o = some cfg := fun i hi => forever_async r.machine hi hc
  -- `Close` returns
  obtain ⟨m1, hm1⟩ := signal_returns hp hf hl (n := n + 1) (by rw [es]; simp)
  have ret : ∀ i, m1 ≤ i → .ret me ∈ programOf (r.trace i) := fun i hi => by
    obtain ⟨l, e⟩ := gtrace_add r m1 hi
    rw [e, programOf_append]; exact List.mem_append_left _ hm1
  obtain ⟨m2, h21, h22⟩ : ∃ m2, n < m2 ∧ m1 ≤ m2 := ⟨max (n + 1) m1, by omega, by omega⟩
  -- the output is closed, its worker stops, its writer gets done
  obtain ⟨c, ec, hx⟩ := split m2 (by omega)
  obtain ⟨m3, h3, hst⟩ := closed_stops hp hf (async m2 (by omega)) (by
    rw [ec]
    exact closed_after (ec ▸ hl m2) hfirst (gforever_exec r n) hx (ec ▸ ret m2 h22) hlt (by rw [async m2 (by omega)]; simp))
  obtain ⟨m4, h4, hj⟩ := job_often (r := r.machine) hp ((library_fair hf).writers o) m3
  have hst4 := worker_stopped (r := r.machine) hst m4 h4
  have still := stopped_idle hp (async m4 (by omega)) hst4 hj
  refine ⟨m4, by omega, fun i hi => ⟨ret i (by omega), (still i hi).2, ?_⟩⟩
  obtain ⟨c, ec, hx⟩ := split i (by omega)
  obtain ⟨f, gs, before, later, j1, j2, j3, j4, j5⟩ := signal_texts (gforever_exec r n) hfirst (hl n) hx (hp i) (async i (by omega)) fun _ => (still i hi).1
  rw [← ec] at j4 j5
  refine ⟨f, before, later, j1, by rw [j2, textsOf, ← j3, flatMap_groups], j4, j5, fun c k hs0 hd hok => ?_⟩
  exact disk_texts (mexec_inv (gexec_machine (gforever_exec r i))) hd hok (async i (by omega)) (still i hi).2 j2 j3

/-- The hypotheses of `C102_eventually` are met, also those about files, with an event that has been logged. -/
example : ∃ (up : Nat → Bool) (v0 : Nat → Volume) (r : GForever Demo.env Demo.fhost 1 (newSignalled up v0)) (n N : Nat) (c : RCfg), (∀ i, (r.at_ i).m.p.panicked = false) ∧ r.fairToLibrary ∧
    (∀ i, LeavesOpen 1 (r.trace i)) ∧ r.lab n = some .signal ∧ .signal ∉ r.trace n ∧ AsyncOut Demo.env (r.at_ n).m.p.w 0 Demo.bcfg ∧
    (∃ x y, programOf (r.trace n) = x ++ y ∧ Returned 0 x ∧ sentBy 0 0 x = [Demo.hi]) ∧
    ∀ i, N ≤ i → Housed Demo.env Demo.fhost v0 (machineOf (r.trace i)) (r.at_ i).m 0 c 0 [c!"log.7"] ∧ LogCallsOk (callsOf 0 (ioIn 0 (machineOf (r.trace i)))) := by
  obtain ⟨tr1, m1, tr2, m2, h1, h2, e1, e2, e3, e4, f1, f2, g1, g2⟩ := Demo.filed_run
  obtain ⟨x, y, exy, ex, ey, g⟩ := signal_steps (me := 1) (os := [0, 1]) (h1.trans h2) (a := Demo.fsetup ++ Demo.flogged) (b := Demo.fclosing ++ [.ret 1]) (by rw [progOf_append, e1, e2]; simp)
    (by simp [Demo.fsetup, Demo.flogged, Demo.logged, Demo.fclosing, PLab.startedBy])
  have em : machineOf (x.map GLab.step ++ .signal :: .received :: .step (.prog (.close 1 [0, 1])) :: y.map .step) = tr1 ++ tr2 := by
    rw [exy, machineOf_append, show (GLab.signal :: .received :: .step (.prog (.close 1 [0, 1])) :: y.map GLab.step : List (GLab Nat)) =
      [.signal, .received] ++ (MLab.prog (.close 1 [0, 1]) :: y).map GLab.step from rfl, machineOf_append, machineOf_steps, machineOf_steps]
    rfl
  have e5 : progOf (tr1 ++ tr2) = Demo.fsetup ++ Demo.flogged ++ (.close 1 [0, 1] :: Demo.fclosing ++ [.ret 1]) := by rw [progOf_append, e1, e2]
  have ex' : programOf (x.map GLab.step) = Demo.fsetup ++ Demo.flogged := by rw [programOf_steps, ex]
  obtain ⟨r, r1, r2, r3⟩ := gexec_forever g
  generalize hT : x.map GLab.step ++ .signal :: .received :: .step (.prog (.close 1 [0, 1])) :: y.map .step = T at *
  obtain ⟨hp, hr, ht⟩ := Demo.filed_rest (h1.trans h2) e5 f2 g2
  have hlen : x.length = (x.map (GLab.step (V := Nat))).length := by simp
  have htr : r.trace x.length = x.map GLab.step := by rw [r2, ← hT, hlen, List.take_left]
  have ep : programOf T = Demo.fsetup ++ Demo.flogged ++ (.close 1 [0, 1] :: Demo.fclosing ++ [.ret 1]) := by rw [programOf, em, e5]
  have full : ∀ i, T.length ≤ i → r.trace i = T := fun i hi => by rw [r2, List.take_of_length_le hi]
  refine ⟨_, _, r, x.length, T.length, Demo.logR, fun i => ?_, rest_library (h1.trans h2) hr rfl r3, fun i => ?_, ?_, ?_, ?_,
    ⟨_, _, by rw [htr, ex']; exact Demo.flogged_split, Demo.logged_returned _, rfl⟩, fun i hi => ⟨?_, ?_⟩⟩
  · exact rest_before (r := r.machine) (m := m2) (N := T.length) (fun i hi => by show (r.at_ i).m = _; rw [r3 i hi]) hp i
  · refine leaves_left (b := T.drop i) ?_
    rw [r2, List.take_append_drop]
    refine ⟨?_, ?_⟩
    · rw [ep]; simp [Demo.fsetup, Demo.flogged, Demo.logged, Demo.fclosing]
    · rw [Tame, ep]; simp [Demo.fsetup, Demo.flogged, Demo.logged, Demo.fclosing]
  · rw [r1, ← hT, hlen, List.getElem?_append_right (Nat.le_refl _)]; simp
  · rw [htr]; simp
  · have inv := pexec_inv (gexec_prog (gforever_exec r x.length))
    have hm : (r.machine.at_ (x.length + T.length)).p.w = Demo.wf := by show (r.at_ _).m.p.w = _; rw [r3 _ (by omega)]; exact f2
    refine of_async inv.world ?_
    have hlt : 0 < (r.at_ x.length).m.p.w.mgr.oheap.length := Nat.pos_of_ne_zero fun h => by
      have := inv.fresh 0 0 (by omega)
      rw [htr, ex'] at this
      cases this
    have hx := forever_ext r.machine (show x.length ≤ x.length + T.length by omega)
    have := ext_asyncOf Demo.env inv.world hx hlt
    rw [hm, async_of Demo.wf_out] at this
    exact this.symm
  · rw [r3 i hi]
    refine Demo.filed_log f2 ?_
    rw [full i hi, em, ioIn_append, e3, e4]; decide +kernel
  · rw [full i hi, em, ioIn_append, e3, e4]; exact logCallsOkB_ok ((by decide +kernel))

end Log4g
