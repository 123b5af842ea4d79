import Verif.Spec.SignalFair
import Verif.Lemmas.Signals
import Verif.Lemmas.FairCalls
import Verif.Lemmas.FairRuns
import Verif.Lemmas.MachineSync

/-! # Lemmas about signals under a fair scheduler -/

namespace Log4g
open Spec
open scoped List
variable {V : Type} {env : PEnv V} {host : Host} {me : Nat} {up : Nat → Bool} {v0 : Nat → Volume}

/-- The machine of a program that is sent signals. -/
def Spec.GForever.machine {s0 : Signalled V} (r : GForever env host me s0) : Forever env host s0.m where
  at_ n := (r.at_ n).m
  lab n := match r.lab n with
    | some (.step l) => some l
    | _ => none
  init := by rw [r.init]
  step n := by
    have st := r.step n
    cases e : r.lab n with
    | none => rw [e] at st; simp only at st ⊢; rw [st]
    | some l =>
      rw [e] at st
      simp only at st
      generalize r.at_ (n + 1) = b at st
      generalize r.at_ n = a at st
      cases st with
      | signal _ => rfl
      | receive _ _ _ => rfl
      | close _ hm => exact hm
      | step hm _ => exact hm

theorem machine_lab {s0 : Signalled V} {r : GForever env host me s0} {n : Nat} {l : MLab V} (h : r.lab n = some (.step l)) : r.machine.lab n = some l := by
  show (match r.lab n with | some (.step l) => some l | _ => none) = _
  rw [h]

theorem lab_machine {s0 : Signalled V} {r : GForever env host me s0} {n : Nat} {l : MLab V} (h : r.machine.lab n = some l) : r.lab n = some (.step l) := by
  have h : (match r.lab n with | some (.step l) => some l | _ => none) = some l := h
  split at h
  · rename_i e; cases h; exact e
  · cases h

theorem machine_trace {s0 : Signalled V} (r : GForever env host me s0) (n : Nat) : r.machine.trace n = machineOf (r.trace n) := by
  induction n with
  | zero => rfl
  | succ n ih =>
    show r.machine.trace n ++ (match r.lab n with | some (.step l) => some l | _ => none).toList = machineOf (r.trace n ++ (r.lab n).toList)
    rw [ih, machineOf_append]
    cases r.lab n with
    | none => rfl
    | some l => cases l <;> rfl

theorem gforever_exec (r : GForever env host me (newSignalled up v0)) (n : Nat) : GExec env host me (newSignalled up v0) (r.trace n) (r.at_ n) := by
  induction n with
  | zero => rw [r.init]; exact .nil
  | succ n ih =>
    have := r.step n
    show GExec env host me _ (r.trace n ++ (r.lab n).toList) _
    cases e : r.lab n with
    | none => rw [e] at this; simp only at this; rw [this]; simpa using ih
    | some l => rw [e] at this; exact ih.snoc this

theorem gtrace_add {s0 : Signalled V} (r : GForever env host me s0) (n : Nat) {m : Nat} (h : n ≤ m) : ∃ l, r.trace m = r.trace n ++ l := by
  induction h with
  | refl => exact ⟨[], by simp⟩
  | step _ ih =>
    obtain ⟨l, e⟩ := ih
    exact ⟨l ++ (r.lab _).toList, by rw [← List.append_assoc, ← e]; rfl⟩

/-- Whoever the scheduler is fair to in the program with the library's goroutine, it is fair to in the machine. -/
theorem machine_fair {s0 : Signalled V} {r : GForever env host me s0} {who : MLab V → Prop}
    (hw : ∀ x, who x → ∀ p, (x = .prog p ∨ ∃ k o bs, x = .write p k o bs) → ¬ p.startedBy me) (h : r.fair fun l => ∃ x, l = .step x ∧ who x) : r.machine.fair who := by
  intro ho n
  obtain ⟨m, h1, l, h2, x, rfl, h3⟩ := h (fun n => by
    obtain ⟨m, h1, l, m', h2, h3⟩ := ho n
    exact ⟨m, h1, .step l, { r.at_ m with m := m' }, ⟨l, rfl, h2⟩, .step h3 (hw l h2)⟩) n
  exact ⟨m, h1, x, machine_lab h2, h3⟩

theorem fair_machine {s0 : Signalled V} {r : GForever env host me s0} {who : MLab V → Prop} (h : r.machine.fair who) : r.fair fun l => ∃ x, l = .step x ∧ who x := by
  intro ho n
  obtain ⟨m, h1, x, h2, h3⟩ := h (fun n => by
    obtain ⟨m, h1, _, s', ⟨l, rfl, h2⟩, h3⟩ := ho n
    cases h3 with
    | close _ hm => exact ⟨m, h1, _, _, h2, hm⟩
    | step hm _ => exact ⟨m, h1, _, _, h2, hm⟩) n
  exact ⟨m, h1, _, lab_machine h2, x, rfl, h3⟩

theorem only_prog {x : MLab V} {l p : PLab V} (h : progOf [x] = [l]) (hx : x = .prog p ∨ ∃ k o bs, x = .write p k o bs) : p = l := by
  rcases hx with rfl | ⟨k, o, bs, rfl⟩ <;> simpa [progOf] using h

/-- Fair to the library, fair to its goroutine, the workers and the writers in the machine. -/
theorem library_fair {s0 : Signalled V} {r : GForever env host me s0} (h : r.fairToLibrary) : r.machine.fairTo me where
  goroutine := machine_fair (fun x hx p hp hs => by
    obtain ⟨l, h1, h2, h3, h4⟩ := hx
    have := only_prog h1 hp; subst this
    cases p <;> simp only [PLab.startedBy] at hs <;> subst hs
    · exact h3 (.inl ⟨_, rfl⟩)
    · exact h4 rfl
    · exact h3 (.inr (.inl ⟨_, rfl⟩))
    · exact h3 (.inr (.inr ⟨_, _, rfl⟩))) h.goroutine
  begins o := machine_fair (fun x hx p hp hs => by
    have := only_prog hx hp; subst this; exact hs) (h.begins o)
  takes o := machine_fair (fun x hx p hp hs => by
    obtain ⟨e, hx⟩ := hx
    have := only_prog hx hp; subst this; exact hs) (h.takes o)
  writers o := machine_fair (fun x hx p hp hs => by
    rcases hp with rfl | ⟨k, o, bs, rfl⟩ <;> exact hx) (h.writers o)

section
variable {r : GForever env host me (newSignalled up v0)} (hp : ∀ n, (r.at_ n).m.p.panicked = false)
include hp

/-- The goroutine can call `Close`. -/
theorem close_can {n : Nat} (hl : LeavesOpen me (r.trace n)) (hpc : (r.at_ n).pc = .told) : ∃ l s', (∃ os, l = .step (.prog (.close me os))) ∧ GStep env host me (r.at_ n) l s' := by
  have h := gforever_exec r n
  have hm := gexec_machine h
  obtain ⟨hlock, hcall⟩ := lock_before h hl (by rw [hpc]; simp)
  have st : PStep env (r.at_ n).m.p (.close me ((r.at_ n).m.p.w.mgr.outputs.map (·.2))) _ := ⟨hp n, .close hcall hlock (List.Perm.refl _)⟩
  obtain ⟨x, m', h1, h2⟩ := enabled_step hm st ⟨fun t ht o hb => by
    have : me = t := by simpa [PLab.goroutine] using ht
    subst this
    exact (mexec_waits hm).call o me hb hcall, trivial⟩ (fun t o c e => by cases e)
  have := close_alone (mexec_inv hm).prog h2 h1
  subst this
  exact ⟨_, _, ⟨_, rfl⟩, .close hpc h2⟩

/-- After a signal the goroutine is told and calls `Close`. -/
theorem signal_closes (hf : r.fairToLibrary) (hl : ∀ n, LeavesOpen me (r.trace n)) {n : Nat} (hs : .signal ∈ r.trace n) : ∃ m, (r.at_ m).pc = .closes := by
  apply Classical.byContradiction
  intro hn
  have stays : ∀ m, (r.at_ m).pc ≠ .waits → (r.at_ (m + 1)).pc ≠ .waits := by
    intro m hm
    have st := r.step m
    cases e : r.lab m with
    | none => rw [e] at st; simp only at st; rw [st]; exact hm
    | some l =>
      rw [e] at st
      simp only at st
      generalize r.at_ (m + 1) = b at st ⊢
      generalize r.at_ m = a at st hm
      cases st with
      | signal _ => exact hm
      | receive _ _ _ => simp
      | close _ _ => simp
      | step _ _ => exact hm
  have heard : ∀ m, n ≤ m → .signal ∈ r.trace m := fun m hm => by
    obtain ⟨l, e⟩ := gtrace_add r n hm
    rw [e]; exact List.mem_append_left _ hs
  -- it is told
  have told : ∃ m, (r.at_ m).pc ≠ .waits := by
    apply Classical.byContradiction
    intro hno
    have waits : ∀ m, (r.at_ m).pc = .waits := fun m => Classical.byContradiction fun k => hno ⟨m, k⟩
    obtain ⟨m, h1, l, h2, rfl⟩ := hf.receives (fun i => ⟨max n i, Nat.le_max_right _ _, .received, _, rfl,
      .receive (hp _) ((gexec_inv (gforever_exec r _)).heard (heard _ (Nat.le_max_left _ _)) (waits _)) (waits _)⟩) 0
    have st := r.step m
    rw [h2] at st
    simp only at st
    have hw := waits (m + 1)
    generalize r.at_ (m + 1) = b at st hw
    cases st with
    | receive _ _ _ => cases hw
  obtain ⟨m0, h0⟩ := told
  have told : ∀ m, m0 ≤ m → (r.at_ m).pc = .told := by
    intro m hm
    have : (r.at_ m).pc ≠ .waits := by
      induction hm with
      | refl => exact h0
      | step _ ih => exact stays _ ih
    cases e : (r.at_ m).pc with
    | waits => exact absurd e this
    | told => rfl
    | closes => exact absurd ⟨m, e⟩ hn
  obtain ⟨m, h1, l, h2, os, rfl⟩ := hf.closes (fun i => ⟨max m0 i, Nat.le_max_right _ _, close_can hp (hl _) (told _ (Nat.le_max_left _ _))⟩) m0
  have st := r.step m
  rw [h2] at st
  simp only at st
  have hw := told (m + 1) (by omega)
  generalize r.at_ (m + 1) = b at st hw
  cases st with
  | close _ _ => cases hw
  | step _ hno => exact hno _ (.inl rfl) rfl

/-- After a signal the goroutine's `Close` returns. -/
theorem signal_returns (hf : r.fairToLibrary) (hl : ∀ n, LeavesOpen me (r.trace n)) {n : Nat} (hs : .signal ∈ r.trace n) : ∃ m, .ret me ∈ programOf (r.trace m) := by
  obtain ⟨m, hm⟩ := signal_closes hp hf hl hs
  by_cases hr : .ret me ∈ programOf (r.trace m)
  · exact ⟨m, hr⟩
  · obtain ⟨x, os, y, e, _⟩ := (gexec_inv (gforever_exec r m)).once hm
    have hc := (call_is (gexec_prog (gforever_exec r m)) e (fun hh => hr (by rw [e]; simp [hh]))).2.1 os rfl
    have hf' := library_fair hf
    obtain ⟨i, h1, h2⟩ := manager_returns (r := r.machine) hp hf'.writers hf' (fun j => (machine_trace r j ▸ (hl j).2 : Tame (progOf (r.machine.trace j)))) (n := m) hc
    refine ⟨i + 1, ?_⟩
    have h2 := lab_machine h2
    rw [show r.trace (i + 1) = r.trace i ++ (r.lab i).toList from rfl, h2, programOf_append]
    exact List.mem_append_right _ (by simp [programOf, machineOf, progOf])

/-- A closed output's worker stops. -/
theorem closed_stops (hf : r.fairToLibrary) {n o : Nat} {cfg : ACfg V} (hc : (r.at_ n).m.p.w.asyncOf env o = some cfg) (hcl : ∃ u, .closed u ∈ outLabs o (programOf (r.trace n))) :
    ∃ m, n ≤ m ∧ ((r.at_ m).m.p.a o).worker = .stopped := by
  have hf' := library_fair hf
  apply Classical.byContradiction
  intro hn
  obtain ⟨j, hj, hs⟩ := worker_begins (r := r.machine) hp hf'.writers hf'.begins (n := n) hc
  have run : ∀ m, j ≤ m → ((r.machine.at_ m).p.a o).worker = .running := fun m hm => by
    cases e : ((r.machine.at_ m).p.a o).worker with
    | running => rfl
    | starting => exact absurd e (worker_stays hs m hm)
    | stopped => exact absurd ⟨m, by omega, e⟩ hn
  have hcj := forever_async r.machine hj hc
  have pinv := pexec_inv (gexec_prog (gforever_exec r j))
  have ai := aexec_inv (pinv.proj o cfg hcj) (pinv.sound (hp j) o)
  obtain ⟨u, hu⟩ := hcl
  have hcc : ((r.at_ j).m.p.a o).chanClosed = true := by
    refine (aexec_closeinv (pinv.proj o cfg hcj)).none u ?_
    obtain ⟨l, e⟩ := gtrace_add r n hj
    rw [e, programOf_append, outLabs_append]
    exact List.mem_append_left _ hu
  have hnone := ai.request (.inr (.inr hcc))
  rw [ai.queue] at hnone
  rcases List.mem_append.mp hnone with k | k
  · exact ai.running (run j (Nat.le_refl _)) k
  · obtain ⟨x, y, e⟩ := List.append_of_mem k
    exact worker_stops (r := r.machine) hp hf'.writers hf'.takes x hcj run e

/-- Nothing is given to a writer whose worker has stopped. -/
theorem stopped_idle {n o : Nat} {cfg : ACfg V} (hc : (r.at_ n).m.p.w.asyncOf env o = some cfg) (hst : ((r.at_ n).m.p.a o).worker = .stopped) (hj : ((r.at_ n).m.wr o).job = none) :
    ∀ m, n ≤ m → ((r.at_ m).m.p.a o).worker = .stopped ∧ ((r.at_ m).m.wr o).job = none := by
  intro m hm
  induction hm with
  | refl => exact ⟨hst, hj⟩
  | @step m hm ih =>
    obtain ⟨h1, h2⟩ := ih
    have st := r.machine.step m
    cases e : r.machine.lab m with
    | none =>
      rw [e] at st
      have st : (r.at_ (m + 1)).m = (r.at_ m).m := st
      rw [st]; exact ⟨h1, h2⟩
    | some l =>
      rw [e] at st
      have st : MStep env host (r.at_ m).m l (r.at_ (m + 1)).m := st
      have hs := stays_stopped (mexec_run (MExec.nil.snoc st)) o h1
      refine ⟨hs.1, ?_⟩
      have hc1 := forever_async r.machine (show n ≤ m from hm) hc
      have hc2 := forever_async r.machine (show n ≤ m + 1 from Nat.le_succ_of_le hm) hc
      have hc1 : (r.at_ m).m.p.w.asyncOf env o = some cfg := hc1
      have hc2 : (r.at_ (m + 1)).m.p.w.asyncOf env o = some cfg := hc2
      have hg : (r.at_ (m + 1)).m.p.given env o = (r.at_ m).m.p.given env o := by unfold PState.given; rw [hc1, hc2]; exact hs.2
      generalize (r.at_ (m + 1)).m = b at st hg ⊢
      generalize (r.at_ m).m = a at st hg h2
      cases st with
      | prog _ _ _ => exact h2
      | @write l p q c bs _ _ _ k _ _ =>
        by_cases eq : o = q
        · subst eq
          have hg : p.given env o = a.p.given env o := hg
          rw [k] at hg
          simp at hg
        · simpa [Machine.setWr, eq] using h2
      | @sys q c msg op k x v' h' _ _ k1 _ =>
        by_cases eq : o = q
        · subst eq; rw [h2] at k1; cases k1
        · simpa [Machine.setWr, eq] using h2
      | @done q c msg res rw' _ _ k1 =>
        by_cases eq : o = q
        · subst eq; rw [h2] at k1; cases k1
        · simpa [Machine.setWr, eq] using h2

end

theorem of_async {w : World} (inv : WInv w) {o : Nat} {cfg : ACfg V} (h : w.asyncOf env o = some cfg) : AsyncOut env w o cfg := by
  obtain ⟨_, hq, hb, _⟩ := asyncOf_cfg inv h
  unfold World.asyncOf at h
  split at h
  · cases h
  · rename_i ob ho
    split at h
    · rename_i t q b hk
      cases h
      simp only at hq hb
      exact ⟨ob, q, b, ho, .inl hk, by simp only; omega, by simp only; omega, rfl⟩
    · rename_i c t q b hk
      cases h
      simp only at hq hb
      exact ⟨ob, q, b, ho, .inr ⟨_, hk⟩, by simp only; omega, by simp only; omega, rfl⟩
    · cases h

/-! ## Programs after which nothing happens any more -/

theorem gexec_states {s0 s : Signalled V} {tr : List (GLab V)} (h : GExec env host me s0 tr s) :
    ∃ f : Nat → Signalled V, f 0 = s0 ∧ (∀ i l, tr[i]? = some l → GStep env host me (f i) l (f (i + 1))) ∧ ∀ i, tr.length ≤ i → f i = s := by
  induction h with
  | nil => exact ⟨fun _ => _, rfl, by simp, fun _ _ => rfl⟩
  | @snoc tr m1 l m2 h1 h2 ih =>
    obtain ⟨f, f0, f1, f2⟩ := ih
    refine ⟨fun i => if i ≤ tr.length then f i else m2, by simp [f0], fun i x hx => ?_, fun i hi => ?_⟩
    · by_cases hi : i < tr.length
      · rw [List.getElem?_append_left hi] at hx
        have := f1 i x hx
        simp only
        rw [if_pos (by omega), if_pos (by omega)]; exact this
      · rw [List.getElem?_append_right (by omega)] at hx
        have : i = tr.length := by
          have := (List.getElem?_eq_some_iff.mp hx).1
          simp at this; omega
        subst this
        simp at hx; subst hx
        simp only [Nat.le_refl, if_true]
        rw [if_neg (by omega), f2 _ (Nat.le_refl _)]
        exact h2
    · simp at hi
      simp only
      rw [if_neg (by omega)]

theorem gexec_forever {s0 s : Signalled V} {tr : List (GLab V)} (h : GExec env host me s0 tr s) :
    ∃ r : GForever env host me s0, (∀ i, r.lab i = tr[i]?) ∧ (∀ n, r.trace n = tr.take n) ∧ ∀ i, tr.length ≤ i → r.at_ i = s := by
  obtain ⟨f, f0, f1, f2⟩ := gexec_states h
  refine ⟨⟨f, fun i => tr[i]?, f0, fun n => ?_⟩, fun _ => rfl, fun n => ?_, f2⟩
  · cases e : tr[n]? with
    | some l => exact f1 n l e
    | none =>
      have := List.getElem?_eq_none_iff.mp e
      simp only
      rw [f2 _ this, f2 _ (by omega)]
  · induction n with
    | zero => rfl
    | succ n ih =>
      show _ ++ (tr[n]?).toList = _
      rw [ih, List.take_add_one]

/-- A program that has come to rest, whose library has called `Close`, is fair to the library. -/
theorem rest_library {s : Signalled V} {mtr : List (MLab V)} (h : MExec env host (newMachine up v0) mtr s.m) (hr : AtRest env s.m) (hpc : s.pc = .closes)
    {r : GForever env host me (newSignalled up v0)} {N : Nat} (he : ∀ i, N ≤ i → r.at_ i = s) : r.fairToLibrary := by
  have hf : r.machine.fairTo me := rest_fair (r := r.machine) h hr (N := N) (fun i hi => by show (r.at_ i).m = _; rw [he i hi]) me
  refine ⟨fun ho => ?_, fun ho => ?_, fair_machine hf.goroutine, fun o => fair_machine (hf.begins o), fun o => fair_machine (hf.takes o), fun o => fair_machine (hf.writers o)⟩
  · obtain ⟨i, h1, l, s', rfl, h3⟩ := ho N
    rw [he i h1] at h3
    cases h3 with
    | receive _ _ k => rw [hpc] at k; cases k
  · obtain ⟨i, h1, l, s', ⟨os, rfl⟩, h3⟩ := ho N
    rw [he i h1] at h3
    cases h3 with
    | close k _ => rw [hpc] at k; cases k
    | step _ k => exact (k _ (.inl rfl) rfl).elim

end Log4g
