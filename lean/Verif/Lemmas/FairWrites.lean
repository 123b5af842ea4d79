import Verif.Lemmas.SystemOrder
import Verif.Lemmas.FairCalls

/-! # Programs that go on for ever: what is logged is written -/

namespace Log4g
open Spec Strconv
open scoped List
variable {V : Type} {env : PEnv V} {host : Host} {up : Nat → Bool} {v0 : Nat → Volume} {r : Forever env host (newMachine up v0)}

/-- Only the worker fills and empties the buffer. -/
theorem num_act {cfg : ACfg V} {s s' : AState V} {l : ALab V} (h : AAct cfg s l s') (h1 : l ≠ .tick) (h2 : ∀ e, l ≠ .took e) : s'.currNum = s.currNum := by
  cases h with
  | tick _ => exact absurd rfl h1
  | takeEvent _ _ _ => exact absurd rfl (h2 _)
  | takeIgnored _ _ _ _ => exact absurd rfl (h2 _)
  | takeNil _ _ => exact absurd rfl (h2 _)
  | takeClosed _ _ _ => exact absurd rfl (h2 _)
  | _ => rfl

theorem num_step {s s' : PState V} {l : PLab V} (h : PAct env s l s') {o : Nat} (h1 : l ≠ .out o .tick) (h2 : ∀ e, l ≠ .out o (.took e)) : (s'.a o).currNum = (s.a o).currNum := by
  cases h with
  | @enter t k p c rest cfg ht hc =>
    show ((s.setOut p ((s.a p).push t c)).a o).currNum = _
    rw [setOut_a]
    split
    · rename_i e; subst e; rfl
    · rfl
  | @out p l x cfg hc hx =>
    show ((s.setOut p x).a o).currNum = _
    rw [setOut_a]
    split
    · rename_i e; subst e
      exact num_act hx.2 (fun e => h1 (by rw [e])) (fun y e => h2 y (by rw [e]))
    · rfl
  | _ => rfl

theorem tick_step {s s' : PState V} {o : Nat} (h : PStep env s (.out o .tick) s') : (s'.a o).currNum = 0 := by
  cases h.2 with
  | @out _ _ x cfg hc hx =>
    show ((s.setOut o x).a o).currNum = _
    rw [setOut_a, if_pos rfl]
    cases hx.2 with
    | tick _ => rfl

/-- While its writer writes, a worker does nothing. -/
theorem num_moment (r : Forever env host (newMachine up v0)) {o n : Nat} (hj : ((r.at_ n).wr o).job ≠ none) : ((r.at_ (n + 1)).p.a o).currNum = ((r.at_ n).p.a o).currNum := by
  have st := r.step n
  cases e : r.lab n with
  | none => rw [e] at st; simp only at st; rw [st]
  | some x =>
    rw [e] at st
    simp only at st
    generalize r.at_ n = a at st hj ⊢
    generalize r.at_ (n + 1) = b at st ⊢
    cases st with
    | prog hs hl _ => exact num_step hs.2 (by rintro rfl; exact hj hl.2) (by rintro e rfl; exact hj hl.2)
    | write hs hl _ _ _ _ => exact num_step hs.2 (by rintro rfl; exact hj hl.2) (by rintro e rfl; exact hj hl.2)
    | sys _ _ _ _ => rfl
    | done _ _ _ => rfl

section
variable (hp : ∀ n, (r.at_ n).p.panicked = false) (hf : r.fairToWorkers)
include hp hf

/-- The worker of an output that is never closed begins, and goes on for ever. -/
theorem worker_runs {n o : Nat} {cfg : ACfg V} (hc : (r.at_ n).p.w.asyncOf env o = some cfg) (ho : ∀ m, Open o (progOf (r.trace m))) :
    ∃ n1, n ≤ n1 ∧ ∀ m, n1 ≤ m → ((r.at_ m).p.a o).worker = .running := by
  obtain ⟨n1, h1, h2⟩ := worker_begins hp hf.writers hf.begins hc
  refine ⟨n1, h1, fun m hm => ?_⟩
  have pi := pexec_inv (forever_prog r m)
  have hx := pi.proj o cfg (forever_async r (show n ≤ m by omega) hc)
  cases e : ((r.at_ m).p.a o).worker with
  | running => rfl
  | starting => exact absurd e (worker_stays h2 m hm)
  | stopped =>
    have ai := aexec_inv hx (pi.sound (hp m) o)
    obtain ⟨pre, k, _⟩ := ai.stopped e
    refine absurd ?_ (never_closed (fun u => (pi.opened o (ho m) u).2) hx).2.2.2.1
    rw [ai.queue, k]; simp

/-- Everything that has been queued is taken. -/
theorem all_taken {n o : Nat} {cfg : ACfg V} (hc : (r.at_ n).p.w.asyncOf env o = some cfg) (ho : ∀ m, Open o (progOf (r.trace m))) :
    ∃ m, n ≤ m ∧ (queuedOf (outLabs o (progOf (r.trace n)))).length ≤ (takenOf (outLabs o (progOf (r.trace m)))).length ∧ ∀ i, m ≤ i → ((r.at_ i).p.a o).worker = .running := by
  obtain ⟨n1, h1, h2⟩ := worker_runs hp hf hc ho
  have queue : ∀ m, n ≤ m → queuedOf (outLabs o (progOf (r.trace m))) = takenOf (outLabs o (progOf (r.trace m))) ++ ((r.at_ m).p.a o).chan := fun m hm => by
    have pi := pexec_inv (forever_prog r m)
    exact (aexec_inv (pi.proj o cfg (forever_async r hm hc)) (pi.sound (hp m) o)).queue
  have grows : ∀ {i j : Nat}, i ≤ j → (queuedOf (outLabs o (progOf (r.trace i)))).length ≤ (queuedOf (outLabs o (progOf (r.trace j)))).length := fun {i j} h => by
    obtain ⟨l, e⟩ := trace_add r i h
    rw [e, progOf_append, outLabs_append, queuedOf_append, List.length_append]; omega
  have taken_grows : ∀ {i j : Nat}, i ≤ j → (takenOf (outLabs o (progOf (r.trace i)))).length ≤ (takenOf (outLabs o (progOf (r.trace j)))).length := fun {i j} h => by
    obtain ⟨l, e⟩ := trace_add r i h
    rw [e, progOf_append, outLabs_append, takenOf_append, List.length_append]; omega
  have key : ∀ k, k ≤ (queuedOf (outLabs o (progOf (r.trace n)))).length → ∃ m, n1 ≤ m ∧ k ≤ (takenOf (outLabs o (progOf (r.trace m)))).length := by
    intro k
    induction k with
    | zero => exact fun _ => ⟨n1, Nat.le_refl _, Nat.zero_le _⟩
    | succ k ih =>
      intro hk
      obtain ⟨m, g1, g2⟩ := ih (by omega)
      have hq := congrArg List.length (queue m (by omega))
      rw [List.length_append] at hq
      cases hch : ((r.at_ m).p.a o).chan with
      | nil =>
        refine ⟨m, g1, ?_⟩
        have := grows (show n ≤ m by omega)
        rw [hch] at hq; simp at hq; omega
      | cons b y =>
        obtain ⟨m', y', e1, e2, e, e3⟩ := next_take hp hf.writers hf.takes (forever_async r (show n ≤ m by omega) hc) (fun i hi => h2 i (by omega)) (x := []) (by rw [hch]; rfl)
        refine ⟨m' + 1, by omega, ?_⟩
        have q1 := congrArg List.length (queue m' (by omega))
        have q2 := congrArg List.length (queue (m' + 1) (by omega))
        have q3 := grows (show m' ≤ m' + 1 by omega)
        have q4 := taken_grows (show m ≤ m' from e1)
        rw [List.length_append] at q1 q2
        rcases queue_step e3 (hp _) o with ⟨_, k⟩ | ⟨e', _, k | ⟨k, _⟩, _⟩
        · exact absurd rfl (k e)
        · rw [k, List.length_cons] at q1; omega
        · rw [e2] at k; simp at k
  obtain ⟨m, g1, g2⟩ := key _ (Nat.le_refl _)
  exact ⟨m, by omega, g2, fun i hi => h2 i (by omega)⟩

/-- Again and again there is a moment at which everything taken has been written, and nothing is being written. -/
theorem settles {n o : Nat} {cfg : ACfg V} (hc : (r.at_ n).p.w.asyncOf env o = some cfg) (hr : ∀ m, n ≤ m → ((r.at_ m).p.a o).worker = .running) :
    ∃ m, n ≤ m ∧ ((r.at_ m).p.a o).currNum = 0 ∧ ((r.at_ m).wr o).job = none := by
  have := hf.ticks o (often_from (n := n) fun k hk => by
    obtain ⟨m, h1, h2⟩ := job_often hp (hf.writers o) k
    have hs : PStep env (r.at_ m).p (.out o .tick) _ := ⟨hp m, .out (forever_async r (by omega) hc) ⟨(pexec_inv (forever_prog r m)).sound (hp m) o, .tick (hr m (by omega))⟩⟩
    obtain ⟨x, m', g1, g2⟩ := enabled_step (forever_exec r m) hs ⟨fun t ht => (by cases ht), h2⟩ (by simp)
    exact ⟨m, h1, x, m', g1, g2⟩)
  obtain ⟨m, h1, x, h2, h3⟩ := this n
  have st := r.step m
  rw [h2] at st
  rcases mstep_prog st with ⟨l, k1, k2⟩ | ⟨k, _⟩
  · rw [h3] at k1; cases k1
    have h0 := tick_step k2
    obtain ⟨j, j1, j2, j3⟩ := first_time (job_often hp (hf.writers o) (m + 1))
    refine ⟨j, by omega, ?_, j2⟩
    have still : ∀ i, m + 1 ≤ i → i ≤ j → ((r.at_ i).p.a o).currNum = 0 := by
      intro i hi hij
      induction hi with
      | refl => exact h0
      | @step i hi ih => rw [num_moment r (j3 i hi (by omega))]; exact ih (by omega)
    exact still j j1 (Nat.le_refl _)
  · rw [h3] at k; cases k

end

/-- What has been written when everything taken has been written. -/
theorem settled_pairs {cfg : ACfg V} {f : Formatter V} (hf : cfg.f = some f) {prog : Nat → List (ACall V)} {al : List (ALab V)} {s : AState V}
    (h : AExec cfg (newAsync prog) al s) (h0 : s.currNum = 0) : ∃ (gs : List (List (Event V))) (written waiting : List (Nat × Event V)), pairsOf al = written ++ waiting ∧ s.writes = gs.map (·.flatMap f) ∧
      gs.flatten = accepted cfg.t (written.map (·.2)) ∧ written.length = (eventsOf (takenOf al)).length := by
  obtain ⟨hq, hsz⟩ := queue_always hf h
  obtain ⟨gs, b, bi⟩ := aexec_binv hf h
  have hev : (pairsOf al).map (·.2) = eventsOf (takenOf al) ++ eventsOf s.chan := by rw [pairs_events, hq, eventsOf_append]
  obtain ⟨p1, p2, e1, e2, e3⟩ := List.map_eq_append_iff.mp hev
  have hb : b = [] := List.length_eq_zero_iff.mp (by rw [← bi.num]; exact h0)
  refine ⟨gs, p1, p2, e1, bi.groups, ?_, by rw [← e2, List.length_map]⟩
  rw [e2, bi.split, hb, List.append_nil]

theorem all_events {xs : List (Option (Event V))} (h : none ∉ xs) : (eventsOf xs).length = xs.length := by
  obtain ⟨es, rfl⟩ := all_some xs h
  simp [eventsOf]

section
variable (hp : ∀ n, (r.at_ n).p.panicked = false) (hf : r.fairToWorkers)
include hp hf

/-- Everything logged is written. -/
theorem all_written {n o : Nat} {cfg : ACfg V} (hc : (r.at_ n).p.w.asyncOf env o = some cfg) (ho : ∀ m, Open o (progOf (r.trace m))) :
    ∃ m f, ∃ (gs : List (List (Event V))) (written : List (Nat × Event V)), n ≤ m ∧ ((r.at_ m).wr o).job = none ∧ cfg.f = some f ∧ ((r.at_ m).p.a o).writes = gs.map (·.flatMap f) ∧ gs.flatten = accepted cfg.t (written.map (·.2)) ∧
      InTime o (progOf (r.trace m)) written ∧ ∀ t, shareOf t written <+: sentBy t o (progOf (r.trace m)) ∧ (Returned t (progOf (r.trace n)) → sentBy t o (progOf (r.trace n)) <+: shareOf t written) := by
  obtain ⟨f, hfm⟩ := (asyncOf_cfg (pexec_inv (forever_prog r n)).world hc).1
  obtain ⟨n1, h1, h2, h3⟩ := all_taken hp hf hc ho
  obtain ⟨m, h4, h5, h6⟩ := settles hp hf (forever_async r h1 hc) h3
  have hm : n ≤ m := by omega
  have hcm := forever_async r hm hc
  have pi := pexec_inv (forever_prog r m)
  have hx := pi.proj o cfg hcm
  obtain ⟨gs, written, waiting, e1, e2, e3, e4⟩ := settled_pairs hfm hx h5
  obtain ⟨_, _, _, hnone, _⟩ := never_closed (fun u => (pi.opened o (ho m) u).2) hx
  have hnt : none ∉ takenOf (outLabs o (progOf (r.trace m))) := fun k => hnone (by rw [(aexec_inv hx (pi.sound (hp m) o)).queue]; exact List.mem_append_left _ k)
  rw [all_events hnt] at e4
  have hti := async_inTime (forever_prog r m) hcm
  rw [e1] at hti
  refine ⟨m, f, gs, written, hm, h6, hfm, e2, e3, inTime_prefix hti, fun t => ⟨?_, fun hr => ?_⟩⟩
  · obtain ⟨rest, e⟩ := (all_queued (forever_prog r m) hcm (ho m) t).1
    rw [e1, shareOf_append, List.append_assoc] at e
    exact ⟨_, e⟩
  · obtain ⟨l, el⟩ := trace_add r n hm
    have hq : pairsOf (outLabs o (progOf (r.trace n))) <+: written := by
      have h7 : pairsOf (outLabs o (progOf (r.trace n))) <+: written ++ waiting := by
        rw [← e1, el, progOf_append, outLabs_append, pairsOf_append]
        exact List.prefix_append _ _
      refine List.prefix_of_prefix_length_le h7 (List.prefix_append _ _) ?_
      obtain ⟨l2, el2⟩ := trace_add r n1 h4
      have t1 : (takenOf (outLabs o (progOf (r.trace n1)))).length ≤ (takenOf (outLabs o (progOf (r.trace m)))).length := by
        rw [el2, progOf_append, outLabs_append, takenOf_append, List.length_append]; omega
      have t2 : (pairsOf (outLabs o (progOf (r.trace n)))).length ≤ (queuedOf (outLabs o (progOf (r.trace n)))).length := by
        rw [← List.length_map (f := (·.2)), pairs_events]
        exact List.length_filterMap_le _ _
      omega
    rw [(all_queued (forever_prog r n) hc (ho n) t).2 hr |>.symm]
    obtain ⟨z, hz⟩ := hq
    rw [← hz, shareOf_append]
    exact List.prefix_append _ _

end

end Log4g
