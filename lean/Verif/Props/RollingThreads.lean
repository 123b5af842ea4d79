import Verif.Lemmas.RollThreads
import Verif.Props.Rolling

/-! # Properties of concurrent writes to a rolling writer -/

namespace Log4g
open Spec

variable {umask : Nat} {lib : RLib} {c : RCfg}

/-- C65.  At every moment of every execution of any number of goroutines writing to one rolling writer, there is an
order of the calls, in which each takes effect after it is made and before it returns, and the disk is what the same
calls leave there when they are made in this order, one after the other, with the same results; but for one call that
may have been made and be on its way. -/
theorem C65_serialised {d0 : Disk} {prog : Nat → List Bytes} {tr : List RLab} {s : RState} (h : RExec umask lib c (newThreads d0 prog) tr s) :
    (∀ t, starts t tr <+: prog t ∧ (effectsOf t tr).map (·.1) <+: starts t tr ∧ returns t tr <+: effectsOf t tr) ∧
    ∃ tr0 tr1 d rw, sysCalls tr = tr0 ++ tr1 ∧ Later umask lib c d0 {} ((effects tr).map (·.2.1)) tr0 ((effects tr).map (·.2.2)) d rw ∧
      ((tr1 = [] ∧ s.disk = d) ∨ ∃ t m, starts t tr = (effectsOf t tr).map (·.1) ++ [m] ∧ Stops umask (c.write lib rw m) d tr1 s.disk) := by
  have hi := threads_inv h
  refine ⟨fun t => ⟨⟨_, hi.todo t⟩, ⟨_, (hi.pending t).symm⟩, ⟨_, (hi.left t).symm⟩⟩, ?_⟩
  cases hl : s.lock with
  | none => exact ⟨_, [], s.disk, s.rw, by simp, hi.free hl, .inl ⟨rfl, rfl⟩⟩
  | some t =>
    obtain ⟨m, p, hp⟩ := hi.held t hl
    obtain ⟨tr0, tr1, d, e, h1, h2⟩ := hi.busy t m p hp
    refine ⟨tr0, tr1, d, s.rw, e, h1, .inr ⟨t, m, ?_, h2.stops⟩⟩
    have := hi.pending t
    simpa [RThread.waiting, hp] using this

/-- C65.  When all calls have returned, the disk is what the calls leave there when they are made one after the other in
some order that each goroutine's calls have in common with its own order, and the goroutines have got the same
results. -/
theorem C65_quiescent {d0 : Disk} {prog : Nat → List Bytes} {tr : List RLab} {s : RState} (h : RExec umask lib c (newThreads d0 prog) tr s)
    (hq : ∀ t, (returns t tr).map (·.1) = starts t tr) :
    ∃ (order : List (Nat × Bytes × (Nat × Bool))) (rw : RW), (∀ t, (order.filter fun x => x.1 = t).map (·.2) = returns t tr) ∧
      Later umask lib c d0 {} (order.map (·.2.1)) (sysCalls tr) (order.map (·.2.2)) s.disk rw := by
  have hi := threads_inv h
  have hnone : ∀ t, (s.th t).waiting = [] ∧ (s.th t).left = [] := by
    intro t
    have h1 := hi.pending t
    rw [hi.left t, ← hq t] at h1
    have := congrArg List.length h1
    simp only [List.length_map, List.length_append] at this
    exact ⟨List.eq_nil_of_length_eq_zero (by omega), List.eq_nil_of_length_eq_zero (by omega)⟩
  have hl : s.lock = none := by
    cases hl : s.lock with
    | none => rfl
    | some t =>
      obtain ⟨m, p, hp⟩ := hi.held t hl
      have := (hnone t).1
      simp [RThread.waiting, hp] at this
  refine ⟨effects tr, s.rw, fun t => ?_, hi.free hl⟩
  have := hi.left t
  rw [(hnone t).2, List.append_nil] at this
  exact this

/-- C65.  The log directory is gap-free at every moment of every concurrent execution, also when the process dies
there. -/
theorem C65_gap_free {max : Int} (hk : c.kind = .size max) {d0 : Disk} {hs0 : List Str} (hb : Backups lib c d0.dir hs0) {B : Int} (hB : 0 ≤ B)
    (hnum : ∀ n ∈ hs0, ∀ v, Backup lib c n v → v ≤ B) {prog : Nat → List Bytes} {tr : List RLab} {s : RState} (h : RExec umask lib c (newThreads d0 prog) tr s)
    (hrm : RemovesOk (sysCalls tr)) (hnr : B + rolls (sysCalls tr) < 2 ^ 63) : GapFree lib c (files c d0.dir hs0) (sysCalls tr) s.disk.dir := by
  obtain ⟨_, tr0, tr1, d, rw, e, hl, h2⟩ := C65_serialised h
  rw [e] at hrm hnr ⊢
  rcases h2 with ⟨rfl, rfl⟩ | ⟨_, _, _, h2⟩
  · rw [List.append_nil] at hrm hnr ⊢
    exact C54_size_rolling_gap_free hk hb hB hnum (later_life hl) hrm hnr
  · exact C54_size_rolling_gap_free hk hb hB hnum (.crash (later_life hl) h2) hrm hnr

/-- C65.  No deadlock: at every moment of every execution, a call that has been made can return, without any further
call being made. -/
theorem C65_no_deadlock {d0 : Disk} {prog : Nat → List Bytes} {tr : List RLab} {s : RState} (h : RExec umask lib c (newThreads d0 prog) tr s) (t : Nat) :
    ∃ tr' s', RExec umask lib c s tr' s' ∧ (∀ u, starts u (tr ++ tr') = starts u tr) ∧ (returns t (tr ++ tr')).map (·.1) = starts t tr := by
  -- the owner of the lock, if any, gives it back
  have step1 : ∃ tr1 s1, RExec umask lib c s tr1 s1 ∧ (∀ u, starts u tr1 = []) ∧ s1.lock = none := by
    have hi := threads_inv h
    cases hl : s.lock with
    | none => exact ⟨[], s, .nil, fun _ => rfl, hl⟩
    | some u =>
      obtain ⟨m, p, hp⟩ := hi.held u hl
      obtain ⟨tr0, tr1, d, _, h1, h2⟩ := hi.busy u m p hp
      obtain ⟨tr2, ⟨res, rw'⟩, d', hr⟩ := (h2.safe (safe_write (session_knows (later_session h1)) m)).runs
      have ht : s.th u = { pc := .inside m p, todo := (s.th u).todo } := by rw [← hp]
      refine ⟨_, _, exec_inside hr ht rfl, fun v => ?_, rfl⟩
      rw [starts_append]
      simp only [starts, List.append_nil]
      clear hr
      induction tr2 with
      | nil => rfl
      | cons x tr2 ih => exact ih
  obtain ⟨tr1, s1, hx1, hst1, hl1⟩ := step1
  have h1 := h.trans hx1
  have hi1 := threads_inv h1
  -- goroutine `t` returns if it is behind the lock
  have back : ∀ {tr2 : List RLab} {s2 : RState}, RExec umask lib c (newThreads d0 prog) tr2 s2 → (s2.th t).waiting = [] →
      ∃ tr3 s3, RExec umask lib c s2 tr3 s3 ∧ (∀ u, starts u tr3 = []) ∧ (returns t (tr2 ++ tr3)).map (·.1) = starts t tr2 := by
    intro tr2 s2 hx hw
    have hi2 := threads_inv hx
    have hp := hi2.pending t
    rw [hw, hi2.left t, List.append_nil] at hp
    cases hpc : (s2.th t).pc with
    | idle =>
      refine ⟨[], s2, .nil, fun _ => rfl, ?_⟩
      rw [hp]; simp [RThread.left, hpc]
    | locking m => simp [RThread.waiting, hpc] at hw
    | inside m p => simp [RThread.waiting, hpc] at hw
    | leaving m res =>
      have ht : s2.th t = { pc := .leaving m res, todo := (s2.th t).todo } := by rw [← hpc]
      refine ⟨[.ret t m res], _, .snoc (tr := []) .nil (.ret ht), fun _ => rfl, ?_⟩
      rw [hp, returns_append]
      simp [RThread.left, hpc, returns]
  have fin : ∀ {tr2 : List RLab} {s2 : RState}, RExec umask lib c s tr2 s2 → (∀ u, starts u tr2 = []) → (s2.th t).waiting = [] →
      ∃ tr' s', RExec umask lib c s tr' s' ∧ (∀ u, starts u (tr ++ tr') = starts u tr) ∧ (returns t (tr ++ tr')).map (·.1) = starts t tr := by
    intro tr2 s2 hx hst hw
    obtain ⟨tr3, s3, hx3, hst3, hr3⟩ := back (h.trans hx) hw
    refine ⟨tr2 ++ tr3, s3, hx.trans hx3, fun u => by rw [starts_append, starts_append, hst u, hst3 u]; simp, ?_⟩
    rw [← List.append_assoc, hr3, starts_append, hst t, List.append_nil]
  cases hpc : (s1.th t).pc with
  | idle => exact fin hx1 hst1 (by simp [RThread.waiting, hpc])
  | leaving m res => exact fin hx1 hst1 (by simp [RThread.waiting, hpc])
  | inside m p =>
    have := hi1.owner t ⟨m, p, hpc⟩
    rw [hl1] at this
    cases this
  | locking m =>
    obtain ⟨tr2, ⟨res, rw'⟩, d', hr⟩ := (safe_write (lib := lib) (umask := umask) (session_knows (later_session (hi1.free hl1))) m).runs
    have ht : s1.th t = { pc := .locking m, todo := (s1.th t).todo } := by rw [← hpc]
    refine fin (hx1.trans (exec_locking hr ht hl1)) (fun u => ?_) (by simp [RThread.waiting, RState.set])
    rw [starts_append, hst1 u, List.nil_append, starts_append]
    simp only [starts, List.append_nil]
    clear hr
    induction tr2 with
    | nil => rfl
    | cons x tr2 ih => exact ih

/-! ## A concrete execution: goroutine 0 calls `Write` first, but goroutine 1 gets the lock first; the second write rolls -/

def thProg : Nat → List Bytes
  | 0 => [[2]]
  | 1 => [[3, 3]]
  | _ => []

def thWrite1 : SimWrite 0o022 demoRLib demoRCfg (fun _ => (false, 0)) [3, 3] {} demoDisk0 := simWrite _ _ _ _ _ _ _ (by decide +kernel)
def thWrite2 : SimWrite 0o022 demoRLib demoRCfg (fun _ => (false, 0)) [2] thWrite1.rw' thWrite1.L' := simWrite _ _ _ _ _ _ _ (by decide +kernel)

/-- What is observed of it. -/
def thTrace : List RLab :=
  [.start 0 [2], .start 1 [3, 3]] ++ (.locked 1 :: thWrite1.tr.map .sys ++ [.effect 1 [3, 3] thWrite1.res]) ++
    (.locked 0 :: thWrite2.tr.map .sys ++ [.effect 0 [2] thWrite2.res]) ++ [.ret 0 [2] thWrite2.res, .ret 1 [3, 3] thWrite1.res]

theorem thExec : ∃ s, RExec 0o022 demoRLib demoRCfg (newThreads demoDisk0.disk thProg) thTrace s ∧ s.disk = thWrite2.L'.disk := by
  have h1 : RExec 0o022 demoRLib demoRCfg (newThreads demoDisk0.disk thProg) ([] ++ [.start 0 [2]] ++ [.start 1 [3, 3]]) _ :=
    .snoc (.snoc .nil (.start (t := 0) (ms := []) rfl)) (.start (t := 1) (ms := []) rfl)
  have h2 := h1.trans (exec_locking (t := 1) (m := [3, 3]) (ms := []) thWrite1.runs rfl rfl)
  have h3 := h2.trans (exec_locking (t := 0) (m := [2]) (ms := []) thWrite2.runs rfl rfl)
  have h4 := RExec.snoc h3 (.ret (t := 0) (m := [2]) (ms := []) rfl)
  have h5 := RExec.snoc h4 (.ret (t := 1) (m := [3, 3]) (ms := []) rfl)
  exact ⟨_, by simpa [thTrace] using h5, rfl⟩

theorem thTrace_calls : sysCalls thTrace = thWrite1.tr ++ thWrite2.tr := by
  have key : ∀ tr : STrace, sysCalls (tr.map .sys) = tr := by
    intro tr
    induction tr with
    | nil => rfl
    | cons x tr ih => simp [sysCalls, ih]
  simp [thTrace, sysCalls, sysCalls_append, key]

theorem thTrace_done : (∀ t, starts t thTrace = thProg t) ∧ ∀ t, (returns t thTrace).map (·.1) = starts t thTrace := by
  have key : ∀ (t : Nat) (tr : STrace), starts t (tr.map .sys) = [] ∧ returns t (tr.map .sys) = [] := by
    intro t tr
    induction tr with
    | nil => exact ⟨rfl, rfl⟩
    | cons x tr ih => exact ih
  refine ⟨fun t => ?_, fun t => ?_⟩ <;>
  simp only [thTrace, starts_append, returns_append, List.cons_append, List.nil_append, starts, returns, (key t _).1, (key t _).2] <;>
  rcases t with _ | _ | t <;> simp [thProg]

/- The hypotheses of `C65_serialised`, `C65_quiescent`, `C65_gap_free` and `C65_no_deadlock` hold of it. -/
example : ∃ s, RExec 0o022 demoRLib demoRCfg (newThreads demoDisk0.disk thProg) thTrace s ∧ (∀ t, (returns t thTrace).map (·.1) = starts t thTrace) ∧
    effects thTrace = [(1, [3, 3], (2, true)), (0, [2], (1, true))] ∧ rolls (sysCalls thTrace) = 1 ∧ RemovesOk (sysCalls thTrace) ∧
    s.disk.dir c!"log" = some (.file [2] 0o600) ∧ s.disk.dir c!"log.8" = some (.file [1, 3, 3] 0o500) := by
  obtain ⟨s, h, hd⟩ := thExec
  have key : ∀ (t : Nat) (tr : STrace), starts t (tr.map .sys) = [] ∧ returns t (tr.map .sys) = [] ∧ effects (tr.map .sys) = [] := by
    intro t tr
    induction tr with
    | nil => exact ⟨rfl, rfl, rfl⟩
    | cons x tr ih => exact ih
  refine ⟨s, h, fun t => ?_, ?_, ?_, ?_, ?_, ?_⟩
  · simp only [thTrace, starts_append, returns_append, List.cons_append, List.nil_append, starts, returns, (key t _).1, (key t _).2.1]
    by_cases h0 : 0 = t
    · subst h0; simp
    · by_cases h1 : 1 = t
      · subst h1; simp
      · simp [h0, h1]
  · simp only [thTrace, effects_append, List.cons_append, List.nil_append, effects, (key 0 _).2.2]
    decide +kernel
  · rw [thTrace_calls]; decide +kernel
  · rw [thTrace_calls]; exact removesOkB_ok (by decide +kernel)
  · rw [hd]; decide +kernel
  · rw [hd]; decide +kernel

end Log4g
