import Verif.Spec.RollThreads
import Verif.Lemmas.RollKeep

/-! # Lemmas about concurrent writes to a rolling writer -/

namespace Log4g
open Spec

variable {umask : Nat} {lib : RLib} {c : RCfg}

theorem starts_append (t : Nat) (a b : List RLab) : starts t (a ++ b) = starts t a ++ starts t b := by
  induction a with
  | nil => rfl
  | cons x a ih => cases x <;> simp [starts, ih]

theorem returns_append (t : Nat) (a b : List RLab) : returns t (a ++ b) = returns t a ++ returns t b := by
  induction a with
  | nil => rfl
  | cons x a ih => cases x <;> simp [returns, ih]

theorem effects_append (a b : List RLab) : effects (a ++ b) = effects a ++ effects b := by
  induction a with
  | nil => rfl
  | cons x a ih => cases x <;> simp [effects, ih]

theorem effectsOf_append (t : Nat) (a b : List RLab) : effectsOf t (a ++ b) = effectsOf t a ++ effectsOf t b := by
  simp [effectsOf, effects_append]

theorem sysCalls_append (a b : List RLab) : sysCalls (a ++ b) = sysCalls a ++ sysCalls b := by
  induction a with
  | nil => rfl
  | cons x a ih => cases x <;> simp [sysCalls, ih]

/-- `p`, started in `d`, gets by the calls `tr` to `d'` with `q` left to do. -/
inductive Reaches (umask : Nat) {α : Type} (p : Prog α) (d : Disk) : STrace → Prog α → Disk → Prop
  | here : Reaches umask p d [] p d
  | call {tr o k d' r d''} : Reaches umask p d tr (.call o k) d' → SysStep umask d' o r d'' → Reaches umask p d (tr ++ [⟨o, r⟩]) (k r) d''

theorem Reaches.runs {α : Type} {p q : Prog α} {d d' d'' : Disk} {tr tr' : STrace} {a : α} (h : Reaches umask p d tr q d') (hr : Runs umask q d' tr' a d'') :
    Runs umask p d (tr ++ tr') a d'' := by
  induction h generalizing tr' with
  | here => exact hr
  | call _ hs ih => rw [List.append_assoc]; exact ih (.call hs hr)

theorem Reaches.stops {α : Type} {p q : Prog α} {d d' : Disk} {tr : STrace} (h : Reaches umask p d tr q d') : Stops umask p d tr d' := by
  have key : ∀ {tr' d''}, Stops umask q d' tr' d'' → Stops umask p d (tr ++ tr') d'' := by
    induction h with
    | here => exact fun hr => hr
    | call _ hs ih => intro tr' d'' hr; rw [List.append_assoc]; exact ih (.call hs hr)
  simpa using key .here

/-- What is pending of goroutine `t`: called, without effect. -/
def RThread.waiting (x : RThread) : List Bytes :=
  match x.pc with
  | .locking m | .inside m _ => [m]
  | _ => []

/-- Done, not yet returned. -/
def RThread.left (x : RThread) : List (Bytes × (Nat × Bool)) :=
  match x.pc with
  | .leaving m res => [(m, res)]
  | _ => []

def RThread.isInside (x : RThread) : Prop := ∃ m p, x.pc = .inside m p

/-- The invariant. -/
structure ThInv (umask : Nat) (lib : RLib) (c : RCfg) (d0 : Disk) (prog : Nat → List Bytes) (tr : List RLab) (s : RState) : Prop where
  todo : ∀ t, starts t tr ++ (s.th t).todo = prog t
  pending : ∀ t, starts t tr = (effectsOf t tr).map (·.1) ++ (s.th t).waiting
  left : ∀ t, effectsOf t tr = returns t tr ++ (s.th t).left
  owner : ∀ t, (s.th t).isInside → s.lock = some t
  held : ∀ t, s.lock = some t → (s.th t).isInside
  free : s.lock = none → Later umask lib c d0 {} ((effects tr).map (·.2.1)) (sysCalls tr) ((effects tr).map (·.2.2)) s.disk s.rw
  busy : ∀ t m p, (s.th t).pc = .inside m p → ∃ tr0 tr1 d, sysCalls tr = tr0 ++ tr1 ∧
    Later umask lib c d0 {} ((effects tr).map (·.2.1)) tr0 ((effects tr).map (·.2.2)) d s.rw ∧ Reaches umask (c.write lib s.rw m) d tr1 p s.disk

theorem th_set (s : RState) (t u : Nat) (x : RThread) : (s.set t x).th u = if u = t then x else s.th u := rfl

theorem threads_inv {d0 : Disk} {prog : Nat → List Bytes} {tr : List RLab} {s : RState} (h : RExec umask lib c (newThreads d0 prog) tr s) :
    ThInv umask lib c d0 prog tr s := by
  generalize hs0 : newThreads d0 prog = s0 at h
  induction h with
  | nil =>
    subst hs0
    refine ⟨fun t => by simp [starts, newThreads], fun t => by simp [starts, effectsOf, effects, newThreads, RThread.waiting], fun t => by simp [effectsOf, effects, returns, newThreads, RThread.left], ?_, ?_, fun _ => ?_, ?_⟩
    · rintro t ⟨m, p, h⟩; simp [newThreads] at h
    · intro t h; simp [newThreads] at h
    · exact .start
    · intro t m p h; simp [newThreads] at h
  | @snoc tr s l s' _ hstep ih =>
    have ih := ih
    subst hs0
    cases hstep with
    | @start t m ms ht =>
      refine ⟨fun u => ?_, fun u => ?_, fun u => ?_, fun u => ?_, fun u hu => ?_, fun hl => ?_, fun u m' p hp => ?_⟩
      · rw [starts_append, th_set]
        have := ih.todo u
        split
        · rename_i e; subst e; rw [ht] at this; rw [← this]; simp [starts]
        · rename_i e; simp [starts, Ne.symm e, this]
      · rw [starts_append, effectsOf_append, th_set]
        have := ih.pending u
        split
        · rename_i e; subst e; rw [ht] at this; simp only [RThread.waiting, List.append_nil] at this
          simp [starts, effectsOf, effects, RThread.waiting] at *
          exact this
        · rename_i e
          simp [starts, Ne.symm e, effectsOf, effects] at *
          exact this
      · rw [effectsOf_append, returns_append, th_set]
        have := ih.left u
        split
        · rename_i e; subst e; rw [ht] at this
          simpa [effectsOf, effects, returns, RThread.left] using this
        · simpa [effectsOf, effects, returns] using this
      · rw [th_set]
        split
        · rintro ⟨m', p, h⟩; cases h
        · exact ih.owner u
      · have h1 := ih.held u hu
        rw [th_set]
        split
        · rename_i e; subst e
          obtain ⟨_, _, h1⟩ := h1
          rw [ht] at h1; cases h1
        · exact h1
      · rw [effects_append, sysCalls_append]; simp only [effects, sysCalls, List.append_nil]; exact ih.free hl
      · rw [th_set] at hp
        split at hp
        · cases hp
        · rw [effects_append, sysCalls_append]; simp only [effects, sysCalls, List.append_nil]; exact ih.busy u m' p hp
    | @locked t m ms ht hl =>
      refine ⟨fun u => ?_, fun u => ?_, fun u => ?_, fun u => ?_, fun u hu => ?_, fun hl' => ?_, fun u m' p hp => ?_⟩
      · rw [starts_append, th_set]
        have := ih.todo u
        split
        · rename_i e; subst e; rw [ht] at this; simpa [starts] using this
        · simpa [starts] using this
      · rw [starts_append, effectsOf_append, th_set]
        have := ih.pending u
        split
        · rename_i e; subst e; rw [ht] at this; simpa [starts, effectsOf, effects, RThread.waiting] using this
        · simpa [starts, effectsOf, effects] using this
      · rw [effectsOf_append, returns_append, th_set]
        have := ih.left u
        split
        · rename_i e; subst e; rw [ht] at this; simpa [effectsOf, effects, returns, RThread.left] using this
        · simpa [effectsOf, effects, returns] using this
      · rw [th_set]
        split
        · rename_i e; intro _; simp [RState.set, e]
        · intro hu; have := ih.owner u hu; rw [hl] at this; cases this
      · simp only [RState.set, Option.some.injEq] at hu
        subst hu
        exact ⟨m, c.write lib s.rw m, by simp [RState.set]⟩
      · simp [RState.set] at hl'
      · rw [th_set] at hp
        split at hp
        · cases hp
          rw [effects_append, sysCalls_append]; simp only [effects, sysCalls, List.append_nil]
          exact ⟨sysCalls tr, [], s.disk, by simp, ih.free hl, .here⟩
        · have := ih.owner u ⟨m', p, hp⟩; rw [hl] at this; cases this
    | @sys t m ms o k r d ht hstep =>
      have hlock := ih.owner t ⟨m, _, by rw [ht]⟩
      refine ⟨fun u => ?_, fun u => ?_, fun u => ?_, fun u => ?_, fun u hu => ?_, fun hl' => ?_, fun u m' p hp => ?_⟩
      · rw [starts_append, th_set]
        have := ih.todo u
        split
        · rename_i e; subst e; rw [ht] at this; simpa [starts] using this
        · simpa [starts] using this
      · rw [starts_append, effectsOf_append, th_set]
        have := ih.pending u
        split
        · rename_i e; subst e; rw [ht] at this; simpa [starts, effectsOf, effects, RThread.waiting] using this
        · simpa [starts, effectsOf, effects] using this
      · rw [effectsOf_append, returns_append, th_set]
        have := ih.left u
        split
        · rename_i e; subst e; rw [ht] at this; simpa [effectsOf, effects, returns, RThread.left] using this
        · simpa [effectsOf, effects, returns] using this
      · rw [th_set]
        split
        · rename_i e; intro _; subst e; exact hlock
        · exact ih.owner u
      · have h1 := ih.held u hu
        rw [th_set]
        split
        · exact ⟨m, k r, rfl⟩
        · exact h1
      · exact absurd (hlock.symm.trans hl') (by simp)
      · rw [th_set] at hp
        split at hp
        · cases hp
          obtain ⟨tr0, tr1, d1, e1, h1, h2⟩ := ih.busy t m _ (by rw [ht])
          rw [effects_append, sysCalls_append]; simp only [effects, sysCalls, List.append_nil]
          exact ⟨tr0, tr1 ++ [(⟨o, r⟩ : (o : Sys) × o.Resp)], d1, by rw [e1]; simp, h1, .call h2 hstep⟩
        · rename_i hne
          have := ih.owner u ⟨m', p, hp⟩
          rw [hlock] at this
          exact absurd (Option.some.inj this).symm hne
    | @effect t m ms res rw ht =>
      have hlock := ih.owner t ⟨m, _, by rw [ht]⟩
      refine ⟨fun u => ?_, fun u => ?_, fun u => ?_, fun u => ?_, fun u hu => ?_, fun _ => ?_, fun u m' p hp => ?_⟩
      · rw [starts_append, th_set]
        have := ih.todo u
        split
        · rename_i e; subst e; rw [ht] at this; simpa [starts] using this
        · simpa [starts] using this
      · rw [starts_append, effectsOf_append, th_set]
        have := ih.pending u
        split
        · rename_i e; subst e; rw [ht] at this; simpa [starts, effectsOf, effects, RThread.waiting] using this
        · rename_i e; simpa [starts, effectsOf, effects, Ne.symm e] using this
      · rw [effectsOf_append, returns_append, th_set]
        have := ih.left u
        split
        · rename_i e; subst e; rw [ht] at this; simpa [effectsOf, effects, returns, RThread.left] using this
        · rename_i e; simpa [effectsOf, effects, returns, Ne.symm e] using this
      · rw [th_set]
        split
        · rintro ⟨_, _, h⟩; cases h
        · rename_i hne
          intro hu
          have := ih.owner u hu
          rw [hlock] at this
          exact absurd (Option.some.inj this).symm hne
      · cases hu
      · obtain ⟨tr0, tr1, d1, e1, h1, h2⟩ := ih.busy t m _ (by rw [ht])
        rw [effects_append, sysCalls_append, e1]
        simp only [effects, sysCalls, List.append_nil, List.map_append, List.map_cons, List.map_nil]
        have hr := h2.runs .ret
        rw [List.append_nil] at hr
        exact .write h1 hr
      · rw [th_set] at hp
        split at hp
        · cases hp
        · rename_i hne
          have := ih.owner u ⟨m', p, hp⟩
          rw [hlock] at this
          exact absurd (Option.some.inj this).symm hne
    | @ret t m ms res ht =>
      refine ⟨fun u => ?_, fun u => ?_, fun u => ?_, fun u => ?_, fun u hu => ?_, fun hl => ?_, fun u m' p hp => ?_⟩
      · rw [starts_append, th_set]
        have := ih.todo u
        split
        · rename_i e; subst e; rw [ht] at this; simpa [starts] using this
        · simpa [starts] using this
      · rw [starts_append, effectsOf_append, th_set]
        have := ih.pending u
        split
        · rename_i e; subst e; rw [ht] at this; simpa [starts, effectsOf, effects, RThread.waiting] using this
        · simpa [starts, effectsOf, effects] using this
      · rw [effectsOf_append, returns_append, th_set]
        have := ih.left u
        split
        · rename_i e; subst e; rw [ht] at this; simpa [effectsOf, effects, returns, RThread.left] using this
        · rename_i e; simpa [effectsOf, effects, returns, Ne.symm e] using this
      · rw [th_set]
        split
        · rintro ⟨_, _, h⟩; cases h
        · exact ih.owner u
      · have h1 := ih.held u hu
        rw [th_set]
        split
        · rename_i e; subst e
          obtain ⟨_, _, h1⟩ := h1
          rw [ht] at h1; cases h1
        · exact h1
      · rw [effects_append, sysCalls_append]; simp only [effects, sysCalls, List.append_nil]; exact ih.free hl
      · rw [th_set] at hp
        split at hp
        · cases hp
        · rw [effects_append, sysCalls_append]; simp only [effects, sysCalls, List.append_nil]; exact ih.busy u m' p hp

/-- The writes of one writer are part of the life of a directory. -/
theorem later_life {d0 d : Disk} {ms : List Bytes} {tr : STrace} {rs : List (Nat × Bool)} {rw : RW} (h : Later umask lib c d0 {} ms tr rs d rw) :
    Life umask lib c d0 tr d rw := by
  induction h with
  | start => exact .start
  | write _ hr ih => exact .write ih hr

theorem later_session {d0 d : Disk} {ms : List Bytes} {tr : STrace} {rs : List (Nat × Bool)} {rw : RW} (h : Later umask lib c d0 {} ms tr rs d rw) :
    Session umask lib c d0 ms tr d rw := by
  induction h with
  | start => exact .start
  | write _ hr ih => exact .write ih hr

/-! ## The operating system always answers -/

/-- Whatever has been answered so far, the next call can be answered. -/
def Prog.Safe (umask : Nat) {α : Type} : Prog α → Disk → Prop
  | .ret _, _ => True
  | .call o k, d => (∃ r d', SysStep umask d o r d') ∧ ∀ r d', SysStep umask d o r d' → (k r).Safe umask d'

theorem Prog.Safe.bind {α β : Type} {p : Prog α} {f : α → Prog β} {d : Disk} (hp : p.Safe umask d) (hf : ∀ tr a d', Runs umask p d tr a d' → (f a).Safe umask d') :
    (p >>= f).Safe umask d := by
  show (p.bind f).Safe umask d
  induction p generalizing d with
  | ret a => exact hf [] a d .ret
  | call o k ih => exact ⟨hp.1, fun r d' hs => ih r (hp.2 r d' hs) fun tr a d'' hr => hf _ a d'' (.call hs hr)⟩

/-- Calls that can always be answered: all but writes to files. -/
def failable : Sys → Prop
  | .write _ _ => False
  | _ => True

theorem failable_answer {o : Sys} (h : failable o) (d : Disk) : ∃ r d', SysStep umask d o r d' := by
  cases o with
  | write n bs => exact h.elim
  | mkdirAll p => exact ⟨true, d, rfl⟩
  | openAppend n p => exact ⟨false, d, by simp [SysStep]⟩
  | stat n => exact ⟨none, d, by simp [SysStep]⟩
  | close n => exact ⟨true, d, rfl⟩
  | readdir => exact ⟨none, d, by simp [SysStep]⟩
  | rename a b => exact ⟨false, d, by simp [SysStep]⟩
  | chmod n p => exact ⟨false, d, by simp [SysStep]⟩
  | remove n => exact ⟨false, d, by simp [SysStep]⟩
  | now => exact ⟨0, d, rfl⟩
  | tmpCreate => exact ⟨false, d, by simp [SysStep]⟩
  | archRead => exact ⟨.failed, d, by simp [SysStep]⟩
  | rollRead n => exact ⟨none, d, by simp [SysStep]⟩
  | tmpEntry n bs => exact ⟨false, d, by simp [SysStep]⟩
  | tmpClose => exact ⟨true, d, rfl⟩
  | tmpRename to => exact ⟨false, d, by simp [SysStep]⟩
  | tmpRemove => exact ⟨false, d, by simp [SysStep]⟩

theorem Prog.All.safe {α : Type} {p : Prog α} (h : p.All failable) (d : Disk) : p.Safe umask d := by
  induction p generalizing d with
  | ret a => trivial
  | call o k ih => exact ⟨failable_answer h.1 d, fun r d' _ => ih r (h.2 r) d'⟩

theorem rollOp_failable {own : Str → Prop} (o : Sys) (h : rollOp own o) : failable o := by
  cases o <;> first | trivial | exact h.elim

theorem safe_put {rw : RW} {d : Disk} (hk : Knows c rw d) (bs : Bytes) : (RCfg.put rw bs).Safe umask d := by
  rw [RCfg.put]
  split
  · rename_i hf
    obtain ⟨hn, data, p, he, _⟩ := hk hf
    refine Prog.Safe.bind ⟨⟨(0, false), d.put rw.name (some (.file (data ++ bs.take 0) p)), ?_⟩, fun _ _ _ => trivial⟩ fun _ _ _ _ => trivial
    rw [hn]
    exact ⟨data, p, he, by simp, by simp, rfl⟩
  · trivial

theorem safe_append {rw : RW} {d : Disk} (hk : Knows c rw d) (bs : Bytes) : (c.append rw bs).Safe umask d := by
  rw [RCfg.append]
  split
  · rename_i hf
    refine Prog.Safe.bind (Prog.All.safe ((all_createFile c rw).mono fun o h => ?_) d) fun tr a d' hr => ?_
    · cases o <;> first | trivial | exact h.elim
    · obtain ⟨ok, rw1⟩ := a
      cases ok with
      | false => trivial
      | true => exact safe_put ((create_cases hf hr).2.2.2 rfl).2 bs
  · exact safe_put hk bs

/-- Every call a write makes can be answered. -/
theorem safe_write {rw : RW} {d : Disk} (hk : Knows c rw d) (bs : Bytes) : (c.write lib rw bs).Safe umask d := by
  rw [RCfg.write]
  refine Prog.Safe.bind (Prog.All.safe ((all_needsToRoll lib c rw).mono fun o h => by rw [h]; trivial) d) fun tr a d' hr => ?_
  obtain ⟨b, rw1⟩ := a
  obtain ⟨hd, _⟩ := runs_needsToRoll hr
  have hprop := Prog.Does.runs (does_needsToRoll lib c rw) hr
  have hk1 : Knows c rw1 d' := by
    intro hf
    rw [hprop.1] at hf
    obtain ⟨a, b⟩ := hk hf
    exact ⟨by rw [hprop.2.1, a], by rw [hprop.2.2.1, hd]; exact b⟩
  cases b with
  | false => exact safe_append hk1 bs
  | true =>
    refine Prog.Safe.bind (Prog.All.safe ((all_roll (own := fun _ => True) (fun _ => trivial) (fun _ _ _ => trivial) fun _ _ => trivial).mono rollOp_failable) d') fun tr2 a2 d2 hr2 => ?_
    obtain ⟨ok, rw2⟩ := a2
    cases ok with
    | false => trivial
    | true =>
      refine safe_append (fun hf => ?_) bs
      exact absurd hf (Prog.Does.runs (does_roll (own := fun _ => True) (lib := lib) (c := c) (rw := rw1) (fun _ => trivial) (fun _ _ _ => trivial) fun _ _ => trivial) hr2).1

theorem Reaches.safe {α : Type} {p q : Prog α} {d d' : Disk} {tr : STrace} (h : Reaches umask p d tr q d') (hp : p.Safe umask d) : q.Safe umask d' := by
  induction h with
  | here => exact hp
  | call _ hs ih => exact ih.2 _ _ hs

theorem Prog.Safe.runs {α : Type} {p : Prog α} {d : Disk} (h : p.Safe umask d) : ∃ tr a d', Runs umask p d tr a d' := by
  induction p generalizing d with
  | ret a => exact ⟨[], a, d, .ret⟩
  | call o k ih =>
    obtain ⟨⟨r, d', hs⟩, h2⟩ := h
    obtain ⟨tr, a, d'', hr⟩ := ih r (h2 r d' hs)
    exact ⟨_, a, d'', .call hs hr⟩

theorem step_stay {o : Sys} {r : o.Resp} {d d' : Disk} (h : SysStep umask d o r d') : ∃ r, SysStep umask d o r d := by
  cases o with
  | write n bs =>
    obtain ⟨data, p, e, _⟩ := h
    refine ⟨(0, false), data, p, e, Nat.zero_le _, (by simp), ?_⟩
    cases d
    simp only [Disk.put, List.take_zero, List.append_nil, Disk.mk.injEq, and_true]
    funext m
    split
    · rename_i hm; rw [hm]; exact e
    · rfl
  | mkdirAll p => exact ⟨true, rfl⟩
  | openAppend n p => exact ⟨false, by simp [SysStep]⟩
  | stat n => exact ⟨none, by simp [SysStep]⟩
  | close n => exact ⟨true, rfl⟩
  | readdir => exact ⟨none, by simp [SysStep]⟩
  | rename a b => exact ⟨false, by simp [SysStep]⟩
  | chmod n p => exact ⟨false, by simp [SysStep]⟩
  | remove n => exact ⟨false, by simp [SysStep]⟩
  | now => exact ⟨0, rfl⟩
  | tmpCreate => exact ⟨false, by simp [SysStep]⟩
  | archRead => exact ⟨.failed, by simp [SysStep]⟩
  | rollRead n => exact ⟨none, by simp [SysStep]⟩
  | tmpEntry n bs => exact ⟨false, by simp [SysStep]⟩
  | tmpClose => exact ⟨true, rfl⟩
  | tmpRename to => exact ⟨false, by simp [SysStep]⟩
  | tmpRemove => exact ⟨false, by simp [SysStep]⟩

/-- If all calls fail from now on, the disk stays as it is. -/
theorem Prog.Safe.stays {α : Type} {p : Prog α} {d : Disk} (h : p.Safe umask d) : ∃ tr a, Runs umask p d tr a d := by
  induction p with
  | ret a => exact ⟨[], a, .ret⟩
  | call o k ih =>
    obtain ⟨⟨_, _, hs⟩, h2⟩ := h
    obtain ⟨r, hs⟩ := step_stay hs
    obtain ⟨tr, a, hr⟩ := ih r (h2 r d hs)
    exact ⟨_, a, .call hs hr⟩

/-! ## Executions put together -/

theorem RExec.trans {s s' s'' : RState} {a b : List RLab} (h1 : RExec umask lib c s a s') (h2 : RExec umask lib c s' b s'') : RExec umask lib c s (a ++ b) s'' := by
  induction h2 with
  | nil => simpa using h1
  | snoc _ hs ih => rw [← List.append_assoc]; exact .snoc ih hs

theorem set_set (s : RState) (t : Nat) (x y : RThread) : (s.set t x).set t y = s.set t y := by
  simp only [RState.set]
  congr 1
  funext u
  split <;> rfl

/-- A goroutine inside runs to the end of its call. -/
theorem exec_inside {p : Prog ((Nat × Bool) × RW)} {d d' : Disk} {tr : STrace} {res : Nat × Bool} {rw' : RW} (hr : Runs umask p d tr (res, rw') d') {s : RState} {t : Nat} {m : Bytes} {ms : List Bytes}
    (ht : s.th t = { pc := .inside m p, todo := ms }) (hd : s.disk = d) :
    RExec umask lib c s (tr.map .sys ++ [.effect t m res]) (({ s with disk := d', rw := rw', lock := none } : RState).set t { pc := .leaving m res, todo := ms }) := by
  generalize ha : (res, rw') = a at hr
  induction hr generalizing s with
  | ret =>
    subst ha
    subst hd
    exact .snoc (tr := []) .nil (.effect ht)
  | @call o k d r d1 tr a d2 hs _ ih =>
    subst hd
    have h1 := ih (s := ({ s with disk := d1 } : RState).set t { pc := .inside m (k r), todo := ms }) (by simp [RState.set]) rfl ha
    have h2 : RExec umask lib c s [.sys ⟨o, r⟩] (({ s with disk := d1 } : RState).set t { pc := .inside m (k r), todo := ms }) := .snoc (tr := []) .nil (.sys ht hs)
    have h3 := h2.trans h1
    have e : (({ (({ s with disk := d1 } : RState).set t { pc := .inside m (k r), todo := ms }) with disk := d2, rw := rw', lock := none } : RState).set t { pc := .leaving m res, todo := ms }) =
        ({ s with disk := d2, rw := rw', lock := none } : RState).set t { pc := .leaving m res, todo := ms } := by
      simp only [RState.set]
      congr 1
      funext u
      split <;> rfl
    rw [e] at h3
    simpa using h3

/-- A goroutine at the lock gets it, when it is free, and runs to the end of its call. -/
theorem exec_locking {d' : Disk} {tr : STrace} {res : Nat × Bool} {rw' : RW} {s : RState} {t : Nat} {m : Bytes} {ms : List Bytes} (hr : Runs umask (c.write lib s.rw m) s.disk tr (res, rw') d')
    (ht : s.th t = { pc := .locking m, todo := ms }) (hl : s.lock = none) :
    RExec umask lib c s (.locked t :: tr.map .sys ++ [.effect t m res]) (({ s with disk := d', rw := rw', lock := none } : RState).set t { pc := .leaving m res, todo := ms }) := by
  have h1 : RExec umask lib c s [.locked t] _ := .snoc (tr := []) .nil (.locked ht hl)
  have h2 := h1.trans (exec_inside (t := t) (m := m) (ms := ms) hr (by simp [RState.set]) rfl)
  have e : (({ (({ s with lock := some t } : RState).set t { pc := .inside m (c.write lib s.rw m), todo := ms }) with disk := d', rw := rw', lock := none } : RState).set t { pc := .leaving m res, todo := ms }) =
      ({ s with disk := d', rw := rw', lock := none } : RState).set t { pc := .leaving m res, todo := ms } := by
    simp only [RState.set]
    congr 1
    funext u
    split <;> rfl
  rw [e] at h2
  exact h2

end Log4g
