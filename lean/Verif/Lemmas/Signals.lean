import Verif.Spec.Signals
import Verif.Lemmas.MachineLive
import Verif.Lemmas.SystemFacts
import Verif.Lemmas.SystemAfter
import Verif.Lemmas.SystemReturns
import Verif.Lemmas.SystemOrder

/-! # Lemmas about signals -/

namespace Log4g
open Spec
open scoped List
variable {V : Type}

variable {env : PEnv V} {host : Host} {me : Nat} {up : Nat → Bool} {v0 : Nat → Volume}

theorem machineOf_append (a b : List (GLab V)) : machineOf (a ++ b) = machineOf a ++ machineOf b := by simp [machineOf]

theorem programOf_append (a b : List (GLab V)) : programOf (a ++ b) = programOf a ++ programOf b := by
  simp [programOf, machineOf_append, progOf_append]

theorem gexec_machine {s s' : Signalled V} {tr : List (GLab V)} (h : GExec env host me s tr s') : MExec env host s.m (machineOf tr) s'.m := by
  induction h with
  | nil => exact .nil
  | snoc _ hs ih =>
    rw [machineOf_append]
    cases hs with
    | signal _ => simpa [machineOf] using ih
    | receive _ _ _ => simpa [machineOf] using ih
    | close _ hm => exact ih.snoc hm
    | step hm _ => exact ih.snoc hm

theorem GExec.trans {s s' s'' : Signalled V} {a b : List (GLab V)} (h1 : GExec env host me s a s') (h2 : GExec env host me s' b s'') : GExec env host me s (a ++ b) s'' := by
  induction h2 with
  | nil => simpa using h1
  | snoc _ hs ih => rw [← List.append_assoc]; exact .snoc ih hs

theorem GExec.split {s s'' : Signalled V} {a b : List (GLab V)} (h : GExec env host me s (a ++ b) s'') : ∃ s', GExec env host me s a s' ∧ GExec env host me s' b s'' := by
  generalize e : a ++ b = tr at h
  induction h generalizing b with
  | nil =>
    obtain ⟨rfl, rfl⟩ := List.append_eq_nil_iff.mp e
    exact ⟨_, .nil, .nil⟩
  | @snoc tr s' l s'' h hs ih =>
    rcases List.eq_nil_or_concat b with rfl | ⟨b', x, rfl⟩
    · rw [List.append_nil] at e; subst e
      exact ⟨_, .snoc h hs, .nil⟩
    · rw [List.concat_eq_append, ← List.append_assoc] at e
      obtain ⟨e1, e2⟩ := List.append_inj' e rfl
      cases e2
      obtain ⟨s1, h1, h2⟩ := ih e1
      exact ⟨s1, h1, by rw [List.concat_eq_append]; exact .snoc h2 hs⟩

/-- What a machine does without the goroutine of `init`. -/
theorem lift_steps {m m' : Machine V} {mtr : List (MLab V)} (h : MExec env host m mtr m') (chan : Bool) (pc : SigPc) (hno : ∀ p ∈ progOf mtr, ¬ p.startedBy me) :
    GExec env host me { m := m, chan := chan, pc := pc } (mtr.map .step) { m := m', chan := chan, pc := pc } := by
  induction h with
  | nil => exact .nil
  | @snoc tr m1 l m2 _ hs ih =>
    rw [progOf_append] at hno
    rw [List.map_append]
    refine .snoc (ih fun p hp => hno p (List.mem_append_left _ hp)) (.step hs fun p hp => hno p (List.mem_append_right _ ?_))
    rcases hp with rfl | ⟨_, _, _, rfl⟩ <;> simp [progOf]

/-- Where the goroutine is. -/
structure SigInv (me : Nat) (tr : List (GLab V)) (s : Signalled V) : Prop where
  heard : .signal ∈ tr → s.pc = .waits → s.chan = true
  chan : s.chan = true → .signal ∈ tr
  told : s.pc ≠ .waits → .signal ∈ tr
  quiet : s.pc ≠ .closes → ∀ p ∈ programOf tr, ¬ p.startedBy me
  once : s.pc = .closes → ∃ x os y, programOf tr = x ++ .close me os :: y ∧ (∀ p ∈ x ++ y, ¬ p.startedBy me)

theorem programOf_step (l : MLab V) : programOf [GLab.step l] = progOf [l] := rfl

theorem gexec_inv {s : Signalled V} {tr : List (GLab V)} (h : GExec env host me (newSignalled up v0) tr s) : SigInv me tr s := by
  induction h with
  | nil =>
    exact ⟨(by intro h; cases h), (by intro h; cases h), fun h => absurd rfl h, (by intro _ p hp; cases hp), (by intro h; cases h)⟩
  | @snoc tr s l s' _ hs ih =>
    cases hs with
    | signal _ =>
      refine ⟨fun _ _ => rfl, fun _ => by simp, fun _ => by simp, fun h p hp => ?_, fun h => ?_⟩
      · rw [programOf_append] at hp; exact ih.quiet h p (by simpa [programOf, machineOf, progOf] using hp)
      · obtain ⟨x, os, y, e, k⟩ := ih.once h
        exact ⟨x, os, y, by rw [programOf_append, e]; simp [programOf, machineOf, progOf], k⟩
    | receive _ hc hpc =>
      refine ⟨(by intro _ h; cases h), (by intro h; cases h), fun _ => List.mem_append_left _ (ih.chan hc), fun _ p hp => ?_, (by intro h; cases h)⟩
      rw [programOf_append] at hp; exact ih.quiet (by rw [hpc]; simp) p (by simpa [programOf, machineOf, progOf] using hp)
    | @close os m' hpc hm =>
      refine ⟨(by intro _ h; cases h), fun h => List.mem_append_left _ (ih.chan h), fun _ => List.mem_append_left _ (ih.told (by rw [hpc]; simp)), fun h => absurd rfl h, fun _ => ?_⟩
      exact ⟨programOf tr, os, [], by rw [programOf_append]; rfl, fun p hp => ih.quiet (by rw [hpc]; simp) p (by simpa using hp)⟩
    | @step l m' hm hno =>
      have hno' : ∀ p ∈ progOf [l], ¬ p.startedBy me := by
        intro p hp
        cases l with
        | prog q => exact hno p (.inl (by simp [progOf] at hp; rw [hp]))
        | write q k o bs => exact hno p (.inr ⟨k, o, bs, by simp [progOf] at hp; rw [hp]⟩)
        | sys k o x => simp [progOf] at hp
        | done k o bs res => simp [progOf] at hp
      refine ⟨fun h hw => ih.heard (by simpa using h) hw, fun h => List.mem_append_left _ (ih.chan h), fun h => List.mem_append_left _ (ih.told h), fun h p hp => ?_, fun h => ?_⟩
      · rw [programOf_append] at hp
        rcases List.mem_append.mp hp with hp | hp
        · exact ih.quiet h p hp
        · exact hno' p hp
      · obtain ⟨x, os, y, e, k⟩ := ih.once h
        refine ⟨x, os, y ++ progOf [l], by rw [programOf_append, e]; simp [programOf_step], fun p hp => ?_⟩
        rw [← List.append_assoc] at hp
        rcases List.mem_append.mp hp with hp | hp
        · exact k p hp
        · exact hno' p hp

/-- The goroutine's step in which it calls `Close`. -/
theorem close_alone {m m' : Machine V} {l : MLab V} {t : Nat} {os : List Nat} {a : List (PLab V)} (hp : PExec env (newProgram up) a m.p)
    (h : MStep env host m l m') (e : progOf [l] = [.close t os]) : l = .prog (.close t os) := by
  cases h with
  | prog _ _ _ => simp [progOf] at e; rw [e]
  | @write l p o c bs hs _ hr hg _ _ =>
    simp [progOf] at e
    subst e
    rcases given_step hp hs o with k | ⟨_, _, _, k, _⟩ | ⟨_, _, _, k, _⟩
    · rw [k] at hg; simp at hg
    · cases k
    · cases k
  | sys _ _ _ _ => simp [progOf] at e
  | done _ _ _ => simp [progOf] at e

theorem progOf_cons : ∀ {tr : List (MLab V)} {a b : List (PLab V)} {p : PLab V}, progOf tr = a ++ p :: b →
    ∃ x l y, tr = x ++ l :: y ∧ progOf x = a ∧ progOf [l] = [p] ∧ progOf y = b
  | [], a, b, p, e => by simp [progOf] at e
  | l :: tr, a, b, p, e => by
    rw [show l :: tr = [l] ++ tr from rfl, progOf_append] at e
    by_cases hl : progOf [l] = []
    · rw [hl, List.nil_append] at e
      obtain ⟨x, l', y, rfl, k1, k2, k3⟩ := progOf_cons e
      exact ⟨l :: x, l', y, rfl, by rw [show l :: x = [l] ++ x from rfl, progOf_append, hl, k1]; rfl, k2, k3⟩
    · have hn : ∃ q, progOf [l] = [q] := by cases l <;> simp [progOf] at hl ⊢
      obtain ⟨q, hq⟩ := hn
      rw [hq] at e
      cases a with
      | nil =>
        obtain ⟨rfl, e'⟩ := List.cons.inj e
        exact ⟨[], l, tr, rfl, rfl, hq, e'⟩
      | cons z a =>
        obtain ⟨rfl, e'⟩ := List.cons.inj e
        obtain ⟨x, l', y, rfl, k1, k2, k3⟩ := progOf_cons e'
        exact ⟨l :: x, l', y, rfl, by rw [show l :: x = [l] ++ x from rfl, progOf_append, hq, k1]; rfl, k2, k3⟩

theorem mexec_first {m m' : Machine V} {l : MLab V} {tr : List (MLab V)} (h : MExec env host m (l :: tr) m') : ∃ m1, MStep env host m l m1 ∧ MExec env host m1 tr m' := by
  obtain ⟨m1, h1, h2⟩ := MExec.split (a := [l]) (b := tr) h
  refine ⟨m1, ?_, h2⟩
  generalize e : [l] = t at h1
  cases h1 with
  | nil => cases e
  | @snoc t m2 l' m3 h3 h4 =>
    have : t = [] := by cases t <;> simp at e ⊢
    subst this
    cases e
    generalize e : ([] : List (MLab V)) = t at h3
    cases h3 with
    | nil => exact h4
    | snoc _ _ => simp at e

theorem machineOf_steps (tr : List (MLab V)) : machineOf (tr.map .step) = tr := by
  induction tr with
  | nil => rfl
  | cons l tr ih => rw [List.map_cons, show GLab.step l :: tr.map .step = [.step l] ++ tr.map .step from rfl, machineOf_append, ih]; rfl

theorem step_alive {m m' : Machine V} {l : MLab V} (h : MStep env host m l m') : m.p.panicked = false := by
  cases h with
  | prog h _ _ => exact h.1
  | write h _ _ _ _ _ => exact h.1
  | sys h _ _ _ => exact h
  | done h _ _ => exact h

/-- A program one of whose goroutines does nothing but call `Close`. -/
theorem signal_at {m : Machine V} {x y : List (MLab V)} {os : List Nat} (h : MExec env host (newMachine up v0) (x ++ .prog (.close me os) :: y) m)
    (hx : ∀ p ∈ progOf x, ¬ p.startedBy me) (hy : ∀ p ∈ progOf y, ¬ p.startedBy me) :
    GExec env host me (newSignalled up v0) (x.map .step ++ .signal :: .received :: .step (.prog (.close me os)) :: y.map .step) { m := m, pc := .closes } := by
  obtain ⟨m1, h1, h2⟩ := h.split
  obtain ⟨m2, h2, h3⟩ := mexec_first h2
  have g1 := lift_steps (me := me) h1 false .waits hx
  have g2 := g1.snoc (.signal (step_alive h2))
  have g3 := g2.snoc (.receive (step_alive h2) rfl rfl)
  have g4 := g3.snoc (.close rfl h2)
  have g5 := g4.trans (lift_steps (me := me) h3 false .closes hy)
  simpa [newSignalled] using g5

/-- The same, known by what the program did. -/
theorem signal_steps {m : Machine V} {tr : List (MLab V)} {a b : List (PLab V)} {os : List Nat} (h : MExec env host (newMachine up v0) tr m)
    (e : progOf tr = a ++ .close me os :: b) (hno : ∀ p ∈ a ++ b, ¬ p.startedBy me) :
    ∃ x y, tr = x ++ .prog (.close me os) :: y ∧ progOf x = a ∧ progOf y = b ∧
      GExec env host me (newSignalled up v0) (x.map .step ++ .signal :: .received :: .step (.prog (.close me os)) :: y.map .step) { m := m, pc := .closes } := by
  obtain ⟨x, l, y, rfl, e1, e2, e3⟩ := progOf_cons e
  obtain ⟨m1, h1, h2⟩ := h.split
  obtain ⟨m2, h2, h3⟩ := mexec_first h2
  have el := close_alone (mexec_inv h1).prog h2 e2
  subst el
  exact ⟨x, y, rfl, e1, e3, signal_at h (fun p hp => hno p (by rw [← e1]; exact List.mem_append_left _ hp)) (fun p hp => hno p (by rw [← e3]; exact List.mem_append_right _ hp))⟩

theorem programOf_steps (mtr : List (MLab V)) : programOf (mtr.map .step) = progOf mtr := by rw [programOf, machineOf_steps]

theorem programOf_cons (l : GLab V) (tr : List (GLab V)) : programOf (l :: tr) = programOf [l] ++ programOf tr := programOf_append [l] tr

/-! ## What the goroutine does -/

theorem keeps_idle {p p' : PState V} {l : PLab V} {t : Nat} (h : PStep env p l p') (hn : (p.th t).call = none) (hl : ¬ l.startedBy t) : (p'.th t).call = none ∧ l ≠ .ret t := by
  have other : ∀ {u : Nat} {x : PThread V} {q : PState V}, q.th = p.th → u ≠ t → ((q.set u x).th t).call = none := fun {u x q} e hu => by
    rw [pset_th, if_neg (Ne.symm hu), e]; exact hn
  have same : ∀ {u : Nat} {k : Option PCall} {x y : PThread V} {q : PState V}, q.th = p.th → p.th u = x → x.call = k → y.call = k → ((q.set u y).th t).call = none := fun {u k x y q} e h1 h2 h3 => by
    rw [pset_th]
    split
    · rename_i e2; subst e2; rw [h3, ← h2, ← h1]; exact hn
    · rw [e]; exact hn
  cases h.2 with
  | act _ _ _ _ => exact ⟨hn, by simp⟩
  | actPanic _ => exact ⟨hn, by simp⟩
  | logPanic _ _ _ => exact ⟨hn, by simp⟩
  | log _ _ _ => exact ⟨other rfl hl, by simp⟩
  | close _ _ _ => exact ⟨other rfl hl, by simp⟩
  | direct _ _ => exact ⟨other rfl hl, by simp⟩
  | enter ht _ => exact ⟨same rfl ht rfl rfl, by simp⟩
  | out _ _ => exact ⟨hn, by simp⟩
  | leave ht _ => exact ⟨same rfl ht rfl rfl, by simp⟩
  | send _ ht _ => exact ⟨same rfl ht rfl rfl, by simp⟩
  | closed ht _ => exact ⟨same rfl ht rfl rfl, by simp⟩
  | @ret u k ht =>
    have hu : u ≠ t := by rintro rfl; rw [ht] at hn; cases hn
    exact ⟨other rfl hu, by simpa using hu⟩

/-- A goroutine that begins nothing returns from nothing. -/
theorem stays_idle {p p' : PState V} {tr : List (PLab V)} {t : Nat} (h : PExec env p tr p') (hn : (p.th t).call = none) (hl : ∀ l ∈ tr, ¬ l.startedBy t) :
    (p'.th t).call = none ∧ .ret t ∉ tr := by
  induction h with
  | nil => exact ⟨hn, by simp⟩
  | snoc _ hs ih =>
    obtain ⟨k1, k2⟩ := ih fun l h => hl l (List.mem_append_left _ h)
    obtain ⟨k3, k4⟩ := keeps_idle hs k1 (hl _ (by simp))
    refine ⟨k3, fun hm => ?_⟩
    rcases List.mem_append.mp hm with hm | hm
    · exact k2 hm
    · exact k4 (List.mem_singleton.mp hm).symm

/-- Who is in `Close` has called it. -/
theorem closer_called {tr : List (PLab V)} {p : PState V} (h : PExec env (newProgram up) tr p) {t : Nat} (hc : (p.th t).call = some .close) : ∃ os, .close t os ∈ tr := by
  induction h with
  | nil => cases hc
  | @snoc tr p l p' h hs ih =>
    by_cases k : (p.th t).call = some .close
    · obtain ⟨os, hm⟩ := ih k
      exact ⟨os, List.mem_append_left _ hm⟩
    · have same : ∀ {u : Nat} {k' : Option PCall} {x y : PThread V} {q : PState V}, q.th = p.th → p.th u = x → x.call = k' → y.call = k' → ((q.set u y).th t).call ≠ some .close :=
        fun {u k' x y q} e h1 h2 h3 => by
          rw [pset_th]
          split
          · rename_i e2; subst e2; rw [h3, ← h2, ← h1]; exact k
          · rw [e]; exact k
      have other : ∀ {u : Nat} {y : PThread V} {q : PState V}, q.th = p.th → y.call ≠ some .close → ((q.set u y).th t).call ≠ some .close := fun {u y q} e h1 => by
        rw [pset_th]
        split
        · exact h1
        · rw [e]; exact k
      cases hs.2 with
      | act _ _ _ _ => exact absurd hc k
      | actPanic _ => exact absurd hc k
      | logPanic _ _ _ => exact absurd hc k
      | log _ _ _ => exact absurd hc (other rfl (by simp))
      | @close u os _ _ _ =>
        by_cases hu : u = t
        · subst hu; exact ⟨os, by simp⟩
        · rw [pset_th, if_neg (Ne.symm hu)] at hc; exact absurd hc k
      | direct _ _ => exact absurd hc (other rfl (by simp))
      | enter ht _ => exact absurd hc (same rfl ht rfl rfl)
      | out _ _ => exact absurd hc k
      | leave ht _ => exact absurd hc (same rfl ht rfl rfl)
      | send _ ht _ => exact absurd hc (same rfl ht rfl rfl)
      | closed ht _ => exact absurd hc (same rfl ht rfl rfl)
      | ret ht => exact absurd hc (other rfl (by simp))

variable {tr : List (GLab V)} {s : Signalled V}

theorem gexec_prog (h : GExec env host me (newSignalled up v0) tr s) : PExec env (newProgram up) (programOf tr) s.m.p := (mexec_inv (gexec_machine h)).prog

/-- Before any signal nothing is closed. -/
theorem open_before (h : GExec env host me (newSignalled up v0) tr s) (hl : LeavesOpen me tr) (hs : .signal ∉ tr) : (∀ t os, .close t os ∉ programOf tr) ∧ ∀ o, Open o (programOf tr) := by
  have inv := gexec_inv h
  have hpc : s.pc = .waits := Classical.byContradiction fun k => hs (inv.told k)
  have key : ∀ t os, .close t os ∉ programOf tr := fun t os hm => by
    have := hl.1 t os hm
    subst this
    exact inv.quiet (by rw [hpc]; simp) _ hm rfl
  exact ⟨key, fun o => ⟨fun t os hm => (key t os hm).elim, fun t => hl.2 t o⟩⟩

theorem leaves_left {a b : List (GLab V)} (h : LeavesOpen me (a ++ b)) : LeavesOpen me a := by
  refine ⟨fun t os hm => h.1 t os (by rw [programOf_append]; exact List.mem_append_left _ hm), ?_⟩
  have := h.2
  rw [programOf_append] at this
  exact tame_left this

/-- What the goroutine's return from `Close` says. -/
theorem returned_close (h : GExec env host me (newSignalled up v0) tr s) {q : List (PLab V)} (e : programOf tr = q ++ [.ret me]) :
    ∃ os x, CloseCall me os x (programOf tr) ∧ ∀ p ∈ x, ¬ p.startedBy me := by
  have inv := gexec_inv h
  have hp := gexec_prog h
  by_cases hpc : s.pc = .closes
  · obtain ⟨x, os, y, e1, hno⟩ := inv.once hpc
    refine ⟨os, x, ?_, fun p hp => hno p (List.mem_append_left _ hp)⟩
    rw [e1] at e
    rcases List.eq_nil_or_concat y with rfl | ⟨y', z, rfl⟩
    · have := List.append_inj_right' e rfl
      cases this
    · rw [List.concat_eq_append] at e hno
      rw [show x ++ PLab.close me os :: (y' ++ [z]) = (x ++ .close me os :: y') ++ [z] by simp] at e
      have ez := List.append_inj_right' e rfl
      simp only [List.cons.injEq, and_true] at ez
      subst ez
      refine ⟨y', by rw [e1]; simp, fun hm => ?_⟩
      obtain ⟨y1, y2, rfl⟩ := List.append_of_mem hm
      rw [e1, show x ++ PLab.close me os :: ((y1 ++ .ret me :: y2).concat (.ret me)) = (x ++ .close me os :: y1 ++ [.ret me]) ++ (y2 ++ [.ret me]) by simp] at hp
      obtain ⟨p1, h1, h2⟩ := hp.split
      obtain ⟨p0, _, h0⟩ := h1.last
      refine (stays_idle (t := me) h2 ?_ (fun l hl => hno l (by
        rcases List.mem_append.mp hl with hl | hl
        · simp [hl]
        · simp [List.mem_singleton.mp hl]))).2 (by simp)
      cases h0.2 with
      | ret _ => rw [pset_th, if_pos rfl]
  · have := (stays_idle (t := me) hp rfl (fun l hl => inv.quiet hpc l hl)).2
    rw [e] at this
    simp at this

/-- As long as the goroutine has not called `Close` the manager's lock is free. -/
theorem lock_before (h : GExec env host me (newSignalled up v0) tr s) (hl : LeavesOpen me tr) (hpc : s.pc ≠ .closes) : s.m.p.lock = none ∧ (s.m.p.th me).call = none := by
  have inv := gexec_inv h
  have hp := gexec_prog h
  refine ⟨?_, (stays_idle (t := me) hp rfl (fun l hl => inv.quiet hpc l hl)).1⟩
  cases e : s.m.p.lock with
  | none => rfl
  | some t =>
    obtain ⟨os, hm⟩ := closer_called hp (((pexec_inv hp).lock t).mp e)
    have := hl.1 t os hm
    subst this
    exact (inv.quiet hpc _ hm rfl).elim

/-! ## Getting done -/

/-- The worker of an output whose channel is closed can stop. -/
theorem can_stop {cfg : ACfg V} {f : Formatter V} (hf : cfg.f = some f) {a : AState V} (hp : a.panicked = false) (hc : a.chanClosed = true) :
    ∃ tr x, AExec cfg a tr x ∧ x.worker = .stopped ∧ x.panicked = false ∧ ∀ l ∈ tr, stepOf l = none := by
  have run : ∀ {a : AState V}, a.panicked = false → a.chanClosed = true → a.worker = .running →
      ∃ tr x, AExec cfg a tr x ∧ x.worker = .stopped ∧ x.panicked = false ∧ ∀ l ∈ tr, stepOf l = none := by
    intro a hp hc hw
    have fin : ∀ {tr : List (ALab V)} {b x : AState V}, AExec cfg a tr b → (∀ l ∈ tr, stepOf l = none) → AStep cfg b (.took none) x → x.worker = .stopped → x.panicked = false →
        ∃ tr x, AExec cfg a tr x ∧ x.worker = .stopped ∧ x.panicked = false ∧ ∀ l ∈ tr, stepOf l = none := by
      intro tr b x h1 h2 h3 h4 h5
      refine ⟨_, x, h1.snoc h3, h4, h5, fun l hl => ?_⟩
      rcases List.mem_append.mp hl with hl | hl
      · exact h2 l hl
      · rw [List.mem_singleton.mp hl]; rfl
    by_cases hn : none ∈ a.chan
    · obtain ⟨es, rest, e⟩ := split_none _ hn
      obtain ⟨tr, b, h1, h2, h3, h4, _, _, _, _, h8⟩ := drain hf es _ a hp hw e
      exact fin h1 h8 ⟨h2, .takeNil h3 h4⟩ rfl h2
    · obtain ⟨es, e⟩ := all_some _ hn
      obtain ⟨tr, b, h1, h2, h3, h4, _, _, h7, _, h8⟩ := drain hf es [] a hp hw (by rw [e, List.append_nil])
      exact fin h1 h8 ⟨h2, .takeClosed h3 h4 (by rw [h7]; exact hc)⟩ rfl h2
  cases hw : a.worker with
  | stopped => exact ⟨[], a, .nil, hw, hp, by simp⟩
  | running => exact run hp hc hw
  | starting =>
    have st : AStep cfg a .begin { a with worker := .running, wait := a.wait + 1 } := ⟨hp, .begin hw⟩
    obtain ⟨tr, x, h1, h2, h3, h4⟩ := run (a := { a with worker := .running, wait := a.wait + 1 }) hp hc rfl
    refine ⟨[.begin] ++ tr, x, (AExec.one st).trans h1, h2, h3, fun l hl => ?_⟩
    rcases List.mem_append.mp hl with hl | hl
    · rw [List.mem_singleton.mp hl]; rfl
    · exact h4 l hl

/-- Closed outputs can get done. -/
theorem stop_all : ∀ (os : List Nat) {tr : List (PLab V)} {p : PState V}, PExec env (newProgram up) tr p → p.panicked = false →
    (∀ o ∈ os, p.w.asyncOf env o ≠ none → ∃ u, .closed u ∈ outLabs o tr) →
    ∃ ls p', PExec env p ls p' ∧ p'.panicked = false ∧ p'.w = p.w ∧ (∀ l ∈ ls, ∃ o a, l = .out o a ∧ stepOf a = none) ∧
      ∀ o ∈ os, p.w.asyncOf env o ≠ none → (p'.a o).worker = .stopped
  | [], tr, p, h, hp, _ => ⟨[], p, .nil, hp, rfl, by simp, by simp⟩
  | o :: os, tr, p, h, hp, hc => by
    have inv := pexec_inv h
    cases ho : p.w.asyncOf env o with
    | none =>
      obtain ⟨ls, p', h1, h2, h3, h4, h5⟩ := stop_all os h hp fun q hq => hc q (by simp [hq])
      refine ⟨ls, p', h1, h2, h3, h4, fun q hq hn => ?_⟩
      rcases List.mem_cons.mp hq with rfl | hq
      · exact absurd ho hn
      · exact h5 q hq hn
    | some cfg =>
      obtain ⟨⟨f, hf⟩, _⟩ := asyncOf_cfg inv.world ho
      obtain ⟨u, hu⟩ := hc o (by simp) (by rw [ho]; simp)
      obtain ⟨al, x, k1, k2, k3, k4⟩ := can_stop hf (inv.sound hp o) ((aexec_closeinv (inv.proj o cfg ho)).none u hu)
      obtain ⟨p1, g1, g2, _, g4, g5⟩ := PExec.lift ho k1 hp (inv.sound hp o)
      obtain ⟨ls, p', h1, h2, h3, h4, h5⟩ := stop_all os (h.trans g1) (by rw [g5]; exact k3) fun q hq hn => by
        obtain ⟨v, hv⟩ := hc q (by simp [hq]) (by rwa [g4] at hn)
        exact ⟨v, by rw [outLabs_append]; exact List.mem_append_left _ hv⟩
      refine ⟨al.map (.out o) ++ ls, p', g1.trans h1, h2, h3.trans g4, fun l hl => ?_, fun q hq hn => ?_⟩
      · rcases List.mem_append.mp hl with hl | hl
        · obtain ⟨a, ha, rfl⟩ := List.mem_map.mp hl
          exact ⟨o, a, rfl, k4 a ha⟩
        · exact h4 l hl
      · rcases List.mem_cons.mp hq with rfl | hq
        · exact (stays_stopped h1 q (by rw [g2]; exact k2)).1
        · exact h5 q hq (by rw [g4]; exact hn)

/-! ## Of the whole program -/

theorem helps_unstarted {l : PLab V} {t : Nat} (h : Helps t l ∨ l = .ret t) : ¬ l.startedBy t := by
  rcases h with h | rfl
  · cases l <;> simp_all [Helps, PLab.startedBy]
  · simp [PLab.startedBy]

theorem byLibrary_steps {mtr : List (MLab V)} (h : ∀ p ∈ progOf mtr, Helps me p ∨ p = .ret me ∨ ∃ os, p = .close me os) : ∀ l ∈ mtr.map GLab.step, ByLibrary me l := by
  intro l hl
  obtain ⟨x, hx, rfl⟩ := List.mem_map.mp hl
  cases x with
  | prog p => exact h p (List.mem_flatMap.mpr ⟨_, hx, by simp⟩)
  | write p _ _ _ => exact h p (List.mem_flatMap.mpr ⟨_, hx, by simp⟩)
  | sys _ _ _ => trivial
  | done _ _ _ _ => trivial

variable {os : Answers V}

/-- The goroutine can get done with `Close`. -/
theorem can_close (hos : PossibleAnswers env host up v0 os) (h : GExec env host me (newSignalled up v0) tr s) (hl : LeavesOpen me tr) (hs : .signal ∈ tr) (hp : s.m.p.panicked = false) :
    ∃ gtr s', GExec env host me s gtr s' ∧ (∀ l ∈ gtr, ByLibrary me l) ∧ AnsweredBy os (machineOf tr) (machineOf gtr) ∧ s'.m.p.panicked = false ∧ s'.pc = .closes ∧
      .ret me ∈ programOf (tr ++ gtr) := by
  have inv := gexec_inv h
  -- from where it has been told
  have told : ∀ {tr : List (GLab V)} {s : Signalled V}, GExec env host me (newSignalled up v0) tr s → LeavesOpen me tr → s.m.p.panicked = false → s.pc = .told →
      ∃ gtr s', GExec env host me s gtr s' ∧ (∀ l ∈ gtr, ByLibrary me l) ∧ AnsweredBy os (machineOf tr) (machineOf gtr) ∧ s'.m.p.panicked = false ∧ s'.pc = .closes ∧
        .ret me ∈ programOf (tr ++ gtr) := by
    intro tr s h hl hp hpc
    have hm := gexec_machine h
    have hprog := gexec_prog h
    obtain ⟨hlock, hcall⟩ := lock_before h hl (by rw [hpc]; simp)
    have st : PStep env s.m.p (.close me (s.m.p.w.mgr.outputs.map (·.2))) _ := ⟨hp, .close hcall hlock (List.Perm.refl _)⟩
    have h1 := hprog.snoc st
    obtain ⟨ls, p, g1, g2, g3⟩ := manager_close_ends (t := me) h1 (by
      intro t o hm
      rcases List.mem_append.mp hm with hm | hm
      · exact hl.2 t o hm
      · simp at hm) hp (by rw [pset_th, if_pos rfl])
    obtain ⟨mtr, m', k1, k2, k3, k4, _⟩ := run_lift hos hm hp ((PExec.one st).trans g1) g2
    obtain ⟨x, l, y, rfl, e1, e2, e3⟩ := progOf_cons (a := []) (b := ls ++ [.ret me]) k2
    obtain ⟨m1, j1, j2⟩ := k1.split
    obtain ⟨m2, j2, j3⟩ := mexec_first j2
    have el := close_alone (mexec_inv (hm.trans j1)).prog j2 e2
    subst el
    have q1 := lift_steps (me := me) j1 s.chan .told (by rw [e1]; simp)
    have q2 := q1.snoc (.close rfl j2)
    have q3 := q2.trans (lift_steps (me := me) j3 s.chan .closes (by
      rw [e3]
      intro p hp
      refine helps_unstarted ?_
      rcases List.mem_append.mp hp with hp | hp
      · exact .inl (g3 p hp)
      · exact .inr (List.mem_singleton.mp hp)))
    have e : x.map GLab.step ++ [GLab.step (.prog (.close me (s.m.p.w.mgr.outputs.map (·.2))))] ++ y.map .step = (x ++ .prog (.close me (s.m.p.w.mgr.outputs.map (·.2))) :: y).map .step := by simp
    rw [e] at q3
    have es : ({ m := s.m, chan := s.chan, pc := .told } : Signalled V) = s := by cases s; cases hpc; rfl
    rw [es] at q3
    refine ⟨_, _, q3, byLibrary_steps fun p hp => ?_, by rw [machineOf_steps]; exact k3, by rw [k4]; exact g2, rfl, ?_⟩
    · rw [k2] at hp
      rcases List.mem_append.mp hp with hp | hp
      · exact .inr (.inr ⟨_, List.mem_singleton.mp hp⟩)
      · rcases List.mem_append.mp hp with hp | hp
        · exact .inl (g3 p hp)
        · exact .inr (.inl (List.mem_singleton.mp hp))
    · rw [programOf_append, programOf, programOf, machineOf_steps, k2]
      simp
  cases hpc : s.pc with
  | waits =>
    have st : GStep env host me s .received { s with chan := false, pc := .told } := .receive hp (inv.heard hs hpc) hpc
    have hprog : programOf (tr ++ [GLab.received]) = programOf tr := by rw [programOf_append]; simp [programOf, machineOf, progOf]
    obtain ⟨gtr, s', k1, k2, k3, k4, k5, k6⟩ := told (h.snoc st) ⟨by rw [hprog]; exact hl.1, by rw [hprog]; exact hl.2⟩ hp rfl
    refine ⟨[.received] ++ gtr, s', (GExec.snoc .nil st).trans k1, fun l hl => ?_, ?_, k4, k5, by rw [← List.append_assoc]; exact k6⟩
    · rcases List.mem_append.mp hl with hl | hl
      · rw [List.mem_singleton.mp hl]; trivial
      · exact k2 l hl
    · rw [machineOf_append] at k3 ⊢
      simpa [machineOf] using k3
  | told => exact told h hl hp hpc
  | closes =>
    by_cases hr : .ret me ∈ programOf tr
    · exact ⟨[], s, .nil, by simp, answered_nil _ _, hp, hpc, by simpa using hr⟩
    · have hm := gexec_machine h
      have hprog := gexec_prog h
      obtain ⟨x, cs, y, e, _⟩ := inv.once hpc
      have hc := (call_is hprog e (fun hh => hr (by rw [e]; simp [hh]))).2.1 cs rfl
      obtain ⟨ls, p, g1, g2, g3⟩ := manager_close_ends (t := me) hprog hl.2 hp hc
      obtain ⟨mtr, m', k1, k2, k3, k4, _⟩ := run_lift hos hm hp g1 g2
      have key : ∀ p ∈ progOf mtr, Helps me p ∨ p = .ret me := by
        rw [k2]
        intro p hp
        rcases List.mem_append.mp hp with hp | hp
        · exact .inl (g3 p hp)
        · exact .inr (List.mem_singleton.mp hp)
      have q := lift_steps (me := me) k1 s.chan .closes fun p hp => helps_unstarted (key p hp)
      have es : ({ m := s.m, chan := s.chan, pc := .closes } : Signalled V) = s := by cases s; cases hpc; rfl
      rw [es] at q
      refine ⟨_, _, q, byLibrary_steps fun p hp => (key p hp).imp_right .inl, by rw [machineOf_steps]; exact k3, by rw [k4]; exact g2, rfl, ?_⟩
      rw [programOf_append, programOf, programOf, machineOf_steps, k2]
      simp

theorem machineOf_split : ∀ {tr : List (GLab V)} {x y : List (MLab V)}, machineOf tr = x ++ y → ∃ t1 t2, tr = t1 ++ t2 ∧ machineOf t1 = x ∧ machineOf t2 = y
  | [], x, y, e => by
    obtain ⟨rfl, rfl⟩ := List.append_eq_nil_iff.mp e.symm
    exact ⟨[], [], rfl, rfl, rfl⟩
  | l :: tr, x, y, e => by
    rw [show l :: tr = [l] ++ tr from rfl, machineOf_append] at e
    cases x with
    | nil => exact ⟨[], l :: tr, rfl, rfl, by rw [show l :: tr = [l] ++ tr from rfl, machineOf_append, e]; rfl⟩
    | cons z x =>
      by_cases hl : machineOf [l] = []
      · rw [hl, List.nil_append] at e
        obtain ⟨t1, t2, rfl, k1, k2⟩ := machineOf_split e
        exact ⟨l :: t1, t2, rfl, by rw [show l :: t1 = [l] ++ t1 from rfl, machineOf_append, hl, k1]; rfl, k2⟩
      · have hn : ∃ q, machineOf [l] = [q] := by cases l <;> simp [machineOf] at hl ⊢
        obtain ⟨q, hq⟩ := hn
        rw [hq] at e
        obtain ⟨rfl, e'⟩ := List.cons.inj e
        obtain ⟨t1, t2, rfl, k1, k2⟩ := machineOf_split e'
        exact ⟨l :: t1, t2, rfl, by rw [show l :: t1 = [l] ++ t1 from rfl, machineOf_append, hq, k1]; rfl, k2⟩

theorem programOf_split {tr : List (GLab V)} {x y : List (PLab V)} (e : programOf tr = x ++ y) : ∃ t1 t2, tr = t1 ++ t2 ∧ programOf t1 = x ∧ programOf t2 = y := by
  obtain ⟨m1, m2, e1, e2, e3⟩ := progOf_split e
  obtain ⟨t1, t2, k1, k2, k3⟩ := machineOf_split e1
  exact ⟨t1, t2, k1, by rw [programOf, k2, e2], by rw [programOf, k3, e3]⟩

theorem mexec_run {m m' : Machine V} {mtr : List (MLab V)} (h : MExec env host m mtr m') : PExec env m.p (progOf mtr) m'.p := by
  induction h with
  | nil => exact .nil
  | snoc _ hs ih =>
    rw [progOf_append]
    cases hs with
    | prog h _ _ => exact ih.snoc h
    | write h _ _ _ _ _ => exact ih.snoc h
    | sys _ _ _ _ => simpa [progOf, Machine.setWr] using ih
    | done _ _ _ => simpa [progOf, Machine.setWr] using ih

theorem gexec_run {s s' : Signalled V} (h : GExec env host me s tr s') : PExec env s.m.p (programOf tr) s'.m.p := mexec_run (gexec_machine h)

/-- After the goroutine's `Close` the outputs there were when the signal came are closed. -/
theorem closed_after {a c : List (GLab V)} {sa : Signalled V} (hl : LeavesOpen me (a ++ c)) (ha : .signal ∉ a)
    (hsa : GExec env host me (newSignalled up v0) a sa) (hc : GExec env host me sa c s) (hr : .ret me ∈ programOf (a ++ c)) {o : Nat} (ho : o < sa.m.p.w.mgr.oheap.length)
    (hn : s.m.p.w.asyncOf env o ≠ none) : ∃ u, .closed u ∈ outLabs o (programOf (a ++ c)) := by
  have h := hsa.trans hc
  obtain ⟨x, y, exy⟩ := List.append_of_mem hr
  obtain ⟨t1, t2, et, e1, e2⟩ := programOf_split (x := x ++ [.ret me]) (y := y) (by rw [exy]; simp)
  have hopen := open_before hsa (leaves_left hl) ha
  obtain ⟨w, rfl⟩ : ∃ w, t1 = a ++ w := by
    rcases List.append_eq_append_iff.mp et with ⟨d, k, _⟩ | ⟨d, k, _⟩
    · exact ⟨d, k⟩
    · exfalso
      obtain ⟨s1, h1, _⟩ := GExec.split (et ▸ h)
      obtain ⟨os, z, ⟨b, eb, _⟩, _⟩ := returned_close h1 e1
      refine hopen.1 me os ?_
      rw [k, programOf_append, eb]
      simp
  rw [List.append_assoc] at et
  have ec := List.append_cancel_left et
  subst ec
  obtain ⟨s1, hw, h2⟩ := hc.split
  have h1 := hsa.trans hw
  obtain ⟨os, z, hcall, _⟩ := returned_close h1 e1
  have hp1 := gexec_prog h1
  cases hcfg : s.m.p.w.asyncOf env o with
  | none => exact absurd hcfg hn
  | some cfg =>
    -- the output was there when `Close` returned
    have hlt1 : o < s1.m.p.w.mgr.oheap.length := Nat.lt_of_lt_of_le ho (ext_length (ext_exec (pexec_inv (gexec_prog hsa)) (gexec_run hw)))
    have hc1 : s1.m.p.w.asyncOf env o = some cfg := async_before (pexec_inv hp1) (gexec_run h2) hlt1 hcfg
    obtain ⟨u, hu⟩ := channel_closed hcall hp1 (by
      have := hl.2
      rw [et, ← List.append_assoc, programOf_append] at this
      exact tame_left this) (closes_all hcall hp1 (by rw [hc1]; simp)) hc1
    exact ⟨u, by rw [et, ← List.append_assoc, programOf_append, outLabs_append]; exact List.mem_append_left _ hu⟩

/-- The library can get done with what was logged when the signal came. -/
theorem can_write {a b : List (GLab V)} {sa : Signalled V} (hos : PossibleAnswers env host up v0 os) (hsa : GExec env host me (newSignalled up v0) a sa) (ha : .signal ∉ a)
    (hb : GExec env host me sa (.signal :: b) s) (hl : LeavesOpen me (a ++ .signal :: b)) (hp : s.m.p.panicked = false) :
    ∃ gtr s', GExec env host me s gtr s' ∧ (∀ l ∈ gtr, ByLibrary me l) ∧ AnsweredBy os (machineOf (a ++ .signal :: b)) (machineOf gtr) ∧ s'.m.p.panicked = false ∧ Calm s'.m ∧
      ∀ o, o < sa.m.p.w.mgr.oheap.length → s'.m.p.w.asyncOf env o ≠ none → (s'.m.p.a o).worker = .stopped := by
  obtain ⟨g1, s1, h1, k1, k2, k3, k4, k5⟩ := can_close hos (hsa.trans hb) hl (by simp) hp
  have hs1 := hb.trans h1
  have h0 := hsa.trans hs1
  have hl1 : LeavesOpen me (a ++ (.signal :: b ++ g1)) := by
    rw [← List.append_assoc]
    have key : ∀ p ∈ programOf g1, Helps me p ∨ p = .ret me ∨ ∃ os, p = .close me os := fun p hp => by
      obtain ⟨x, hx, hpx⟩ := List.mem_flatMap.mp hp
      obtain ⟨y, hy, hxy⟩ := List.mem_flatMap.mp hx
      have := k1 y hy
      cases y with
      | signal => simp at hxy
      | received => simp at hxy
      | step z =>
        simp only [List.mem_singleton] at hxy
        subst hxy
        cases x <;> simp at hpx <;> subst hpx <;> exact this
    refine ⟨fun t os hm => ?_, fun t o hm => ?_⟩
    · rw [programOf_append] at hm
      rcases List.mem_append.mp hm with hm | hm
      · exact hl.1 t os hm
      · rcases key _ hm with k | k | ⟨_, k⟩
        · exact k.elim
        · cases k
        · cases k; rfl
    · rw [programOf_append] at hm
      rcases List.mem_append.mp hm with hm | hm
      · exact hl.2 t o hm
      · rcases key _ hm with k | k | ⟨_, k⟩
        · exact k
        · cases k
        · cases k
  obtain ⟨ls, p, j1, j2, j3, j4, j5⟩ := stop_all (List.range sa.m.p.w.mgr.oheap.length) (gexec_prog h0) k3 fun o ho hn =>
    closed_after hl1 ha hsa hs1 (by rw [← List.append_assoc]; exact k5) (List.mem_range.mp ho) hn
  obtain ⟨mtr, m', q1, q2, q3, q4, q5⟩ := run_lift hos (gexec_machine h0) k3 j1 j2
  have hls : ∀ l ∈ progOf mtr, Helps me l := by
    rw [q2]
    intro l hl
    obtain ⟨o, x, rfl, hx⟩ := j4 l hl
    exact .inr hx
  have g := lift_steps (me := me) q1 s1.chan .closes fun p hp => helps_unstarted (.inl (hls p hp))
  have es : ({ m := s1.m, chan := s1.chan, pc := .closes } : Signalled V) = s1 := by cases s1; cases k4; rfl
  rw [es] at g
  refine ⟨_, _, h1.trans g, fun l hl => ?_, ?_, by rw [q4]; exact j2, q5, fun o ho hn => ?_⟩
  · rcases List.mem_append.mp hl with hl | hl
    · exact k1 l hl
    · exact byLibrary_steps (fun p hp => .inl (hls p hp)) l hl
  · rw [machineOf_append g1]
    refine answered_append k2 ?_
    rw [← machineOf_append, machineOf_steps, List.append_assoc]
    exact q3
  · have hn' : p.w.asyncOf env o ≠ none := by rw [← q4]; exact hn
    rw [j3] at hn'
    show (m'.p.a o).worker = .stopped
    rw [q4]
    exact j5 o (List.mem_range.mpr ho) hn'

/-- What an output has written whose worker has stopped, or that was made after the signal. -/
theorem signal_texts {a c : List (GLab V)} {sa : Signalled V} (hsa : GExec env host me (newSignalled up v0) a sa) (ha : .signal ∉ a) (hl : LeavesOpen me a)
    (hc : GExec env host me sa c s) (hp : s.m.p.panicked = false) {o : Nat} {cfg : ACfg V} (ho : s.m.p.w.asyncOf env o = some cfg)
    (hstop : o < sa.m.p.w.mgr.oheap.length → (s.m.p.a o).worker = .stopped) :
    ∃ (f : Formatter V) (gs : List (List (Event V))) (before later : List (Nat × Event V)), cfg.f = some f ∧ (s.m.p.a o).writes = gs.map (·.flatMap f) ∧ gs.flatten = accepted cfg.t ((before ++ later).map (·.2)) ∧
      InTime o (programOf (a ++ c)) (before ++ later) ∧
      ∀ u, (∀ x y, programOf a = x ++ y → Returned u x → sentBy u o x <+: shareOf u before) ∧ shareOf u (before ++ later) <+ sentBy u o (programOf (a ++ c)) := by
  have hprog := gexec_prog (hsa.trans hc)
  have hpa := gexec_prog hsa
  have inv := pexec_inv hprog
  obtain ⟨⟨f, hf⟩, _, hb, _⟩ := asyncOf_cfg inv.world ho
  have hopen := (open_before hsa hl ha).2 o
  have e : programOf (a ++ c) = programOf a ++ programOf c := programOf_append _ _
  by_cases hlt : o < sa.m.p.w.mgr.oheap.length
  · have inva := pexec_inv hpa
    have hca : sa.m.p.w.asyncOf env o = some cfg := async_before inva (gexec_run hc) hlt ho
    have hreq : none ∉ queuedOf (outLabs o (programOf a)) := (never_closed (fun u => (inva.opened o hopen u).2) (inva.proj o cfg hca)).2.2.2.1
    have hx := inv.proj o cfg ho
    rw [e, outLabs_append] at hx
    obtain ⟨later, rest, g1, _, gs, g3, g4⟩ := stopped_pairs hf hx (inv.sound hp o) (hstop hlt) hreq
    have ht := async_inTime hprog ho
    rw [e, outLabs_append, g1, ← e] at ht
    refine ⟨f, gs, _, later, hf, g3, g4, inTime_prefix ht, fun u => ⟨fun x y exy hr => ?_, ?_⟩⟩
    · rw [async_returned hprog ho u (show programOf (a ++ c) = x ++ (y ++ programOf c) by rw [e, exy]; simp) (open_left (exy ▸ hopen)) hr, exy, outLabs_append, pairsOf_append, shareOf_append]
      exact List.prefix_append _ _
    · have hq := queued_logged hprog ho u
      rw [e, outLabs_append, g1, shareOf_append] at hq
      rw [e]
      exact (List.sublist_append_left _ _).trans hq
  · obtain ⟨gs, _, written, batch, waiting, e1, e2, _, e4, _⟩ := written_groups hf hb (inv.proj o cfg ho) (w1 := (s.m.p.a o).writes) (w2 := []) (by simp)
    have ht := async_inTime hprog ho
    rw [e1, List.append_assoc] at ht
    refine ⟨f, gs, [], written, hf, e2, e4, inTime_prefix ht, fun u => ⟨fun x y exy hr => ?_, ?_⟩⟩
    · have := (pexec_inv hpa).fresh u o (Nat.le_of_not_lt hlt)
      rw [exy, sentBy_append] at this
      rw [(List.append_eq_nil_iff.mp this).1]
      exact List.nil_prefix
    · have hq := queued_logged hprog ho u
      rw [e1, List.append_assoc, shareOf_append] at hq
      exact (List.sublist_append_left _ _).trans hq

theorem flatMap_groups (f : Formatter V) : ∀ gs : List (List (Event V)), (gs.map (·.flatMap f)).flatten = gs.flatten.flatMap f
  | [] => rfl
  | g :: gs => by rw [List.map_cons, List.flatten_cons, List.flatten_cons, List.flatMap_append, flatMap_groups f gs]

/-- What the files of an output hold that is writing nothing. -/
theorem disk_texts {mtr : List (MLab V)} {m : Machine V} (inv : MInv env host up v0 mtr m) {o : Nat} {c : RCfg} {k : Nat} {hs0 : List Str} (hd : Housed env host v0 mtr m o c k hs0)
    (hok : LogCallsOk (callsOf o (ioIn k mtr))) {cfg : ACfg V} (hc : m.p.w.asyncOf env o = some cfg) (hj : (m.wr o).job = none) {f : Formatter V} {gs : List (List (Event V))}
    {es : List (Event V)} (hg : (m.p.a o).writes = gs.map (·.flatMap f)) (he : gs.flatten = es) : KeepsLog host.lib c (files c (v0 k).dir hs0) (es.map f) (m.vol k).dir := by
  obtain ⟨bef, part, g1, _, _, hnil, g4⟩ := disk_messages inv hd.order (rolling_iff.mp hd.out) hd.place hd.apart hd.backups hd.names hok
  have hgiven : m.p.given env o = (m.p.a o).writes := by unfold PState.given; rw [hc]
  have hdo : doing (m.wr o) = [] := by simp [doing, hj]
  rw [hdo, List.append_nil, hgiven] at g1
  rw [hnil hj, List.append_nil, ← g1, hg] at g4
  rw [← he, List.map_flatten]
  refine keeps_regroup ?_
  rw [List.map_map]
  simpa [Function.comp_def, List.flatMap] using g4

end Log4g
