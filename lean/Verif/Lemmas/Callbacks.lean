import Verif.Spec.Callbacks
import Verif.Lemmas.World
import Verif.Lemmas.Config

namespace Log4g
open Spec

namespace Op

theorem bind_eq (x : Op α) (g : α → Op β) (s : CbState) : (x >>= g) s =
    (match x s with
    | .done a s => g a s
    | .panic s => .panic s
    | .stuck s => .stuck s) := rfl

theorem pure_eq (a : α) (s : CbState) : (pure a : Op α) s = .done a s := rfl

/-! ## Calls while the manager's lock is held -/

/-- Only levels of loggers differ. -/
inductive Near (w : World) : World → Prop
  | refl : Near w w
  | level {w' r lvl} : Near w w' → Near w (w'.setLevel r lvl)

theorem Near.trans {a b c : World} (h : Near a b) (h' : Near b c) : Near a c := by
  induction h' with
  | refl => exact h
  | level _ ih => exact .level ih

theorem Near.mgr {a b : World} (h : Near a b) : b.mgr = a.mgr := by
  induction h with
  | refl => rfl
  | level _ ih => exact ih

theorem Near.loggers {a b : World} (h : Near a b) : b.loggers = a.loggers := by
  induction h with
  | refl => rfl
  | level _ ih => exact ih

theorem Near.root {a b : World} (h : Near a b) : b.root = a.root := by
  induction h with
  | refl => rfl
  | level _ ih => exact ih

theorem Near.inv {a b : World} (h : Near a b) (i : WInv a) : WInv b := by
  induction h with
  | refl => exact i
  | level _ ih => exact (World.setLevel_inv ih _ _).1

theorem Near.swap {a b : World} (h : Near a b) (m : Manager) : Near { a with mgr := m } { b with mgr := m } := by
  induction h with
  | refl => exact .refl
  | level _ ih => exact .level (r := _) (lvl := _) ih

/-- Only levels of loggers and the manager differ. -/
def Apart (w w' : World) : Prop := Near { w with mgr := w'.mgr } w'

theorem Near.apart {a b : World} (h : Near a b) : Apart a b := by
  have := h.swap b.mgr
  exact this

theorem Apart.refl (a : World) : Apart a a := Near.refl

theorem Apart.trans {a b c : World} (h : Apart a b) (h' : Apart b c) : Apart a c :=
  (Near.swap h c.mgr).trans h'

theorem Apart.loggers {a b : World} (h : Apart a b) : b.loggers = a.loggers := Near.loggers (a := { a with mgr := b.mgr }) h
theorem Apart.root {a b : World} (h : Apart a b) : b.root = a.root := Near.root (a := { a with mgr := b.mgr }) h

theorem Apart.inv {a b : World} (h : Apart a b) (i : WInv a) (im : MgrInv b.mgr) (g : Grow a.mgr b.mgr) : WInv b :=
  Near.inv h (World.grow_inv i im g).1

theorem lockM_held {s : CbState} (h : s.m = true) : lockM s = .stuck s := by simp [lockM, h]

theorem getLoggerOutputs_held (cb : Callbacks) (i : CbCall → Op Unit) (n : Str) {s : CbState} (h : s.m = true) :
    getLoggerOutputs cb i n s = .stuck s := by
  simp [getLoggerOutputs, bind_eq, lockM_held h]

/-- What a call does while the manager's lock is held. -/
theorem held (cb : Callbacks) (i : CbCall → Op Unit) (c : CbCall) {s : CbState} (h : s.m = true) :
    (∃ s', callWith cb i c s = .done () s' ∧ s'.m = true ∧ s'.f = s.f ∧ Near s.w s'.w ∧ ¬ NeedsManager c ∧
      (s.f = true → ∀ n, c ≠ .getLogger n)) ∨
    (∃ s', callWith cb i c s = .stuck s' ∧ s'.m = true ∧ (s.f = true → s'.f = true) ∧ NeedsLock c) := by
  cases c with
  | registerFormatter t f => exact .inr ⟨s, by simp [callWith, bind_eq, lockM_held h], h, id, trivial⟩
  | registerOutput t f => exact .inr ⟨s, by simp [callWith, bind_eq, lockM_held h], h, id, trivial⟩
  | queryOutputs n => exact .inr ⟨s, by simp [callWith, bind_eq, getLoggerOutputs_held cb i n h], h, id, trivial⟩
  | close order => exact .inr ⟨s, by simp [callWith, close, bind_eq, lockM_held h], h, id, trivial⟩
  | setLevel r lvl => exact .inl ⟨{ s with w := s.w.setLevel r lvl }, rfl, h, rfl, .level .refl, id, by intro _ _ h; cases h⟩
  | log => exact .inl ⟨s, rfl, h, rfl, .refl, id, by intro _ _ h; cases h⟩
  | setConfig cfg order =>
    simp only [callWith, setConfig]
    cases hv : validateConfig cfg with
    | some e =>
      refine .inl ⟨s, rfl, h, rfl, .refl, ?_, by intro _ _ h; cases h⟩
      intro hc
      rw [(validateConfig_none_iff cfg).mpr hc] at hv; cases hv
    | none => exact .inr ⟨s, by simp [bind_eq, lockM_held h], h, id, (validateConfig_none_iff cfg).mp hv⟩
  | getLogger n =>
    obtain ⟨w, f, m⟩ := s
    subst h
    cases f with
    | true => exact .inr ⟨⟨w, true, true⟩, by simp [callWith, getLogger, bind_eq, lockF], rfl, id, trivial⟩
    | false =>
      simp only [callWith, getLogger, bind_eq, lockF, Bool.false_eq_true, if_false]
      have hroot : ∀ r, w.root = some r → getRootLogger cb i ⟨w, true, true⟩ = .done r ⟨w, true, true⟩ := by
        intro r hr; simp [getRootLogger, bind_eq, world, hr, ret]
      have hnone : w.root = none → ∃ w', getRootLogger cb i ⟨w, true, true⟩ = .stuck ⟨w', true, true⟩ := by
        intro hr
        exact ⟨_, by simp [getRootLogger, bind_eq, world, hr, change, getLoggerOutputs_held cb i]; rfl⟩
      by_cases hn : n = [] ∨ n = rootLoggerName
      · cases hr : w.root with
        | some r =>
          refine .inl ⟨⟨w, false, true⟩, ?_, rfl, rfl, .refl, id, by intro h; cases h⟩
          simp [deferUnlockF, loggerOf, hn, bind_eq, hroot r hr, ret]
        | none =>
          obtain ⟨w', hw⟩ := hnone hr
          refine .inr ⟨⟨w', true, true⟩, ?_, rfl, fun _ => rfl, trivial⟩
          simp [deferUnlockF, loggerOf, hn, bind_eq, hw]
      · cases hg : Map.get w.loggers n with
        | some r =>
          refine .inl ⟨⟨w, false, true⟩, ?_, rfl, rfl, .refl, id, by intro h; cases h⟩
          simp [deferUnlockF, loggerOf, hn, bind_eq, world, hg, ret]
        | none =>
          refine .inr ?_
          cases hr : w.root with
          | some r =>
            refine ⟨⟨((w.parentLoop r [] n).2.createLogger n (some (w.parentLoop r [] n).1)).2, true, true⟩, ?_, rfl, fun _ => rfl, trivial⟩
            simp [deferUnlockF, loggerOf, hn, bind_eq, world, hg, hroot r hr, change, configure, getLoggerOutputs_held cb i]
          | none =>
            obtain ⟨w', hw⟩ := hnone hr
            refine ⟨⟨w', true, true⟩, ?_, rfl, fun _ => rfl, trivial⟩
            simp [deferUnlockF, loggerOf, hn, bind_eq, world, hg, hw]

/-- While the manager's lock is held no creator and no `Close` is called: what they would do does not matter. -/
theorem held_any (cb cb' : Callbacks) (i i' : CbCall → Op Unit) (c : CbCall) {s : CbState} (h : s.m = true) :
    callWith cb i c s = callWith cb' i' c s := by
  have hg : ∀ n (s : CbState), s.m = true → getLoggerOutputs cb i n s = getLoggerOutputs cb' i' n s := by
    intro n s h
    rw [getLoggerOutputs_held _ _ _ h, getLoggerOutputs_held _ _ _ h]
  cases c with
  | registerFormatter t f => rfl
  | registerOutput t f => rfl
  | queryOutputs n => simp [callWith, bind_eq, hg n s h]
  | close order => simp [callWith, close, bind_eq, lockM_held h]
  | setLevel r lvl => rfl
  | log => rfl
  | setConfig cfg order => simp only [callWith, setConfig]; cases validateConfig cfg <;> simp [bind_eq, lockM_held h]
  | getLogger n =>
    obtain ⟨w, f, m⟩ := s
    subst h
    cases f with
    | true => simp [callWith, getLogger, bind_eq, lockF]
    | false =>
      simp only [callWith, getLogger, bind_eq, lockF, Bool.false_eq_true, if_false, deferUnlockF]
      have hr : getRootLogger cb i ⟨w, true, true⟩ = getRootLogger cb' i' ⟨w, true, true⟩ := by
        cases hr : w.root <;> simp [getRootLogger, bind_eq, world, hr, change, getLoggerOutputs_held]
      have : loggerOf cb i n ⟨w, true, true⟩ = loggerOf cb' i' n ⟨w, true, true⟩ := by
        by_cases hn : n = [] ∨ n = rootLoggerName
        · simp [loggerOf, hn, bind_eq, hr]
        · simp only [loggerOf, hn, if_false, bind_eq, world, hr]
          cases hg' : Map.get w.loggers n with
          | some r => rfl
          | none =>
            cases hr2 : w.root <;> simp [getRootLogger, bind_eq, world, hr2, change, getLoggerOutputs_held, configure, ret]
      rw [this]

/-! ## The manager, with its lock held -/

/-- Code that runs to its end while the manager's lock is held, and the factory's too if `f`. -/
def Free (f : Bool) (b : Body) : Prop := b.panics = false ∧ ∀ c ∈ b.calls, ¬ NeedsManager c ∧ (f = true → ∀ n, c ≠ .getLogger n)

theorem runAll_held (cb : Callbacks) (i : CbCall → Op Unit) (cs : List CbCall) {s : CbState} (h : s.m = true) :
    (∃ s', runAll (callWith cb i) cs s = .done () s' ∧ s'.m = true ∧ s'.f = s.f ∧ Near s.w s'.w ∧
      ∀ c ∈ cs, ¬ NeedsManager c ∧ (s.f = true → ∀ n, c ≠ .getLogger n)) ∨
    (∃ s', runAll (callWith cb i) cs s = .stuck s' ∧ s'.m = true ∧ (s.f = true → s'.f = true) ∧ ∃ c ∈ cs, NeedsLock c) := by
  induction cs generalizing s with
  | nil => exact .inl ⟨s, rfl, h, rfl, .refl, by simp⟩
  | cons c cs ih =>
    rcases held cb i c h with ⟨s1, e1, m1, f1, n1, a1, b1⟩ | ⟨s1, e1, m1, f1, a1⟩
    · rcases ih m1 with ⟨s2, e2, m2, f2, n2, a2⟩ | ⟨s2, e2, m2, f2, c2, hc2, a2⟩
      · refine .inl ⟨s2, by simp only [runAll, bind_eq, e1, e2], m2, f2.trans f1, n1.trans n2, ?_⟩
        intro x hx
        rcases List.mem_cons.mp hx with rfl | hx
        · exact ⟨a1, b1⟩
        · rw [← f1]; exact a2 x hx
      · exact .inr ⟨s2, by simp only [runAll, bind_eq, e1, e2], m2, fun h => f2 (f1.trans h), c2, List.mem_cons_of_mem _ hc2, a2⟩
    · exact .inr ⟨s1, by simp only [runAll, bind_eq, e1], m1, f1, c, List.mem_cons_self, a1⟩

/-- How code called by the library ends. -/
theorem runBody_held (cb : Callbacks) (i : CbCall → Op Unit) (b : Body) {s : CbState} (h : s.m = true) :
    (∃ s', runBody (callWith cb i) b s = .done () s' ∧ s'.m = true ∧ s'.f = s.f ∧ Near s.w s'.w ∧ Free s.f b) ∨
    (∃ s', runBody (callWith cb i) b s = .panic s' ∧ s'.m = true ∧ s'.f = s.f ∧ Near s.w s'.w ∧ b.panics = true) ∨
    (∃ s', runBody (callWith cb i) b s = .stuck s' ∧ s'.m = true ∧ (s.f = true → s'.f = true) ∧ ∃ c ∈ b.calls, NeedsLock c) := by
  rcases runAll_held cb i b.calls h with ⟨s1, e1, m1, f1, n1, a1⟩ | ⟨s1, e1, m1, f1, a1⟩
  · cases hp : b.panics with
    | true => exact .inr (.inl ⟨s1, by simp only [runBody, bind_eq, e1, hp]; rfl, m1, f1, n1, rfl⟩)
    | false => exact .inl ⟨s1, by simp [runBody, bind_eq, e1, hp, ret], m1, f1, n1, hp, a1⟩
  · exact .inr (.inr ⟨s1, by simp [runBody, bind_eq, e1], m1, f1, a1⟩)

/-- `x` does what `base` does if it returns. -/
def Stage (cb : Callbacks) (base : Manager → β × Manager) (x : Op β) (s : CbState) : Prop :=
  (∃ a s', x s = .done a s' ∧ s'.m = true ∧ s'.f = s.f ∧ Apart s.w s'.w ∧ base s.w.mgr = (a, s'.w.mgr) ∧ s.w.mgr.calls ≤ s'.w.mgr.calls ∧
    ∀ k, s.w.mgr.calls ≤ k → k < s'.w.mgr.calls → Free s.f (cb.make k)) ∨
  (∃ s', x s = .panic s' ∧ s'.m = true ∧ s'.f = s.f ∧ Apart s.w s'.w ∧
    (MgrInv s.w.mgr → Grow s.w.mgr s'.w.mgr ∧ MgrInv s'.w.mgr) ∧ ∃ k, (cb.make k).panics = true) ∨
  (∃ s', x s = .stuck s' ∧ s'.m = true ∧ (s.f = true → s'.f = true) ∧ ∃ k, ∃ c ∈ (cb.make k).calls, NeedsLock c)

theorem Stage.ret {cb : Callbacks} {base : Manager → β × Manager} {s : CbState} {x : Op β} {a : β} (h : s.m = true) (hx : x s = .done a s)
    (hb : base s.w.mgr = (a, s.w.mgr)) : Stage cb base x s :=
  .inl ⟨a, s, hx, h, rfl, .refl _, hb, Nat.le_refl _, by intro k h1 h2; omega⟩

theorem calls_inv {m : Manager} (inv : MgrInv m) (n : Nat) : Grow m { m with calls := n } ∧ MgrInv { m with calls := n } :=
  ⟨⟨rfl, rfl, rfl, fun _ _ h => h, fun _ _ h => h, ⟨[], by simp⟩, ⟨[], by simp⟩⟩, ⟨inv.fmtOk, inv.outOk, inv.managed, inv.fmtRef, inv.nodup⟩⟩

theorem create_stage {α : Type} (cb : Callbacks) (i : CbCall → Op Unit) (cr : Nat → CfgMap → Except Str α) (c : CfgMap) {s : CbState} (h : s.m = true) :
    Stage cb (fun m => (cr m.calls c, { m with calls := m.calls + 1 })) (create cb (callWith cb i) cr c) s := by
  have hs : ({ s with w := { s.w with mgr := { s.w.mgr with calls := s.w.mgr.calls + 1 } } } : CbState).m = true := h
  have ap : Apart s.w { s.w with mgr := { s.w.mgr with calls := s.w.mgr.calls + 1 } } := Near.refl
  rcases runBody_held cb i (cb.make s.w.mgr.calls) hs with ⟨s1, e1, m1, f1, n1, a1⟩ | ⟨s1, e1, m1, f1, n1, a1⟩ | ⟨s1, e1, m1, f1, a1⟩
  · refine .inl ⟨cr s.w.mgr.calls c, s1, by simp [create, bind_eq, world, change, e1, Op.ret], m1, f1, ap.trans n1.apart, by rw [n1.mgr], ?_, ?_⟩
    · rw [n1.mgr]; exact Nat.le_succ _
    · intro k h1 h2
      rw [n1.mgr] at h2
      have : k = s.w.mgr.calls := by simp only at h2; omega
      subst this; exact a1
  · refine .inr (.inl ⟨s1, by simp [create, bind_eq, world, change, e1], m1, f1, ap.trans n1.apart, ?_, _, a1⟩)
    intro im
    rw [n1.mgr]
    exact calls_inv im _
  · exact .inr (.inr ⟨s1, by simp [create, bind_eq, world, change, e1], m1, f1, _, a1⟩)

theorem getFormat_stage (cb : Callbacks) (i : CbCall → Op Unit) (fc : CfgMap) {s : CbState} (h : s.m = true) :
    Stage cb (fun m => m.getFormat fc) (getFormat cb (callWith cb i) fc) s := by
  cases h1 : Map.get s.w.mgr.fmtCreators fc.type with
  | none => exact .ret h (by simp [getFormat, bind_eq, world, h1, ret]; rfl) (by simp [Manager.getFormat, h1])
  | some cr =>
    cases h2 : Map.get s.w.mgr.formats fc.name with
    | some f => exact .ret h (by simp [getFormat, bind_eq, world, h1, h2, ret]; rfl) (by simp [Manager.getFormat, h1, h2])
    | none =>
      rcases create_stage cb i cr fc h with ⟨a, s1, e1, m1, f1, p1, b1, c1, d1⟩ | ⟨s1, e1, m1, f1, r1⟩ | ⟨s1, e1, m1, f1, r1⟩
      · injection b1 with b1 b2
        cases a with
        | error e =>
          refine .inl ⟨_, s1, by simp [getFormat, bind_eq, world, h1, h2, e1, ret]; rfl, m1, f1, p1, ?_, c1, d1⟩
          simp [Manager.getFormat, h1, h2, b1, b2]
        | ok flag =>
          refine .inl ⟨.ok s1.w.mgr.fheap.length, { s1 with w := { s1.w with mgr := { s1.w.mgr with fheap := s1.w.mgr.fheap ++ [⟨fc, flag⟩], formats := Map.set s1.w.mgr.formats fc.name s1.w.mgr.fheap.length } } },
            by simp [getFormat, bind_eq, world, h1, h2, e1, change, ret], m1, f1, ?_, ?_, c1, d1⟩
          · exact p1.trans Near.refl
          · simp [Manager.getFormat, h1, h2, b1, ← b2]
      · exact .inr (.inl ⟨s1, by simp [getFormat, bind_eq, world, h1, h2, e1], m1, f1, r1⟩)
      · exact .inr (.inr ⟨s1, by simp [getFormat, bind_eq, world, h1, h2, e1], m1, f1, r1⟩)

theorem getOutput_stage (cb : Callbacks) (i : CbCall → Op Unit) (oc : CfgMap) (g : Nat) {s : CbState} (h : s.m = true) :
    Stage cb (fun m => m.getOutput oc g) (getOutput cb (callWith cb i) oc g) s := by
  cases h1 : Map.get s.w.mgr.outCreators oc.type with
  | none => exact .ret h (by simp [getOutput, bind_eq, world, h1, ret]; rfl) (by simp [Manager.getOutput, h1])
  | some cr =>
    cases h2 : Map.get s.w.mgr.outputs oc.name with
    | some f => exact .ret h (by simp [getOutput, bind_eq, world, h1, h2, ret]; rfl) (by simp [Manager.getOutput, h1, h2])
    | none =>
      rcases create_stage cb i cr oc h with ⟨a, s1, e1, m1, f1, p1, b1, c1, d1⟩ | ⟨s1, e1, m1, f1, r1⟩ | ⟨s1, e1, m1, f1, r1⟩
      · injection b1 with b1 b2
        cases a with
        | error e =>
          refine .inl ⟨_, s1, by simp [getOutput, bind_eq, world, h1, h2, e1, ret]; rfl, m1, f1, p1, ?_, c1, d1⟩
          simp [Manager.getOutput, h1, h2, b1, b2]
        | ok u =>
          refine .inl ⟨.ok s1.w.mgr.oheap.length, { s1 with w := { s1.w with mgr := { s1.w.mgr with oheap := s1.w.mgr.oheap ++ [⟨.managed oc, some g⟩], outputs := Map.set s1.w.mgr.outputs oc.name s1.w.mgr.oheap.length } } },
            by simp [getOutput, bind_eq, world, h1, h2, e1, change, ret], m1, f1, ?_, ?_, c1, d1⟩
          · exact p1.trans Near.refl
          · simp [Manager.getOutput, h1, h2, b1, ← b2]
      · exact .inr (.inl ⟨s1, by simp [getOutput, bind_eq, world, h1, h2, e1], m1, f1, r1⟩)
      · exact .inr (.inr ⟨s1, by simp [getOutput, bind_eq, world, h1, h2, e1], m1, f1, r1⟩)

theorem free_join {cb : Callbacks} {f f' : Bool} {a b c : Nat} (hf : f' = f) (h1 : ∀ k, a ≤ k → k < b → Free f (cb.make k))
    (h2 : ∀ k, b ≤ k → k < c → Free f' (cb.make k)) : ∀ k, a ≤ k → k < c → Free f (cb.make k) := by
  intro k ha hc
  rcases Nat.lt_or_ge k b with h | h
  · exact h1 k ha h
  · rw [← hf]; exact h2 k h hc

theorem one_stage (cb : Callbacks) (i : CbCall → Op Unit) (opid : Str) {s : CbState} (h : s.m = true) :
    Stage cb (fun m => m.one opid) (one cb (callWith cb i) opid) s := by
  by_cases h1 : s.w.mgr.config.getCfgOutput opid = none
  · exact .ret h (by simp [one, bind_eq, world, h1, ret]; rfl) (by simp [Manager.one, h1])
  by_cases h2 : s.w.mgr.config.getCfgFormat (s.w.mgr.config.getCfgOutput opid).formatName = none
  · exact .ret h (by simp [one, bind_eq, world, h1, h2, ret]; rfl) (by simp [Manager.one, h1, h2])
  rcases getFormat_stage cb i (s.w.mgr.config.getCfgFormat (s.w.mgr.config.getCfgOutput opid).formatName) h with
    ⟨a, s1, e1, m1, f1, p1, b1, c1, d1⟩ | ⟨s1, e1, m1, f1, r1⟩ | ⟨s1, e1, m1, f1, r1⟩
  · cases a with
    | error e =>
      refine .inl ⟨_, s1, by simp [one, bind_eq, world, h1, h2, e1, ret]; rfl, m1, f1, p1, ?_, c1, d1⟩
      simp only at b1
      simp [Manager.one, h1, h2, b1]
    | ok g =>
      simp only at b1
      rcases getOutput_stage cb i (s.w.mgr.config.getCfgOutput opid) g m1 with
        ⟨a, s2, e2, m2, f2, p2, b2, c2, d2⟩ | ⟨s2, e2, m2, f2, p2, r2, r3⟩ | ⟨s2, e2, m2, f2, r2⟩
      · refine .inl ⟨a, s2, by simp [one, bind_eq, world, h1, h2, e1, e2], m2, f2.trans f1, p1.trans p2, ?_, Nat.le_trans c1 c2, free_join f1 d1 d2⟩
        simp only at b2
        simp [Manager.one, h1, h2, b1, b2]
      · refine .inr (.inl ⟨s2, by simp [one, bind_eq, world, h1, h2, e1, e2], m2, f2.trans f1, p1.trans p2, ?_, r3⟩)
        intro im
        have sp := getFormat_spec s.w.mgr im (s.w.mgr.config.getCfgFormat (s.w.mgr.config.getCfgOutput opid).formatName)
        rw [b1] at sp
        obtain ⟨g2, i2⟩ := r2 sp.2.1
        exact ⟨sp.1.trans g2, i2⟩
      · exact .inr (.inr ⟨s2, by simp [one, bind_eq, world, h1, h2, e1, e2], m2, fun h => f2 (f1.trans h), r2⟩)
  · exact .inr (.inl ⟨s1, by simp [one, bind_eq, world, h1, h2, e1], m1, f1, r1⟩)
  · exact .inr (.inr ⟨s1, by simp [one, bind_eq, world, h1, h2, e1], m1, f1, r1⟩)

theorem loop_stage (cb : Callbacks) (i : CbCall → Op Unit) (names : List Str) {s : CbState} (h : s.m = true) :
    Stage cb (fun m => m.loop names) (loop cb (callWith cb i) names) s := by
  induction names generalizing s with
  | nil => exact .ret h rfl rfl
  | cons n ns ih =>
    rcases one_stage cb i n h with ⟨a, s1, e1, m1, f1, p1, b1, c1, d1⟩ | ⟨s1, e1, m1, f1, r1⟩ | ⟨s1, e1, m1, f1, r1⟩
    · simp only at b1
      cases a with
      | error e =>
        exact .inl ⟨_, s1, by simp [loop, bind_eq, e1, ret]; rfl, m1, f1, p1, by simp [Manager.loop, b1], c1, d1⟩
      | ok o =>
        rcases ih m1 with ⟨a, s2, e2, m2, f2, p2, b2, c2, d2⟩ | ⟨s2, e2, m2, f2, p2, r2, r3⟩ | ⟨s2, e2, m2, f2, r2⟩
        · simp only at b2
          cases a with
          | error e =>
            exact .inl ⟨_, s2, by simp [loop, bind_eq, e1, e2, ret]; rfl, m2, f2.trans f1, p1.trans p2, by simp [Manager.loop, b1, b2],
              Nat.le_trans c1 c2, free_join f1 d1 d2⟩
          | ok os =>
            exact .inl ⟨_, s2, by simp [loop, bind_eq, e1, e2, ret]; rfl, m2, f2.trans f1, p1.trans p2, by simp [Manager.loop, b1, b2],
              Nat.le_trans c1 c2, free_join f1 d1 d2⟩
        · refine .inr (.inl ⟨s2, by simp [loop, bind_eq, e1, e2], m2, f2.trans f1, p1.trans p2, ?_, r3⟩)
          intro im
          have sp := one_spec s.w.mgr im n
          rw [b1] at sp
          obtain ⟨g2, i2⟩ := r2 sp.2.1
          exact ⟨sp.1.trans g2, i2⟩
        · exact .inr (.inr ⟨s2, by simp [loop, bind_eq, e1, e2], m2, fun h => f2 (f1.trans h), r2⟩)
    · exact .inr (.inl ⟨s1, by simp [loop, bind_eq, e1], m1, f1, r1⟩)
    · exact .inr (.inr ⟨s1, by simp [loop, bind_eq, e1], m1, f1, r1⟩)

theorem outputsOf_stage (cb : Callbacks) (i : CbCall → Op Unit) (name : Str) {s : CbState} (h : s.m = true) :
    Stage cb (fun m => m.getLoggerOutputs name) (outputsOf cb (callWith cb i) name) s := by
  cases h1 : s.w.mgr.config.getCfgLogger name with
  | none => exact .ret h (by simp [outputsOf, bind_eq, world, h1, ret]; rfl) (by simp [Manager.getLoggerOutputs, h1])
  | some lc =>
    rcases loop_stage cb i lc.outputNames h with ⟨a, s1, e1, m1, f1, p1, b1, c1, d1⟩ | ⟨s1, e1, m1, f1, r1⟩ | ⟨s1, e1, m1, f1, r1⟩
    · simp only at b1
      cases a with
      | error e => exact .inl ⟨_, s1, by simp [outputsOf, bind_eq, world, h1, e1, ret]; rfl, m1, f1, p1, by simp [Manager.getLoggerOutputs, h1, b1], c1, d1⟩
      | ok o => exact .inl ⟨_, s1, by simp [outputsOf, bind_eq, world, h1, e1, ret]; rfl, m1, f1, p1, by simp [Manager.getLoggerOutputs, h1, b1], c1, d1⟩
    · exact .inr (.inl ⟨s1, by simp [outputsOf, bind_eq, world, h1, e1], m1, f1, r1⟩)
    · exact .inr (.inr ⟨s1, by simp [outputsOf, bind_eq, world, h1, e1], m1, f1, r1⟩)

/-- `GetLoggerOutputs` with the manager's lock free. -/
theorem getLoggerOutputs_free (cb : Callbacks) (i : CbCall → Op Unit) (name : Str) {s : CbState} (h : s.m = false) :
    (∃ a s', getLoggerOutputs cb (callWith cb i) name s = .done a s' ∧ s'.m = false ∧ s'.f = s.f ∧ Apart s.w s'.w ∧
      s.w.mgr.getLoggerOutputs name = (a, s'.w.mgr) ∧ s.w.mgr.calls ≤ s'.w.mgr.calls ∧
      ∀ k, s.w.mgr.calls ≤ k → k < s'.w.mgr.calls → Free s.f (cb.make k)) ∨
    (∃ s', getLoggerOutputs cb (callWith cb i) name s = .panic s' ∧ s'.m = false ∧ s'.f = s.f ∧ Apart s.w s'.w ∧
      (MgrInv s.w.mgr → Grow s.w.mgr s'.w.mgr ∧ MgrInv s'.w.mgr) ∧ ∃ k, (cb.make k).panics = true) ∨
    (∃ s', getLoggerOutputs cb (callWith cb i) name s = .stuck s' ∧ s'.m = true ∧ (s.f = true → s'.f = true) ∧
      ∃ k, ∃ c ∈ (cb.make k).calls, NeedsLock c) := by
  have hs : ({ s with m := true } : CbState).m = true := rfl
  rcases outputsOf_stage cb i name hs with ⟨a, s1, e1, m1, f1, p1, b1, c1, d1⟩ | ⟨s1, e1, m1, f1, r1⟩ | ⟨s1, e1, m1, f1, r1⟩
  · exact .inl ⟨a, { s1 with m := false }, by simp [getLoggerOutputs, bind_eq, lockM, h, deferUnlockM, e1], rfl, f1, p1, b1, c1, d1⟩
  · exact .inr (.inl ⟨{ s1 with m := false }, by simp [getLoggerOutputs, bind_eq, lockM, h, deferUnlockM, e1], rfl, f1, r1⟩)
  · exact .inr (.inr ⟨s1, by simp [getLoggerOutputs, bind_eq, lockM, h, deferUnlockM, e1], m1, f1, r1⟩)

/-! ## The factory -/

/-- How code of the factory ends, and what is then so. -/
def Ends (cb : Callbacks) (x : Op β) (s : CbState) (done : β → CbState → Prop) (panic : CbState → Prop) : Prop :=
  (∃ a s', x s = .done a s' ∧ s'.m = false ∧ s'.f = s.f ∧ s.w.mgr.calls ≤ s'.w.mgr.calls ∧
    (∀ k, s.w.mgr.calls ≤ k → k < s'.w.mgr.calls → Free s.f (cb.make k)) ∧ done a s') ∨
  (∃ s', x s = .panic s' ∧ s'.m = false ∧ s'.f = s.f ∧ (∃ k, (cb.make k).panics = true) ∧ panic s') ∨
  (∃ s', x s = .stuck s' ∧ s'.m = true ∧ (s.f = true → s'.f = true) ∧ ∃ k, ∃ c ∈ (cb.make k).calls, NeedsLock c)

theorem configure_ends (cb : Callbacks) (i : CbCall → Op Unit) (r : Nat) (name : Str) {s : CbState} (h : s.m = false) (inv : WInv s.w) :
    Ends cb (configure cb (callWith cb i) r name) s (fun _ s' => WInv s'.w ∧ s'.w.loggers = s.w.loggers ∧ s'.w.root = s.w.root)
      (fun s' => WInv s'.w ∧ s'.w.loggers = s.w.loggers ∧ s'.w.root = s.w.root) := by
  rcases getLoggerOutputs_free cb i name h with ⟨a, s1, e1, m1, f1, p1, b1, c1, d1⟩ | ⟨s1, e1, m1, f1, p1, g1, r1⟩ | ⟨s1, e1, m1, f1, r1⟩
  · have sp := getLoggerOutputs_spec s.w.mgr inv.mgr name
    rw [b1] at sp
    have i1 := p1.inv inv sp.2.1 sp.1
    cases a with
    | error e => exact .inl ⟨(), s1, by simp [configure, bind_eq, e1, ret], m1, f1, c1, d1, i1, p1.loggers, p1.root⟩
    | ok x =>
      obtain ⟨ops, lvl⟩ := x
      obtain ⟨lc, -, -, hres⟩ := sp.2.2 ops lvl rfl
      have i2 := (World.setLevel_inv i1 r lvl).1
      have i3 := (World.setOutputs_inv i2 r ops (hres.bound sp.2.1)).1
      exact .inl ⟨(), { s1 with w := (s1.w.setLevel r lvl).setOutputs r ops }, by simp [configure, bind_eq, e1, change], m1, f1, c1, d1, i3, p1.loggers, p1.root⟩
  · obtain ⟨g, im⟩ := g1 inv.mgr
    exact .inr (.inl ⟨s1, by simp [configure, bind_eq, e1], m1, f1, r1, p1.inv inv im g, p1.loggers, p1.root⟩)
  · exact .inr (.inr ⟨s1, by simp [configure, bind_eq, e1], m1, f1, r1⟩)

/-- A lone logger changes nothing but its level. -/
theorem Near.lone {w w' : World} (h : Near w w') {l : Logger} (hl : w.heap = [l]) : ∃ lvl, w'.heap = [{ l with level := lvl }] := by
  induction h with
  | refl => exact ⟨l.level, hl⟩
  | @level w' r lvl _ ih =>
    obtain ⟨x, hx⟩ := ih
    cases r with
    | zero => exact ⟨lvl, by simp [World.setLevel, World.update, hx]⟩
    | succ r => exact ⟨x, by simp [World.setLevel, World.update, hx]⟩

theorem getRootLogger_ends (cb : Callbacks) (i : CbCall → Op Unit) {s : CbState} (h : s.m = false) (inv : WInv s.w) :
    Ends cb (getRootLogger cb (callWith cb i)) s
      (fun r s' => WInv s'.w ∧ s'.w.root = some r ∧ (s.w.root ≠ none → s' = s)) (fun _ => s.w.root = none) := by
  cases hr : s.w.root with
  | some r =>
    exact .inl ⟨r, s, by simp [getRootLogger, bind_eq, world, hr, ret], h, rfl, Nat.le_refl _, by intro k h1 h2; omega, inv, hr, fun _ => rfl⟩
  | none =>
    obtain ⟨hh, hl⟩ := World.root_create_inv inv hr
    have hs : ({ s with w := { s.w with root := some s.w.heap.length, heap := s.w.heap ++ [newLogger rootLoggerName] } } : CbState).m = false := h
    have hset : Map.set ([] : Map Str Nat) rootLoggerName 0 = [(rootLoggerName, 0)] := rfl
    rcases getLoggerOutputs_free cb i rootLoggerName hs with ⟨a, s1, e1, m1, f1, p1, b1, c1, d1⟩ | ⟨s1, e1, m1, f1, p1, g1, r1⟩ | ⟨s1, e1, m1, f1, r1⟩
    · have sp := getLoggerOutputs_spec s.w.mgr inv.mgr rootLoggerName
      simp only at b1
      rw [b1] at sp
      obtain ⟨lv, hlone⟩ := Near.lone (l := newLogger rootLoggerName) p1 (by simp [hh])
      have hl1 : s1.w.loggers = [] := p1.loggers.trans hl
      have hr1 : s1.w.root = some 0 := p1.root.trans (by simp [hh])
      simp only [hh, List.length_nil, List.nil_append] at e1
      cases a with
      | error e =>
        refine .inl ⟨0, { s1 with w := { mgr := { s1.w.mgr with oheap := s1.w.mgr.oheap ++ [{ origin := .console, fmt := none }] }, root := some 0, loggers := [(rootLoggerName, 0)], heap := [{ newLogger rootLoggerName with level := Level.Debug, outputs := [s1.w.mgr.oheap.length], callerInfoFlag := 0 }] } }, ?_, m1, f1, c1, d1, ?_, rfl, by intro h; exact absurd rfl h⟩
        · have hflag : Manager.outFlag { s1.w.mgr with oheap := s1.w.mgr.oheap ++ [{ origin := .console, fmt := none }] } s1.w.mgr.oheap.length = 0 := by
            simp [Manager.outFlag]
          simp only [getRootLogger, bind_eq, world, hr, hh, change, List.length_nil, List.nil_append, e1]
          simp [ret, World.setLevel, World.setOutputs, World.update, hlone, hl1, hset, hr1, World.raiseFlag, newLogger, hflag]
        · have hflag : Manager.outFlag { s1.w.mgr with oheap := s1.w.mgr.oheap ++ [{ origin := .console, fmt := none }] } s1.w.mgr.oheap.length = 0 := by
            simp [Manager.outFlag]
          exact World.root_inv (World.console_inv sp.2.1) Level.Debug [s1.w.mgr.oheap.length] 0 (by simp) (by simp [hflag]) (.inl rfl)
      | ok x =>
        obtain ⟨ops, lvl⟩ := x
        obtain ⟨lc, -, -, hres⟩ := sp.2.2 ops lvl rfl
        refine .inl ⟨0, { s1 with w := { mgr := s1.w.mgr, root := some 0, loggers := [(rootLoggerName, 0)], heap := [{ newLogger rootLoggerName with level := lvl, outputs := ops, callerInfoFlag := World.raiseFlag s1.w.mgr 0 ops }] } }, ?_, m1, f1, c1, d1, ?_, rfl, by intro h; exact absurd rfl h⟩
        · simp only [getRootLogger, bind_eq, world, hr, hh, change, List.length_nil, List.nil_append, e1]
          simp [ret, World.setLevel, World.setOutputs, World.update, hlone, hl1, hset, hr1, newLogger]
        · exact World.root_inv sp.2.1 lvl ops _ (hres.bound sp.2.1) (World.raiseFlag_ge _ _ _).2 (World.raiseFlag_from _ _ _)
    · exact .inr (.inl ⟨s1, by simp [getRootLogger, bind_eq, world, hr, change, e1], m1, f1, r1, rfl⟩)
    · exact .inr (.inr ⟨s1, by simp [getRootLogger, bind_eq, world, hr, change, e1], m1, f1, r1⟩)

theorem loggerOf_ends (cb : Callbacks) (i : CbCall → Op Unit) (n : Str) {s : CbState} (h : s.m = false) (inv : WInv s.w) :
    Ends cb (loggerOf cb (callWith cb i) n) s (fun _ s' => WInv s'.w ∧ s'.w.root ≠ none)
      (fun s' => s.w.root ≠ none → WInv s'.w ∧ s'.w.root ≠ none) := by
  by_cases hn : n = [] ∨ n = rootLoggerName
  · rcases getRootLogger_ends cb i h inv with ⟨a, s1, e1, m1, f1, c1, d1, i1, r1, -⟩ | ⟨s1, e1, m1, f1, r1, q1⟩ | ⟨s1, e1, m1, f1, r1⟩
    · exact .inl ⟨(), s1, by simp [loggerOf, hn, bind_eq, e1, ret], m1, f1, c1, d1, i1, by rw [r1]; simp⟩
    · exact .inr (.inl ⟨s1, by simp [loggerOf, hn, bind_eq, e1], m1, f1, r1, fun hne => absurd q1 hne⟩)
    · exact .inr (.inr ⟨s1, by simp [loggerOf, hn, bind_eq, e1], m1, f1, r1⟩)
  · cases hg : Map.get s.w.loggers n with
    | some r =>
      refine .inl ⟨(), s, by simp [loggerOf, hn, bind_eq, world, hg, ret], h, rfl, Nat.le_refl _, by intro k h1 h2; omega, inv, ?_⟩
      obtain ⟨l, hl, -⟩ := inv.named n r hg
      obtain ⟨x, hx⟩ := inv.rooted (by intro e; rw [e] at hl; simp at hl)
      rw [hx]; simp
    | none =>
      rcases getRootLogger_ends cb i h inv with ⟨a, s1, e1, m1, f1, c1, d1, i1, r1, same⟩ | ⟨s1, e1, m1, f1, r1, q1⟩ | ⟨s1, e1, m1, f1, r1⟩
      · obtain ⟨lr, h1, h2⟩ := i1.named _ _ ((i1.rootIn a).mp r1)
        obtain ⟨i2, x2, ⟨lq, h3, h4⟩, hm2⟩ := World.parentLoop_spec i1 h1 [] n (by rw [h2]; exact parentOf_nil)
        simp only [List.nil_append] at h4
        obtain ⟨i3, x3, hget, hm3⟩ := World.create_inv i2 h3 h4 (fun e => hn (.inl e)) (fun e => hn (.inr e))
        generalize hw2 : s1.w.parentLoop a [] n = pw at *
        obtain ⟨p, w2⟩ := pw
        simp only at *
        generalize hw3 : w2.createLogger n (some p) = rw3 at *
        obtain ⟨r, w3⟩ := rw3
        simp only at *
        have root3 : w3.root = some a := x3.root _ (x2.root _ r1)
        have hs3 : ({ s1 with w := w3 } : CbState).m = false := m1
        have mm : w3.mgr = s1.w.mgr := hm3.trans hm2
        rcases configure_ends cb i r n hs3 i3 with ⟨_, s4, e4, m4, f4, c4, d4, i4, -, r4⟩ | ⟨s4, e4, m4, f4, q4, i4, -, r4⟩ | ⟨s4, e4, m4, f4, q4⟩
        · refine .inl ⟨(), s4, by simp [loggerOf, hn, bind_eq, world, hg, e1, hw2, hw3, change, e4], m4, f4.trans f1, ?_, ?_, i4, ?_⟩
          · simp only [mm] at c4; exact Nat.le_trans c1 c4
          · simp only [mm] at d4; exact free_join f1 d1 d4
          · rw [r4, root3]; simp
        · refine .inr (.inl ⟨s4, by simp [loggerOf, hn, bind_eq, world, hg, e1, hw2, hw3, change, e4], m4, f4.trans f1, q4, fun _ => ⟨i4, ?_⟩⟩)
          rw [r4, root3]; simp
        · exact .inr (.inr ⟨s4, by simp [loggerOf, hn, bind_eq, world, hg, e1, hw2, hw3, change, e4], m4, fun h => f4 (f1.trans h), q4⟩)
      · exact .inr (.inl ⟨s1, by simp [loggerOf, hn, bind_eq, world, hg, e1], m1, f1, r1, fun hne => absurd q1 hne⟩)
      · exact .inr (.inr ⟨s1, by simp [loggerOf, hn, bind_eq, world, hg, e1], m1, f1, r1⟩)

theorem notifyLoop_ends (cb : Callbacks) (i : CbCall → Op Unit) (order : List Nat) {s : CbState} (h : s.m = false) (inv : WInv s.w) :
    Ends cb (notifyLoop cb (callWith cb i) order) s (fun _ s' => WInv s'.w ∧ s'.w.root = s.w.root)
      (fun s' => WInv s'.w ∧ s'.w.root = s.w.root) := by
  induction order generalizing s with
  | nil => exact .inl ⟨(), s, rfl, h, rfl, Nat.le_refl _, by intro k h1 h2; omega, inv, rfl⟩
  | cons r rs ih =>
    cases hl : s.w.heap[r]? with
    | none =>
      have e : notifyLoop cb (callWith cb i) (r :: rs) s = notifyLoop cb (callWith cb i) rs s := by simp [notifyLoop, bind_eq, world, hl]
      have := ih h inv
      unfold Ends at this ⊢
      rw [e]; exact this
    | some l =>
      rcases configure_ends cb i r l.name h inv with ⟨_, s4, e4, m4, f4, c4, d4, i4, -, r4⟩ | ⟨s4, e4, m4, f4, q4, i4, -, r4⟩ | ⟨s4, e4, m4, f4, q4⟩
      · rcases ih m4 i4 with ⟨_, s5, e5, m5, f5, c5, d5, i5, r5⟩ | ⟨s5, e5, m5, f5, q5, i5, r5⟩ | ⟨s5, e5, m5, f5, q5⟩
        · exact .inl ⟨(), s5, by simp [notifyLoop, bind_eq, world, hl, e4, e5], m5, f5.trans f4, Nat.le_trans c4 c5, free_join f4 d4 d5, i5, r5.trans r4⟩
        · exact .inr (.inl ⟨s5, by simp [notifyLoop, bind_eq, world, hl, e4, e5], m5, f5.trans f4, q5, i5, r5.trans r4⟩)
        · exact .inr (.inr ⟨s5, by simp [notifyLoop, bind_eq, world, hl, e4, e5], m5, fun h => f5 (f4.trans h), q5⟩)
      · exact .inr (.inl ⟨s4, by simp [notifyLoop, bind_eq, world, hl, e4], m4, f4, q4, i4, r4⟩)
      · exact .inr (.inr ⟨s4, by simp [notifyLoop, bind_eq, world, hl, e4], m4, f4, q4⟩)

end Op
end Log4g
