import Verif.Lemmas.Callbacks

namespace Log4g
open Spec

namespace Op

/-! ## Calls of the program -/

theorem closeLoop_held (cb : Callbacks) (i : CbCall → Op Unit) (order : List Nat) {s : CbState} (h : s.m = true) :
    (∃ s', closeLoop cb (callWith cb i) order s = .done () s' ∧ s'.m = true ∧ s'.f = s.f ∧ Near s.w s'.w ∧ ∀ o ∈ order, Free s.f (cb.shut o)) ∨
    (∃ s', closeLoop cb (callWith cb i) order s = .panic s' ∧ s'.m = true ∧ s'.f = s.f ∧ Near s.w s'.w ∧ ∃ o, (cb.shut o).panics = true) ∨
    (∃ s', closeLoop cb (callWith cb i) order s = .stuck s' ∧ s'.m = true ∧ ∃ o, ∃ c ∈ (cb.shut o).calls, NeedsLock c) := by
  induction order generalizing s with
  | nil => exact .inl ⟨s, rfl, h, rfl, .refl, by simp⟩
  | cons o os ih =>
    rcases runBody_held cb i (cb.shut o) h with ⟨s1, e1, m1, f1, n1, a1⟩ | ⟨s1, e1, m1, f1, n1, a1⟩ | ⟨s1, e1, m1, f1, a1⟩
    · rcases ih m1 with ⟨s2, e2, m2, f2, n2, a2⟩ | ⟨s2, e2, m2, f2, n2, a2⟩ | ⟨s2, e2, m2, a2⟩
      · refine .inl ⟨s2, by simp only [closeLoop, bind_eq, e1, e2], m2, f2.trans f1, n1.trans n2, ?_⟩
        intro x hx
        rcases List.mem_cons.mp hx with rfl | hx
        · exact a1
        · rw [← f1]; exact a2 x hx
      · exact .inr (.inl ⟨s2, by simp only [closeLoop, bind_eq, e1, e2], m2, f2.trans f1, n1.trans n2, a2⟩)
      · exact .inr (.inr ⟨s2, by simp only [closeLoop, bind_eq, e1, e2], m2, a2⟩)
    · exact .inr (.inl ⟨s1, by simp only [closeLoop, bind_eq, e1], m1, f1, n1, o, a1⟩)
    · exact .inr (.inr ⟨s1, by simp only [closeLoop, bind_eq, e1], m1, o, a1⟩)

/-- The calls that take the factory's lock. -/
def Factory : CbCall → Prop
  | .getLogger _ | .setConfig _ _ => True
  | _ => False

/-- How a call of the program ends. -/
structure RunDone (cb : Callbacks) (c : CbCall) (s s' : CbState) : Prop where
  m : s'.m = false
  f : s'.f = false
  inv : WInv s'.w
  calls : s.w.mgr.calls ≤ s'.w.mgr.calls
  made : ∀ k, s.w.mgr.calls ≤ k → k < s'.w.mgr.calls → Free false (cb.make k)
  factory : Factory c → ∀ k, s.w.mgr.calls ≤ k → k < s'.w.mgr.calls → Free true (cb.make k)
  shut : ∀ order, c = .close order → ∀ o ∈ order, Free false (cb.shut o)
  root : s.w.root ≠ none → s'.w.root ≠ none
  got : ∀ n, c = .getLogger n → s'.w.root ≠ none

theorem Free.less {b : Body} (h : Free true b) : Free false b := ⟨h.1, fun c hc => ⟨(h.2 c hc).1, by intro h; cases h⟩⟩

theorem run_ends (cb : Callbacks) (c : CbCall) {s : CbState} (hm : s.m = false) (hf : s.f = false) (inv : WInv s.w) :
    (∃ s', run cb c s = .done () s' ∧ RunDone cb c s s') ∨
    (∃ s', run cb c s = .panic s' ∧ ((∃ k, (cb.make k).panics = true) ∨ ∃ o, (cb.shut o).panics = true) ∧
      ((∀ order, c ≠ .close order) → s'.m = false ∧ s'.f = false ∧ (s.w.root ≠ none → WInv s'.w ∧ s'.w.root ≠ none)) ∧
      ((∃ order, c = .close order) → s'.m = true)) ∨
    (∃ s', run cb c s = .stuck s' ∧ s'.m = true ∧ (Factory c → s'.f = true) ∧
      ((∃ k, ∃ c ∈ (cb.make k).calls, NeedsLock c) ∨ ∃ o, ∃ c ∈ (cb.shut o).calls, NeedsLock c)) := by
  have none : ∀ (k : Nat), s.w.mgr.calls ≤ k → k < s.w.mgr.calls → ∀ f, Free f (cb.make k) := by intro k h1 h2; omega
  cases c with
  | registerFormatter t g =>
    refine .inl ⟨{ s with w := s.w.registerFormatter t g }, by simp [run, callWith, bind_eq, lockM, hm, change, unlockM], hm, hf, ?_, Nat.le_refl _,
      fun k a b => none k a b _, fun h => h.elim, (by intro _ h; cases h), id, (by intro _ h; cases h)⟩
    exact (step_inv inv (.registerFormatter t g) trivial).1
  | registerOutput t g =>
    refine .inl ⟨{ s with w := s.w.registerOutput t g }, by simp [run, callWith, bind_eq, lockM, hm, change, unlockM], hm, hf, ?_, Nat.le_refl _,
      fun k a b => none k a b _, fun h => h.elim, (by intro _ h; cases h), id, (by intro _ h; cases h)⟩
    exact (step_inv inv (.registerOutput t g) trivial).1
  | setLevel r lvl =>
    exact .inl ⟨{ s with w := s.w.setLevel r lvl }, rfl, hm, hf, (World.setLevel_inv inv r lvl).1, Nat.le_refl _,
      fun k a b => none k a b _, fun h => h.elim, (by intro _ h; cases h), id, (by intro _ h; cases h)⟩
  | log =>
    exact .inl ⟨s, rfl, hm, hf, inv, Nat.le_refl _, fun k a b => none k a b _, fun h => h.elim, (by intro _ h; cases h), id, (by intro _ h; cases h)⟩
  | queryOutputs n =>
    rcases getLoggerOutputs_free cb (fun _ => ret ()) n hm with ⟨a, s1, e1, m1, f1, p1, b1, c1, d1⟩ | ⟨s1, e1, m1, f1, p1, g1, r1⟩ | ⟨s1, e1, m1, f1, r1⟩
    · have sp := getLoggerOutputs_spec s.w.mgr inv.mgr n
      rw [b1] at sp
      exact .inl ⟨s1, by simp [run, callWith, bind_eq, e1, ret], m1, f1.trans hf, p1.inv inv sp.2.1 sp.1, c1, (by rw [hf] at d1; exact d1),
        fun h => h.elim, (by intro _ h; cases h), (by rw [p1.root]; exact id), (by intro _ h; cases h)⟩
    · refine .inr (.inl ⟨s1, by simp [run, callWith, bind_eq, e1], .inl r1, fun _ => ⟨m1, f1.trans hf, fun hr => ?_⟩, by rintro ⟨_, h⟩; cases h⟩)
      obtain ⟨g, im⟩ := g1 inv.mgr
      exact ⟨p1.inv inv im g, by rw [p1.root]; exact hr⟩
    · exact .inr (.inr ⟨s1, by simp [run, callWith, bind_eq, e1], m1, fun h => h.elim, .inl r1⟩)
  | close order =>
    have hs : ({ s with m := true } : CbState).m = true := rfl
    rcases closeLoop_held cb (fun _ => ret ()) order hs with ⟨s1, e1, m1, f1, n1, a1⟩ | ⟨s1, e1, m1, f1, n1, a1⟩ | ⟨s1, e1, m1, a1⟩
    · refine .inl ⟨{ s1 with m := false }, by simp [run, callWith, close, bind_eq, lockM, hm, e1, unlockM], rfl, f1.trans hf, n1.inv inv, ?_, ?_,
        fun h => h.elim, ?_, ?_, by intro _ h; cases h⟩
      · show s.w.mgr.calls ≤ s1.w.mgr.calls
        rw [n1.mgr]; exact Nat.le_refl _
      · intro k h1 h2
        have h2 : k < s1.w.mgr.calls := h2
        rw [n1.mgr] at h2
        exact none k h1 h2 _
      · intro o h
        injection h with h; subst h
        rw [show ({ s with m := true } : CbState).f = s.f from rfl, hf] at a1
        exact a1
      · intro h
        show s1.w.root ≠ _
        rw [n1.root]; exact h
    · refine .inr (.inl ⟨s1, by simp [run, callWith, close, bind_eq, lockM, hm, e1], .inr a1, fun h => absurd rfl (h order), fun _ => m1⟩)
    · exact .inr (.inr ⟨s1, by simp [run, callWith, close, bind_eq, lockM, hm, e1], m1, fun h => h.elim, .inr a1⟩)
  | getLogger n =>
    have hs : ({ s with f := true } : CbState).m = false := hm
    rcases loggerOf_ends cb (fun _ => ret ()) n hs inv with ⟨_, s1, e1, m1, f1, c1, d1, i1, r1⟩ | ⟨s1, e1, m1, f1, q1, r1⟩ | ⟨s1, e1, m1, f1, q1⟩
    · exact .inl ⟨{ s1 with f := false }, by simp [run, callWith, getLogger, bind_eq, lockF, hf, deferUnlockF, e1], m1, rfl, i1, c1,
        fun k a b => (d1 k a b).less, fun _ => d1, (by intro _ h; cases h), fun _ => r1, fun _ _ => r1⟩
    · exact .inr (.inl ⟨{ s1 with f := false }, by simp [run, callWith, getLogger, bind_eq, lockF, hf, deferUnlockF, e1], .inl q1,
        fun _ => ⟨m1, rfl, r1⟩, by rintro ⟨_, h⟩; cases h⟩)
    · exact .inr (.inr ⟨s1, by simp [run, callWith, getLogger, bind_eq, lockF, hf, deferUnlockF, e1], m1, fun _ => f1 rfl, .inl q1⟩)
  | setConfig cfg order =>
    cases hv : validateConfig cfg with
    | some e =>
      exact .inl ⟨s, by simp [run, callWith, setConfig, hv, ret], hm, hf, inv, Nat.le_refl _, fun k a b => none k a b _, fun _ k a b => none k a b _,
        (by intro _ h; cases h), id, (by intro _ h; cases h)⟩
    | none =>
      have hs : ({ s with f := true, m := false, w := { s.w with mgr := { s.w.mgr with config := cfg } } } : CbState).m = false := rfl
      rcases notifyLoop_ends cb (fun _ => ret ()) order hs (World.withConfig_inv inv cfg).1 with
        ⟨_, s1, e1, m1, f1, c1, d1, i1, r1⟩ | ⟨s1, e1, m1, f1, q1, i1, r1⟩ | ⟨s1, e1, m1, f1, q1⟩
      · exact .inl ⟨{ s1 with f := false }, by simp [run, callWith, setConfig, hv, bind_eq, lockM, hm, change, unlockM, lockF, hf, deferUnlockF, e1], m1, rfl, i1, c1,
          fun k a b => (d1 k a b).less, fun _ => d1, (by intro _ h; cases h), (by show _ → s1.w.root ≠ _; rw [r1]; exact id), (by intro _ h; cases h)⟩
      · exact .inr (.inl ⟨{ s1 with f := false }, by simp [run, callWith, setConfig, hv, bind_eq, lockM, hm, change, unlockM, lockF, hf, deferUnlockF, e1], .inl q1,
          fun _ => ⟨m1, rfl, fun h => ⟨i1, by show s1.w.root ≠ _; rw [r1]; exact h⟩⟩, by rintro ⟨_, h⟩; cases h⟩)
      · exact .inr (.inr ⟨s1, by simp [run, callWith, setConfig, hv, bind_eq, lockM, hm, change, unlockM, lockF, hf, deferUnlockF, e1], m1, fun _ => f1 rfl, .inl q1⟩)

/-! ## Code that does nothing but log -/

/-- The code logs and returns. -/
def Quiet1 (b : Body) : Prop := (∀ c ∈ b.calls, c = .log) ∧ b.panics = false

theorem runBody_quiet (cb : Callbacks) (i : CbCall → Op Unit) {b : Body} (h : Quiet1 b) (s : CbState) : runBody (callWith cb i) b s = .done () s := by
  have : ∀ cs : List CbCall, (∀ c ∈ cs, c = .log) → runAll (callWith cb i) cs s = .done () s := by
    intro cs
    induction cs with
    | nil => intro _; rfl
    | cons c cs ih =>
      intro h
      have hc := h c List.mem_cons_self
      subst hc
      simp only [runAll, bind_eq, callWith, ret]
      exact ih fun c hc => h c (List.mem_cons_of_mem _ hc)
  simp [runBody, bind_eq, this b.calls h.1, h.2, ret]

variable {cb : Callbacks} (hq : ∀ k, Quiet1 (cb.make k)) (i : CbCall → Op Unit)
include hq

theorem create_quiet {α : Type} (cr : Nat → CfgMap → Except Str α) (c : CfgMap) (s : CbState) :
    create cb (callWith cb i) cr c s =
      .done (cr s.w.mgr.calls c) { s with w := { s.w with mgr := { s.w.mgr with calls := s.w.mgr.calls + 1 } } } := by
  simp [create, bind_eq, world, change, runBody_quiet cb i (hq _), ret]

theorem getFormat_quiet (fc : CfgMap) (s : CbState) : getFormat cb (callWith cb i) fc s =
    .done (s.w.mgr.getFormat fc).1 { s with w := { s.w with mgr := (s.w.mgr.getFormat fc).2 } } := by
  cases h1 : Map.get s.w.mgr.fmtCreators fc.type with
  | none => simp [getFormat, bind_eq, world, h1, ret, Manager.getFormat]
  | some cr =>
    cases h2 : Map.get s.w.mgr.formats fc.name with
    | some f => simp [getFormat, bind_eq, world, h1, h2, ret, Manager.getFormat]
    | none =>
      simp only [getFormat, bind_eq, world, h1, h2, Manager.getFormat, create_quiet hq i]
      cases cr s.w.mgr.calls fc <;> simp [ret, bind_eq, world, change]

theorem getOutput_quiet (oc : CfgMap) (g : Nat) (s : CbState) : getOutput cb (callWith cb i) oc g s =
    .done (s.w.mgr.getOutput oc g).1 { s with w := { s.w with mgr := (s.w.mgr.getOutput oc g).2 } } := by
  cases h1 : Map.get s.w.mgr.outCreators oc.type with
  | none => simp [getOutput, bind_eq, world, h1, ret, Manager.getOutput]
  | some cr =>
    cases h2 : Map.get s.w.mgr.outputs oc.name with
    | some f => simp [getOutput, bind_eq, world, h1, h2, ret, Manager.getOutput]
    | none =>
      simp only [getOutput, bind_eq, world, h1, h2, Manager.getOutput, create_quiet hq i]
      cases cr s.w.mgr.calls oc <;> simp [ret, bind_eq, world, change]

theorem one_quiet (n : Str) (s : CbState) : one cb (callWith cb i) n s =
    .done (s.w.mgr.one n).1 { s with w := { s.w with mgr := (s.w.mgr.one n).2 } } := by
  by_cases h1 : s.w.mgr.config.getCfgOutput n = none
  · simp [one, bind_eq, world, h1, ret, Manager.one]
  by_cases h2 : s.w.mgr.config.getCfgFormat (s.w.mgr.config.getCfgOutput n).formatName = none
  · simp [one, bind_eq, world, h1, h2, ret, Manager.one]
  rcases h3 : s.w.mgr.getFormat (s.w.mgr.config.getCfgFormat (s.w.mgr.config.getCfgOutput n).formatName) with ⟨e | g, m⟩
  · simp [one, bind_eq, world, h1, h2, getFormat_quiet hq i, h3, ret, Manager.one]
  · simp [one, bind_eq, world, h1, h2, getFormat_quiet hq i, h3, getOutput_quiet hq i, Manager.one]

theorem loop_quiet (names : List Str) (s : CbState) : loop cb (callWith cb i) names s =
    .done (s.w.mgr.loop names).1 { s with w := { s.w with mgr := (s.w.mgr.loop names).2 } } := by
  induction names generalizing s with
  | nil => rfl
  | cons n ns ih =>
    simp only [loop, bind_eq, one_quiet hq i, Manager.loop]
    rcases s.w.mgr.one n with ⟨e | o, m⟩
    · rfl
    · simp only [bind_eq, ih]
      rcases m.loop ns with ⟨e | os, m'⟩ <;> rfl

theorem getLoggerOutputs_quiet (n : Str) {s : CbState} (h : s.m = false) : getLoggerOutputs cb (callWith cb i) n s =
    .done (s.w.mgr.getLoggerOutputs n).1 { s with w := { s.w with mgr := (s.w.mgr.getLoggerOutputs n).2 } } := by
  obtain ⟨w, f, m⟩ := s
  subst h
  have e : outputsOf cb (callWith cb i) n ⟨w, f, true⟩ = .done (w.mgr.getLoggerOutputs n).1 ⟨{ w with mgr := (w.mgr.getLoggerOutputs n).2 }, f, true⟩ := by
    cases hl : w.mgr.config.getCfgLogger n with
    | none => simp [outputsOf, bind_eq, world, hl, ret, Manager.getLoggerOutputs]
    | some lc =>
      simp only [outputsOf, bind_eq, world, hl, loop_quiet hq i, Manager.getLoggerOutputs]
      rcases w.mgr.loop lc.outputNames with ⟨e | os, m⟩ <;> rfl
  simp [getLoggerOutputs, bind_eq, lockM, deferUnlockM, e]

theorem configure_quiet (r : Nat) (n : Str) {s : CbState} (h : s.m = false) : configure cb (callWith cb i) r n s =
    .done () { s with w := s.w.configure r n } := by
  simp only [configure, bind_eq, getLoggerOutputs_quiet hq i n h, World.configure]
  rcases s.w.mgr.getLoggerOutputs n with ⟨e | x, m⟩ <;> rfl

theorem getRootLogger_quiet {s : CbState} (h : s.m = false) : getRootLogger cb (callWith cb i) s =
    .done s.w.getRootLogger.1 { s with w := s.w.getRootLogger.2 } := by
  cases hr : s.w.root with
  | some r => simp [getRootLogger, bind_eq, world, hr, ret, World.getRootLogger]
  | none =>
    simp only [getRootLogger, bind_eq, world, hr, change, World.getRootLogger]
    rw [getLoggerOutputs_quiet hq i rootLoggerName (by exact h)]
    simp only
    rcases s.w.mgr.getLoggerOutputs rootLoggerName with ⟨e | x, m⟩ <;> rfl

theorem loggerOf_quiet (n : Str) {s : CbState} (h : s.m = false) : loggerOf cb (callWith cb i) n s =
    .done () { s with w := (s.w.getLogger n).2 } := by
  by_cases hn : n = [] ∨ n = rootLoggerName
  · simp [loggerOf, hn, bind_eq, getRootLogger_quiet hq i h, ret, World.getLogger]
  · cases hg : Map.get s.w.loggers n with
    | some r => simp [loggerOf, hn, bind_eq, world, hg, ret, World.getLogger]
    | none =>
      simp only [loggerOf, hn, if_false, bind_eq, world, hg, getRootLogger_quiet hq i h, World.getLogger, World.getParent, change]
      rw [configure_quiet hq i _ _ (by exact h)]

theorem notifyLoop_quiet (order : List Nat) {s : CbState} (h : s.m = false) : notifyLoop cb (callWith cb i) order s =
    .done () { s with w := s.w.notify order } := by
  induction order generalizing s with
  | nil => rfl
  | cons r rs ih =>
    cases hl : s.w.heap[r]? with
    | none => simp only [notifyLoop, bind_eq, world, hl, World.notify]; exact ih h
    | some l =>
      simp only [notifyLoop, bind_eq, world, hl, World.notify, configure_quiet hq i r l.name h]
      rw [ih (by exact h)]

omit hq in
theorem closeLoop_quiet (hs : ∀ o, Quiet1 (cb.shut o)) (order : List Nat) (s : CbState) : closeLoop cb (callWith cb i) order s = .done () s := by
  induction order with
  | nil => rfl
  | cons o os ih => simp only [closeLoop, bind_eq, runBody_quiet cb i (hs o)]; exact ih

omit hq in
theorem run_quiet (h : OnlyLogs cb) (c : CbCall) {s : CbState} (hm : s.m = false) (hf : s.f = false) :
    run cb c s = .done () { s with w := plain s.w c } := by
  obtain ⟨w, f, m⟩ := s
  subst hm; subst hf
  cases c with
  | registerFormatter t g => rfl
  | registerOutput t g => rfl
  | setLevel r lvl => rfl
  | log => rfl
  | queryOutputs n =>
    simp only [run, callWith, bind_eq]
    rw [getLoggerOutputs_quiet h.1 _ n rfl]
    rfl
  | close order =>
    simp only [run, callWith, close, bind_eq, lockM, Bool.false_eq_true, if_false]
    rw [closeLoop_quiet _ h.2]
    rfl
  | getLogger n =>
    simp only [run, callWith, getLogger, bind_eq, lockF, Bool.false_eq_true, if_false, deferUnlockF]
    rw [loggerOf_quiet h.1 _ n rfl]
    rfl
  | setConfig cfg order =>
    simp only [run, callWith, setConfig, plain, Act.run, World.setConfig]
    cases hv : validateConfig cfg with
    | some e => rfl
    | none =>
      simp only [bind_eq, lockM, Bool.false_eq_true, if_false, change, unlockM, lockF, deferUnlockF]
      rw [notifyLoop_quiet h.1 _ order rfl]

end Op
end Log4g
