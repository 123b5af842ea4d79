import Verif.Lemmas.CallbackHistories
import Verif.Lemmas.Fetch
import Verif.Props.Demo

/-! # Properties of code that is called by the library: C110, C111

`cb` says what each creator the library calls, and `Close` of each output, does with the library. -/

namespace Log4g
open Spec

namespace Demo

/-- Creators are registered and the sample configuration is set. -/
def cbStart : List (CbCall × Bool) :=
  [(.registerFormatter c!"text" (fun _ _ => .ok 2), false), (.registerOutput c!"console" (fun _ _ => .ok ()), false), (.setConfig cfg [], false)]

def cbState : CbState := { w := (w0.setConfig cfg []).2 }

theorem cbStart_steps (cb : Callbacks) : CbSteps cb {} cbStart cbState := by
  have h0 : CbSteps cb {} [] {} := .refl _
  have h1 := h0.done (c := .registerFormatter c!"text" (fun _ _ => .ok 2)) trivial rfl
  have h2 := h1.done (c := .registerOutput c!"console" (fun _ _ => .ok ())) trivial rfl
  exact h2.done (c := .setConfig cfg []) (List.Perm.refl _) rfl

theorem cbStart_first : RootFirst cbStart := by
  intro pre c post e
  have : (c, true) ∈ cbStart := by rw [e]; simp
  simp [cbStart] at this

/-- The creator called as the `k`th does `b`. -/
def at' (k : Nat) (b : Body) : Callbacks := { make := fun i => if i = k then b else {} }

/-- ... and then the root logger is obtained. -/
def cbRoot (cb : Callbacks) : CbState := { cbState with w := plain cbState.w (.getLogger c!"root") }

theorem cbRoot_steps (cb : Callbacks) (h : Op.run cb (.getLogger c!"root") cbState = .done () (cbRoot cb)) :
    CbSteps cb {} (cbStart ++ [(.getLogger c!"root", false)]) (cbRoot cb) :=
  (cbStart_steps cb).done trivial h

end Demo

/-! ## C110 -/

/-- C110 is false: a creator that obtains a logger, called by `GetLogger`, waits for ever, and so does `GetLogger`. -/
theorem C110_creators_refuted : ∃ (cb : Callbacks) (tr : List (CbCall × Bool)) (s : CbState), CbSteps cb {} tr s ∧ RootFirst tr ∧
    cb.make 0 = { calls := [.getLogger c!"x"] } ∧ (∀ k, k ≠ 0 → cb.make k = {}) ∧ (∀ o, cb.shut o = {}) ∧ Waits cb s (.getLogger c!"root") :=
  ⟨Demo.at' 0 { calls := [.getLogger c!"x"] }, _, _, Demo.cbStart_steps _, Demo.cbStart_first, rfl, fun k hk => by simp [Demo.at', hk], fun _ => rfl, _, rfl⟩

/-- C110 is false of outputs: one whose `Close` asks for the outputs of a logger waits for ever, and so does `Close` of the manager. -/
theorem C110_outputs_refuted : ∃ (cb : Callbacks) (tr : List (CbCall × Bool)) (s : CbState) (order : List Nat), CbSteps cb {} tr s ∧ RootFirst tr ∧
    (∀ k, cb.make k = {}) ∧ cb.shut 0 = { calls := [.queryOutputs c!"x"] } ∧ CbCall.ok s.w (.close order) ∧ Waits cb s (.close order) := by
  refine ⟨{ shut := fun o => if o = 0 then { calls := [.queryOutputs c!"x"] } else {} }, _, _, [0], Demo.cbRoot_steps _ rfl, ?_, fun _ => rfl, rfl,
    List.Perm.refl _, _, rfl⟩
  intro pre c post e
  have : (c, true) ∈ Demo.cbStart ++ [(.getLogger c!"root", false)] := by rw [e]; simp
  simp [Demo.cbStart] at this

/-- C110: it is not that call alone.  From then on every call that needs the manager waits for ever, on every goroutine; if the call
was `GetLogger` or `SetConfig`, every `GetLogger` does.  Logging goes on. -/
theorem C110_for_good {cb : Callbacks} {tr : List (CbCall × Bool)} {s s' : CbState} {c : CbCall} (h : CbSteps cb {} tr s) (hr : RootFirst tr)
    (hc : Op.run cb c s = .stuck s') (cb' : Callbacks) :
    (∀ c', NeedsManager c' → Waits cb' s' c') ∧
    ((∃ n, c = .getLogger n) ∨ (∃ cfg order, c = .setConfig cfg order) → ∀ n, Waits cb' s' (.getLogger n)) ∧
    Op.run cb' .log s' = .done () s' := by
  obtain ⟨g, _⟩ := Op.steps_good h hr
  rcases Op.run_ends cb c g.m g.f g.inv with ⟨s1, e1, _⟩ | ⟨s1, e1, _⟩ | ⟨s1, e1, m, f, _⟩
  · rw [hc] at e1; cases e1
  · rw [hc] at e1; cases e1
  · rw [hc] at e1; injection e1 with e1; subst e1
    refine ⟨fun c' h => Op.manager_waits cb' m h, ?_, rfl⟩
    rintro (⟨n, rfl⟩ | ⟨cfg, order, rfl⟩) n
    · exact Op.factory_waits cb' (f trivial) n
    · exact Op.factory_waits cb' (f trivial) n

/-- C110 for code that makes no call that needs a lock: no call waits for ever. -/
theorem C110_uses_partial {cb : Callbacks} {tr : List (CbCall × Bool)} {s : CbState} (h : CbSteps cb {} tr s) (hr : RootFirst tr)
    (hn : NoLocks cb) (c : CbCall) : ¬ Waits cb s c := by
  rintro ⟨s', hc⟩
  obtain ⟨g, _⟩ := Op.steps_good h hr
  rcases Op.run_ends cb c g.m g.f g.inv with ⟨s1, e1, _⟩ | ⟨s1, e1, _⟩ | ⟨s1, e1, _, _, ⟨k, x, a, b⟩ | ⟨o, x, a, b⟩⟩
  · rw [hc] at e1; cases e1
  · rw [hc] at e1; cases e1
  · exact hn.1 k x a b
  · exact hn.2 o x a b

/-- C110 for code that only logs: it makes no difference.  The library is in a state the model without such code reaches, and every
call returns and does what it does there. -/
theorem C110_logging_partial {cb : Callbacks} (hq : OnlyLogs cb) {tr : List (CbCall × Bool)} {s : CbState} (h : CbSteps cb {} tr s) :
    Reach s.w ∧ ∀ c, Op.run cb c s = .done () { s with w := plain s.w c } := by
  obtain ⟨m, f, r⟩ := Op.steps_quiet hq h rfl rfl
  exact ⟨r ⟨[], .refl _⟩, fun c => Op.run_quiet hq c m f⟩

/-- C110: and nothing more than that is possible.  If a call returns, the creators it has called have not called the manager
themselves, nor `GetLogger` if the call was `GetLogger` or `SetConfig`; and the outputs it has closed have not called the manager. -/
theorem C110_needed_partial {cb : Callbacks} {tr : List (CbCall × Bool)} {s s' : CbState} {c : CbCall} (h : CbSteps cb {} tr s) (hr : RootFirst tr)
    (hc : Op.run cb c s = .done () s') :
    (∀ k, s.w.mgr.calls ≤ k → k < s'.w.mgr.calls → ∀ x ∈ (cb.make k).calls, ¬ NeedsManager x ∧
      ((∃ n, c = .getLogger n) ∨ (∃ cfg order, c = .setConfig cfg order) → ∀ n, x ≠ .getLogger n)) ∧
    (∀ order, c = .close order → ∀ o ∈ order, ∀ x ∈ (cb.shut o).calls, ¬ NeedsManager x) := by
  obtain ⟨g, _⟩ := Op.steps_good h hr
  rcases Op.run_ends cb c g.m g.f g.inv with ⟨s1, e1, d⟩ | ⟨s1, e1, _⟩ | ⟨s1, e1, _⟩
  · rw [hc] at e1; injection e1 with _ e1; subst e1
    refine ⟨fun k h1 h2 x hx => ⟨((d.made k h1 h2).2 x hx).1, ?_⟩, fun order e o ho x hx => ((d.shut order e o ho).2 x hx).1⟩
    rintro (⟨n, rfl⟩ | ⟨cfg, order, rfl⟩)
    · exact ((d.factory trivial k h1 h2).2 x hx).2 rfl
    · exact ((d.factory trivial k h1 h2).2 x hx).2 rfl
  · rw [hc] at e1; cases e1
  · rw [hc] at e1; cases e1

/-- Creators that log and set a level: `GetLogger` returns, and two creators have been called. -/
example : let cb : Callbacks := { make := fun _ => { calls := [.log, .setLevel 0 4] } }
    NoLocks cb ∧ ∃ s', Op.run cb (.getLogger c!"root") Demo.cbState = .done () s' ∧ s'.w.mgr.calls = 2 :=
  ⟨⟨by intro k c hc; simp at hc; rcases hc with rfl | rfl <;> exact id, by intro o c hc; simp at hc⟩, _, rfl, rfl⟩

/-- Creators that obtain the root logger, which exists, when `GetLoggerOutputs` calls them: it returns. -/
example : ∃ s', Op.run { make := fun _ => { calls := [.getLogger c!"root"] } } (.queryOutputs c!"x") (Demo.cbRoot {}) = .done () s' ∧
    (Demo.cbRoot {}).w.mgr.calls = 2 ∧ s'.w.mgr.calls = 3 := ⟨_, rfl, rfl, rfl⟩
/-- The same creators, when `GetLogger` calls them. -/
example : Waits { make := fun _ => { calls := [.getLogger c!"root"] } } (Demo.cbRoot {}) (.getLogger c!"x") := ⟨_, rfl⟩

example : OnlyLogs { make := fun _ => { calls := [.log, .log] }, shut := fun _ => { calls := [.log] } } := by
  constructor <;> (intro k; exact ⟨by simp, rfl⟩)

/-! ## C111 -/

/-- C111 is false of the root logger: a creator panics while it is made.  From then on, whatever the program does — apart from
calling `SetLevel` on it —, and however well creators behave, `GetLogger("root")` returns a logger with the level Off and without outputs. -/
theorem C111_root_refuted : ∃ (cb : Callbacks) (tr : List (CbCall × Bool)) (s : CbState), CbSteps cb {} tr s ∧
    tr = Demo.cbStart ++ [(.getLogger c!"root", true)] ∧
    ∀ (cb' : Callbacks) (tr' : List (CbCall × Bool)) (s' : CbState), OnlyLogs cb' → CbSteps cb' s tr' s' → (∀ lvl b, (CbCall.setLevel 0 lvl, b) ∉ tr') →
      (s'.w.getLogger c!"root").1 = 0 ∧ s'.w.level 0 = Level.Off ∧ ∃ l, s'.w.heap[0]? = some l ∧ l.outputs = [] := by
  refine ⟨Demo.at' 0 { panics := true }, _, _, (Demo.cbStart_steps _).panic (c := .getLogger c!"root") trivial rfl, rfl, ?_⟩
  intro cb' tr' s' hq h hc
  have l := Op.Lost.steps hq h rfl rfl ⟨rfl, by decide, _, rfl, rfl, rfl, rfl⟩ hc
  refine ⟨?_, l.level, ?_⟩
  · have : s'.w.getLogger c!"root" = s'.w.getRootLogger := rfl
    rw [this]; simp [World.getRootLogger, l.root]
  · obtain ⟨x, a, _, _, b⟩ := l.heap
    exact ⟨x, a, b⟩

/-- A configuration is set again after that: the call returns, and the root logger still has nothing. -/
example : ∃ s s', Op.run (Demo.at' 0 { panics := true }) (.getLogger c!"root") Demo.cbState = .panic s ∧
    Op.run {} (.setConfig Demo.cfg []) s = .done () s' ∧ FirstLogger Demo.cfg c!"root" ⟨c!"root", c!"warn", [c!"o1"]⟩ ∧
    s'.w.heap[0]? = some ⟨c!"root", 0, none, [], 3, 0⟩ := ⟨_, _, rfl, rfl, ⟨[], _, rfl, rfl, by simp⟩, rfl⟩

/-- C111 is false of `Close`: if `Close` of an output panics, the manager is never usable again. -/
theorem C111_close_refuted : ∃ (cb : Callbacks) (tr : List (CbCall × Bool)) (s : CbState), CbSteps cb {} tr s ∧
    tr = Demo.cbStart ++ [(.getLogger c!"root", false), (.close [0], true)] ∧ ∀ (cb' : Callbacks) (c : CbCall), NeedsManager c → Waits cb' s c := by
  have h := (Demo.cbRoot_steps { shut := fun o => { panics := true } } rfl).panic (c := .close [0]) (List.Perm.refl _) rfl
  exact ⟨_, _, _, h, rfl, fun cb' c hc => Op.manager_waits cb' rfl hc⟩

/-- C111 is false of a logger that was being made: obtaining it again does not give it its entry. -/
theorem C111_logger_refuted : ∃ (cb : Callbacks) (tr : List (CbCall × Bool)) (s : CbState) (e : CfgLogger), CbSteps cb {} tr s ∧ RootFirst tr ∧
    FirstLogger s.w.mgr.config c!"x" e ∧ (∀ k ∈ e.outputNames, Creatable s.w.mgr k) ∧
    ∀ cb', OnlyLogs cb' → ∃ s', Op.run cb' (.getLogger c!"x") s = .done () s' ∧ ¬ HasEntry s'.w c!"x" e := by
  have h := (Demo.cbRoot_steps (Demo.at' 2 { panics := true }) rfl).panic (c := .getLogger c!"x") trivial rfl
  refine ⟨_, _, _, ⟨c!"x", c!"info", [c!"o2", c!"o1"]⟩, h, ?_, ⟨[_, _], [], rfl, rfl, by decide⟩, ?_, ?_⟩
  · intro pre c post e
    have e' : Demo.cbStart ++ [(CbCall.getLogger c!"root", false)] ++ [(CbCall.getLogger c!"x", true)] = pre ++ (c, true) :: post := e
    rcases List.eq_nil_or_concat post with hq | ⟨q, x, hq⟩
    · subst hq
      have h1 := List.append_inj_left' e' rfl
      have h2 := List.append_inj_right' e' rfl
      injection h2 with h2 _; injection h2 with h2 _
      refine ⟨⟨c!"root", by rw [← h1]; simp⟩, ?_⟩
      intro order ho; rw [← h2] at ho; cases ho
    · rw [List.concat_eq_append] at hq
      subst hq
      have e' : Demo.cbStart ++ [(CbCall.getLogger c!"root", false)] ++ [(CbCall.getLogger c!"x", true)] = (pre ++ (c, true) :: q) ++ [x] := by rw [e']; simp
      have h1 := List.append_inj_left' e' rfl
      have : (c, true) ∈ Demo.cbStart ++ [(CbCall.getLogger c!"root", false)] := by rw [h1]; simp
      simp [Demo.cbStart] at this
  · intro k hk
    simp only [List.mem_cons, List.not_mem_nil, or_false] at hk
    rcases hk with rfl | rfl
    · exact ⟨_, _, fun _ _ => .ok 2, fun _ _ => .ok (), ⟨[_], _, rfl, rfl, by decide⟩, ⟨[], _, rfl, rfl, by simp⟩, rfl, fun _ => ⟨2, rfl⟩, rfl, fun _ => rfl⟩
    · exact ⟨_, _, fun _ _ => .ok 2, fun _ _ => .ok (), ⟨[], _, rfl, rfl, by simp⟩, ⟨[], _, rfl, rfl, by simp⟩, rfl, fun _ => ⟨2, rfl⟩, rfl, fun _ => rfl⟩
  · intro cb' hq
    refine ⟨_, Op.run_quiet hq _ rfl rfl, ?_⟩
    rintro ⟨l, h1, _, h2, _⟩
    have h3 : some (⟨c!"x", 0, some 0, [], 3, 0⟩ : Logger) = some l := h1
    injection h3 with h3
    subst h3
    simp at h2

/-- C111 if a logger had been obtained before the first panic, and no `Close` panicked: once creators behave, a configuration
that is set gives every logger its entry, whether the logger existed or not, and whatever panicked while it was made. -/
theorem C111_recovers_partial {cb cb' : Callbacks} {tr : List (CbCall × Bool)} {s : CbState} (h : CbSteps cb {} tr s) (hr : RootFirst tr)
    (hq : OnlyLogs cb') {cfg : Config} (hcfg : Consistent cfg) {order : List Nat} (ho : CbCall.ok s.w (.setConfig cfg order))
    {n : Str} (hn : n ≠ []) {e : CfgLogger} (he : FirstLogger cfg n e) (hc : ∀ k ∈ e.outputNames, Creatable { s.w.mgr with config := cfg } k) :
    ∃ s1 s2, Op.run cb' (.setConfig cfg order) s = .done () s1 ∧ Op.run cb' (.getLogger n) s1 = .done () s2 ∧ HasEntry s2.w n e := by
  obtain ⟨g, _⟩ := Op.steps_good h hr
  refine ⟨_, _, Op.run_quiet hq _ g.m g.f, Op.run_quiet hq _ g.m g.f, ?_⟩
  have hv := (validateConfig_none_iff cfg).mpr hcfg
  simp only [plain, Act.run, World.setConfig, hv]
  have i := (World.withConfig_inv g.inv cfg).1
  obtain ⟨i', _, gr, hl, hroot, _⟩ := World.notify_spec i order
  have s2 := World.getLogger_spec i' n
  have hget := s2.get
  rw [if_neg hn] at hget
  cases hg : Map.get s.w.loggers n with
  | some r =>
    obtain ⟨l, h1, h2⟩ := g.inv.named _ _ hg
    have hr : r ∈ order := ho.mem_iff.mpr (List.mem_map.mpr ⟨(n, r), Map.mem_of_get hg, rfl⟩)
    have hconf := World.notify_configured i order hr h1 (by rw [h2]; exact he) hc
    have hg' : Map.get (World.notify { s.w with mgr := { s.w.mgr with config := cfg } } order).loggers n = some r := by rw [hl]; exact hg
    rw [s2.old r (by rw [if_neg hn]; exact hg')]
    exact configured_entry i' hg' hconf
  | none =>
    have hc' : ∀ k ∈ e.outputNames, Creatable (World.notify { s.w with mgr := { s.w.mgr with config := cfg } } order).mgr k :=
      fun k hk => creatable_congr gr.config gr.fmtCreators gr.outCreators (hc k hk)
    have he' : FirstLogger (World.notify { s.w with mgr := { s.w.mgr with config := cfg } } order).mgr.config n e := by rw [gr.config]; exact he
    by_cases hn' : n = rootLoggerName
    · have hroot' : (World.notify { s.w with mgr := { s.w.mgr with config := cfg } } order).root = none := by
        rw [hroot]
        cases hx : s.w.root with
        | none => rfl
        | some r => rw [hn', (g.inv.rootIn r).mp hx] at hg; cases hg
      rw [hn'] at he' ⊢
      exact getLogger_new_root i' (.inr rfl) hroot' he' hc'
    · exact configured_entry s2.inv hget (s2.fresh hn hn' (by rw [hl]; exact hg) e he' hc')

/-- The logger "x" of `C111_logger_refuted`: after the panic the configuration is set again, and it has two outputs. -/
example : ∃ s s1 l, Op.run (Demo.at' 2 { panics := true }) (.getLogger c!"x") (Demo.cbRoot {}) = .panic s ∧
    Op.run {} (.setConfig Demo.cfg [0, 1]) s = .done () s1 ∧ loggerAt s1.w c!"x" = some l ∧ l.outputs = [1, 0] :=
  ⟨_, _, ⟨c!"x", 4, some 0, [1, 0], 3, 2⟩, rfl, Op.run_quiet ⟨fun _ => ⟨by simp, rfl⟩, fun _ => ⟨by simp, rfl⟩⟩ _ rfl rfl, rfl, rfl⟩

end Log4g
