import Verif.Lemmas.CallbackRuns

namespace Log4g
open Spec

namespace Op

/-! ## Histories -/

/-- What a history that is not stuck leaves. -/
structure CbGood (s : CbState) : Prop where
  m : s.m = false
  f : s.f = false
  inv : WInv s.w

theorem rootFirst_init {tr : List (CbCall × Bool)} {x : CbCall × Bool} (h : RootFirst (tr ++ [x])) : RootFirst tr := by
  intro pre c post e
  exact h pre c (post ++ [x]) (by simp [e])

theorem steps_good {cb : Callbacks} {tr : List (CbCall × Bool)} {s : CbState} (h : CbSteps cb {} tr s) (hr : RootFirst tr) :
    CbGood s ∧ ((∃ n, (CbCall.getLogger n, false) ∈ tr) → s.w.root ≠ none) := by
  induction h with
  | refl => exact ⟨⟨rfl, rfl, WInv.empty⟩, by simp⟩
  | @done tr s' c s'' _ ok e ih =>
    obtain ⟨g, r⟩ := ih (rootFirst_init hr)
    rcases run_ends cb c g.m g.f g.inv with ⟨s1, e1, d⟩ | ⟨s1, e1, _⟩ | ⟨s1, e1, _⟩
    · rw [e] at e1; injection e1 with _ e1; subst e1
      refine ⟨⟨d.m, d.f, d.inv⟩, ?_⟩
      rintro ⟨n, hn⟩
      rcases List.mem_append.mp hn with hn | hn
      · exact d.root (r ⟨n, hn⟩)
      · simp only [List.mem_singleton, Prod.mk.injEq, and_true] at hn
        exact d.got n hn.symm
    · rw [e] at e1; cases e1
    · rw [e] at e1; cases e1
  | @panic tr s' c s'' _ ok e ih =>
    obtain ⟨g, r⟩ := ih (rootFirst_init hr)
    obtain ⟨hg, hc⟩ := hr tr c [] rfl
    rcases run_ends cb c g.m g.f g.inv with ⟨s1, e1, _⟩ | ⟨s1, e1, _, k, _⟩ | ⟨s1, e1, _⟩
    · rw [e] at e1; cases e1
    · rw [e] at e1; injection e1 with e1; subst e1
      obtain ⟨m, f, k⟩ := k hc
      obtain ⟨i, k⟩ := k (r hg)
      exact ⟨⟨m, f, i⟩, fun _ => k⟩
    · rw [e] at e1; cases e1

theorem plain_reach {w : World} (h : Reach w) {c : CbCall} (ok : c.ok w) : Reach (plain w c) := by
  cases c with
  | registerFormatter t f => exact h.act (a := .registerFormatter t f) trivial
  | registerOutput t f => exact h.act (a := .registerOutput t f) trivial
  | setConfig cfg order => exact h.act (a := .setConfig cfg order) ok
  | getLogger n => exact h.act (a := .getLogger n) trivial
  | queryOutputs n => exact h.act (a := .queryOutputs n) trivial
  | setLevel r lvl => exact h.act (a := .setLevel r lvl) ok
  | close _ => exact h
  | log => exact h

theorem steps_quiet {cb : Callbacks} (hq : OnlyLogs cb) {s0 s : CbState} {tr : List (CbCall × Bool)} (h : CbSteps cb s0 tr s)
    (hm : s0.m = false) (hf : s0.f = false) : s.m = false ∧ s.f = false ∧ (Reach s0.w → Reach s.w) := by
  induction h with
  | refl => exact ⟨hm, hf, id⟩
  | @done tr s' c s'' _ ok e ih =>
    obtain ⟨m, f, r⟩ := ih
    rw [run_quiet hq c m f] at e
    injection e with _ e; subst e
    exact ⟨m, f, fun h => plain_reach (r h) ok⟩
  | @panic tr s' c s'' _ ok e ih =>
    obtain ⟨m, f, _⟩ := ih
    rw [run_quiet hq c m f] at e
    cases e

/-! ## A root logger that is not in the map -/

/-- The root logger is in no map, and has nothing. -/
structure Lost (w : World) : Prop where
  root : w.root = some 0
  map : 0 ∉ w.loggers.map (·.2)
  heap : ∃ l, w.heap[0]? = some l ∧ l.level = 0 ∧ l.parent = none ∧ l.outputs = []

theorem Lost.manager {w : World} (h : Lost w) (m : Manager) : Lost { w with mgr := m } := ⟨h.root, h.map, h.heap⟩

theorem map_set_vals {m : Map Str Nat} {k : Str} {v x : Nat} (h : x ∈ (Map.set m k v).map (·.2)) : x = v ∨ x ∈ m.map (·.2) := by
  induction m with
  | nil => simpa [Map.set] using h
  | cons p m ih =>
    obtain ⟨k', v'⟩ := p
    simp only [Map.set] at h
    split at h
    · rcases List.mem_cons.mp h with h | h
      · exact .inl h
      · exact .inr (List.mem_cons_of_mem _ h)
    · rcases List.mem_cons.mp h with h | h
      · exact .inr (by simp [h])
      · rcases ih h with h | h
        · exact .inl h
        · exact .inr (List.mem_cons_of_mem _ h)

theorem Lost.set {w : World} (h : Lost w) {r : Nat} (hr : r ≠ 0) (g : Logger → Logger) : Lost (w.update r g) := by
  refine ⟨h.root, h.map, ?_⟩
  obtain ⟨l, a, b⟩ := h.heap
  exact ⟨l, by simp [World.update, hr, a], b⟩

theorem Lost.configure {w : World} (h : Lost w) {r : Nat} (hr : r ≠ 0) (n : Str) : Lost (w.configure r n) := by
  unfold World.configure
  rcases w.mgr.getLoggerOutputs n with ⟨e | ⟨ops, lvl⟩, m⟩
  · exact h.manager m
  · exact ((h.manager m).set hr _).set hr _

theorem Lost.create {w : World} (h : Lost w) (n : Str) (p : Option Nat) : Lost (w.createLogger n p).2 ∧ (w.createLogger n p).1 ≠ 0 := by
  unfold World.createLogger
  cases hg : Map.get w.loggers n with
  | some r =>
    refine ⟨h, ?_⟩
    rintro rfl
    exact h.map (List.mem_map.mpr ⟨(n, 0), Map.mem_of_get hg, rfl⟩)
  | none =>
    obtain ⟨l, a, b⟩ := h.heap
    have hl : 0 < w.heap.length := (List.getElem?_eq_some_iff.mp a).1
    refine ⟨⟨h.root, ?_, l, by rw [List.getElem?_append_left hl]; exact a, b⟩, Nat.pos_iff_ne_zero.mp hl⟩
    intro hm
    rcases map_set_vals hm with hm | hm
    · omega
    · exact h.map hm

theorem Lost.parents {w : World} (h : Lost w) (p : Nat) (before rest : Str) : Lost (w.parentLoop p before rest).2 := by
  induction rest generalizing w p before with
  | nil => exact h
  | cons c rest ih =>
    simp only [World.parentLoop]
    split
    · exact ih (h.create before (some p)).1 _ _
    · exact ih h _ _

theorem Lost.get {w : World} (h : Lost w) (n : Str) : Lost (w.getLogger n).2 := by
  have hroot : w.getRootLogger = (0, w) := by simp [World.getRootLogger, h.root]
  unfold World.getLogger
  split
  · rw [hroot]; exact h
  · cases Map.get w.loggers n with
    | some r => exact h
    | none =>
      simp only [World.getParent, hroot]
      have a := (h.parents 0 [] n).create n (some (w.parentLoop 0 [] n).1)
      exact a.1.configure a.2 n

theorem Lost.notify {w : World} (h : Lost w) (order : List Nat) (ho : 0 ∉ order) : Lost (w.notify order) := by
  induction order generalizing w with
  | nil => exact h
  | cons r rs ih =>
    simp only [List.mem_cons, not_or] at ho
    simp only [World.notify]
    split
    · exact ih h ho.2
    · exact ih (h.configure (fun e => ho.1 e.symm) _) ho.2

theorem Lost.plain {w : World} (h : Lost w) {c : CbCall} (ok : c.ok w) (hc : ∀ lvl, c ≠ .setLevel 0 lvl) : Lost (plain w c) := by
  cases c with
  | registerFormatter t f => exact h.manager _
  | registerOutput t f => exact h.manager _
  | setConfig cfg order =>
    simp only [Spec.plain, Act.run, World.setConfig]
    split
    · exact h
    · exact (h.manager _).notify order fun e => h.map (ok.mem_iff.mp e)
  | getLogger n => exact h.get n
  | queryOutputs n => exact h.manager _
  | setLevel r lvl => exact h.set (fun e => hc lvl (by rw [e])) _
  | close _ => exact h
  | log => exact h

theorem Lost.steps {cb : Callbacks} (hq : OnlyLogs cb) {s0 s : CbState} {tr : List (CbCall × Bool)} (h : CbSteps cb s0 tr s)
    (hm : s0.m = false) (hf : s0.f = false) (l : Lost s0.w) (hc : ∀ lvl b, (CbCall.setLevel 0 lvl, b) ∉ tr) : Lost s.w := by
  induction h with
  | refl => exact l
  | @done tr s' c s'' h ok e ih =>
    have := ih fun lvl b hb => hc lvl b (List.mem_append_left _ hb)
    obtain ⟨m, f, _⟩ := steps_quiet hq h hm hf
    rw [run_quiet hq c m f] at e
    injection e with _ e; subst e
    exact this.plain ok fun lvl e => hc lvl false (by rw [← e]; simp)
  | @panic tr s' c s'' h ok e _ =>
    obtain ⟨m, f, _⟩ := steps_quiet hq h hm hf
    rw [run_quiet hq c m f] at e
    cases e

theorem Lost.level {w : World} (h : Lost w) : w.level 0 = Level.Off := by
  obtain ⟨l, a, b, c, _⟩ := h.heap
  cases hl : w.heap.length with
  | zero => rw [List.length_eq_zero_iff.mp hl] at a; simp at a
  | succ n =>
    simp only [World.level, hl, World.levelWalk, a, b, c, Level.Uninitialized]
    rfl

/-! ## A lock that is never given back -/

theorem lockM_waits {s : CbState} (h : s.m = true) : lockM s = .stuck s := by simp [lockM, h]

theorem manager_waits (cb : Callbacks) {s : CbState} (h : s.m = true) {c : CbCall} (hc : NeedsManager c) : Waits cb s c := by
  cases c with
  | registerFormatter t f => exact ⟨s, by simp [run, callWith, bind_eq, lockM_waits h]⟩
  | registerOutput t f => exact ⟨s, by simp [run, callWith, bind_eq, lockM_waits h]⟩
  | setConfig cfg order => exact ⟨s, by simp [run, callWith, setConfig, (validateConfig_none_iff cfg).mpr hc, bind_eq, lockM_waits h]⟩
  | queryOutputs n => exact ⟨s, by simp [run, callWith, bind_eq, getLoggerOutputs, lockM_waits h]⟩
  | close order => exact ⟨s, by simp [run, callWith, close, bind_eq, lockM_waits h]⟩
  | getLogger n => exact hc.elim
  | setLevel r lvl => exact hc.elim
  | log => exact hc.elim

theorem factory_waits (cb : Callbacks) {s : CbState} (h : s.f = true) (n : Str) : Waits cb s (.getLogger n) :=
  ⟨s, by simp [run, callWith, getLogger, bind_eq, lockF, h]⟩

end Op
end Log4g
