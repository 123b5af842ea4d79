import Verif.Model.Concurrent
import Verif.Lemmas.Fetch

namespace Log4g
open Spec World

/-! ## The pieces are those of the sequential model -/

theorem configure_apply (w : World) (r : Nat) (name : Str) :
    w.configure r name = ({ w with mgr := (w.mgr.getLoggerOutputs name).2 } : World).apply r (w.mgr.getLoggerOutputs name).1 := by
  unfold configure
  rcases w.mgr.getLoggerOutputs name with ⟨e | ⟨ops, lvl⟩, m⟩ <;> rfl

theorem getRootLogger_make (w : World) (h : w.root = none) :
    w.getRootLogger = (w.heap.length,
      ({ w with mgr := (w.mgr.getLoggerOutputs rootLoggerName).2 } : World).makeRoot (w.mgr.getLoggerOutputs rootLoggerName).1) := by
  simp only [getRootLogger, makeRoot, h]
  rcases he : w.mgr.getLoggerOutputs rootLoggerName with ⟨e | ⟨ops, lvl⟩, m⟩ <;> rfl

/-- Outputs that exist. -/
def Bounded (w : World) (res : Fetched) : Prop := ∀ ops lvl, res = .ok (ops, lvl) → ∀ o ∈ ops, o < w.mgr.oheap.length

theorem Ext.oheap_len {w w' : World} (x : Ext w w') : w.mgr.oheap.length ≤ w'.mgr.oheap.length := by
  obtain ⟨t, h⟩ := x.oheap; rw [h]; simp

theorem Ext.heap_len {w w' : World} (x : Ext w w') : w.heap.length ≤ w'.heap.length := by
  rcases Nat.lt_or_ge w'.heap.length w.heap.length with h | h
  · obtain ⟨l', a, _⟩ := x.heap w'.heap.length w.heap[w'.heap.length] (List.getElem?_eq_getElem h)
    simp at a
  · exact h

theorem Bounded.ext {w w' : World} (x : Ext w w') {res : Fetched} (h : Bounded w res) : Bounded w' res :=
  fun ops lvl e o ho => Nat.lt_of_lt_of_le (h ops lvl e o ho) x.oheap_len

theorem fetch_inv {w : World} (inv : WInv w) (name : Str) :
    WInv { w with mgr := (w.mgr.getLoggerOutputs name).2 } ∧ Ext w { w with mgr := (w.mgr.getLoggerOutputs name).2 } ∧
    Bounded { w with mgr := (w.mgr.getLoggerOutputs name).2 } (w.mgr.getLoggerOutputs name).1 ∧
    Grow w.mgr (w.mgr.getLoggerOutputs name).2 := by
  obtain ⟨g, im, hok⟩ := getLoggerOutputs_spec w.mgr inv.mgr name
  obtain ⟨i, x⟩ := grow_inv inv im g
  refine ⟨i, x, ?_, g⟩
  intro ops lvl e
  obtain ⟨lc, _, _, hres⟩ := hok ops lvl e
  exact hres.bound im

theorem apply_inv {w : World} (inv : WInv w) (r : Nat) {res : Fetched} (h : Bounded w res) :
    WInv (w.apply r res) ∧ Ext w (w.apply r res) ∧ (w.apply r res).loggers = w.loggers ∧ (w.apply r res).root = w.root ∧
    (w.apply r res).mgr = w.mgr ∧ ∀ r', r' ≠ r → (w.apply r res).heap[r']? = w.heap[r']? := by
  rcases res with e | ⟨ops, lvl⟩
  · exact ⟨inv, .refl w, rfl, rfl, rfl, fun _ _ => rfl⟩
  · obtain ⟨i1, x1⟩ := setLevel_inv inv r lvl
    obtain ⟨i2, x2⟩ := setOutputs_inv i1 r ops (h ops lvl rfl)
    refine ⟨i2, x1.trans x2, rfl, rfl, rfl, ?_⟩
    intro r' hne
    simp only [apply, setOutputs, setLevel]
    rw [update_heap, if_neg (Ne.symm hne), update_heap, if_neg (Ne.symm hne)]

theorem makeRoot_inv {w : World} (inv : WInv w) (hroot : w.root = none) {res : Fetched} (h : Bounded w res) :
    WInv (w.makeRoot res) ∧ Ext w (w.makeRoot res) ∧ (w.makeRoot res).mgr.config = w.mgr.config ∧
    (w.makeRoot res).mgr.fmtCreators = w.mgr.fmtCreators ∧ (w.makeRoot res).mgr.outCreators = w.mgr.outCreators ∧
    (w.makeRoot res).root ≠ none := by
  obtain ⟨hh, hl⟩ := root_create_inv inv hroot
  have hset : Map.set ([] : Map Str Nat) rootLoggerName 0 = [(rootLoggerName, 0)] := rfl
  unfold makeRoot
  simp only [hh, hl, List.length_nil, List.nil_append]
  rcases res with e | ⟨ops, lvl⟩
  · simp only [setLevel, setOutputs, update, List.modify_zero_cons, raiseFlag]
    have ic := console_inv inv.mgr
    have hflag : Manager.outFlag { w.mgr with oheap := w.mgr.oheap ++ [{ origin := .console, fmt := none }] } w.mgr.oheap.length = 0 := by
      simp [Manager.outFlag]
    have hri := root_inv ic Level.Debug [w.mgr.oheap.length] 0 (by simp) (by simp [hflag]) (.inl rfl)
    simp only [hset]
    refine ⟨?_, ?_, trivial, trivial, trivial, by simp⟩
    · simp only [newLogger, hflag] at hri ⊢
      simpa using hri
    · exact ⟨by rw [hl]; simp, by rw [hroot]; simp, by rw [hh]; simp, ⟨_, rfl⟩, ⟨[], by simp⟩, fun _ _ h => h, fun _ _ h => h⟩
  · simp only [setLevel, setOutputs, update, List.modify_zero_cons]
    have hri := root_inv inv.mgr lvl ops (raiseFlag w.mgr 0 ops) (h ops lvl rfl) (raiseFlag_ge _ _ _).2 (raiseFlag_from _ _ _)
    simp only [hset]
    refine ⟨?_, ?_, trivial, trivial, trivial, by simp⟩
    · simpa only [newLogger] using hri
    · exact ⟨by rw [hl]; simp, by rw [hroot]; simp, by rw [hh]; simp, ⟨[], by simp⟩, ⟨[], by simp⟩, fun _ _ h => h, fun _ _ h => h⟩

/-! ## The invariant -/

/-- The goroutine holds the factory's lock. -/
def Th.holds : Th → Prop
  | .ready _ | .wrote | .done => False
  | _ => True

/-- The name a logger is kept under. -/
def canon (name : Str) : Str := if name = [] then rootLoggerName else name

/-- What a goroutine knows at each place. -/
def Local (w : World) : Th → Prop
  | .notifying todo => ∀ r ∈ todo, r < w.heap.length
  | .notifyGot r res todo => r < w.heap.length ∧ Bounded w res ∧ ∀ r ∈ todo, r < w.heap.length
  | .rootGot _ res => w.root = none ∧ Bounded w res
  | .created name r => Map.get w.loggers name = some r ∧ name ≠ [] ∧ name ≠ rootLoggerName
  | .selfGot name r res => Map.get w.loggers name = some r ∧ name ≠ [] ∧ name ≠ rootLoggerName ∧ Bounded w res
  | .leaving name r => Map.get w.loggers (canon name) = some r
  | _ => True

theorem Local.ext {w w' : World} (x : Ext w w') {th : Th} (h : Local w th) (hroot : th.holds → w'.root = w.root) :
    Local w' th := by
  cases th with
  | ready c => trivial
  | wrote => trivial
  | done => trivial
  | entered n => trivial
  | notifying todo => exact fun r hr => Nat.lt_of_lt_of_le (h r hr) x.heap_len
  | notifyGot r res todo =>
    exact ⟨Nat.lt_of_lt_of_le h.1 x.heap_len, h.2.1.ext x, fun r hr => Nat.lt_of_lt_of_le (h.2.2 r hr) x.heap_len⟩
  | rootGot n res => exact ⟨(hroot trivial).trans h.1, h.2.ext x⟩
  | created n r => exact ⟨x.loggers _ _ h.1, h.2⟩
  | selfGot n r res => exact ⟨x.loggers _ _ h.1, h.2.1, h.2.2.1, h.2.2.2.ext x⟩
  | leaving n r => exact x.loggers _ _ h

structure CInv (s : CState) : Prop where
  inv : WInv s.w
  mutex : ∀ t, (s.th t).holds ↔ s.lock = some t
  loc : ∀ t, Local s.w (s.th t)

theorem CState.set_same (s : CState) (t : Nat) (x : Th) : (s.set t x).th t = x := by simp [CState.set]
theorem CState.set_other (s : CState) {t u : Nat} (x : Th) (h : u ≠ t) : (s.set t x).th u = s.th u := by simp [CState.set, h]

/-- What every step does. -/
structure StepSpec (s : CState) (ev : CEv) (s' : CState) (t : Nat) : Prop where
  inv : WInv s'.w
  ext : Ext s.w s'.w
  frame : ∀ u, u ≠ t → s'.th u = s.th u
  loc : Local s'.w (s'.th t)
  lock : (s'.lock = s.lock ∧ ((s'.th t).holds ↔ (s.th t).holds)) ∨
    (s.lock = none ∧ s'.lock = some t ∧ (s'.th t).holds) ∨ (s.lock = some t ∧ s'.lock = none ∧ ¬ (s'.th t).holds)
  root : s'.w.root = s.w.root ∨ s.lock = some t

theorem create_spec {w : World} (inv : WInv w) {root : Nat} (hr : w.root = some root) {name : Str} (hne : name ≠ []) (hnr : name ≠ rootLoggerName) :
    WInv ((w.parentLoop root [] name).2.createLogger name (some (w.parentLoop root [] name).1)).2 ∧
    Ext w ((w.parentLoop root [] name).2.createLogger name (some (w.parentLoop root [] name).1)).2 ∧
    Map.get ((w.parentLoop root [] name).2.createLogger name (some (w.parentLoop root [] name).1)).2.loggers name =
      some ((w.parentLoop root [] name).2.createLogger name (some (w.parentLoop root [] name).1)).1 ∧
    ((w.parentLoop root [] name).2.createLogger name (some (w.parentLoop root [] name).1)).2.mgr = w.mgr := by
  obtain ⟨lr, h1, h2⟩ := inv.named _ _ ((inv.rootIn root).mp hr)
  obtain ⟨i, x, ⟨lq, h3, h4⟩, hm⟩ := parentLoop_spec inv h1 [] name (by rw [h2]; exact parentOf_nil)
  simp only [List.nil_append] at h4
  obtain ⟨i2, x2, hget, hm2⟩ := create_inv i h3 h4 hne hnr
  exact ⟨i2, x.trans x2, hget, hm2.trans hm⟩

theorem holds_of_eq {s : CState} (ci : CInv s) {t : Nat} {x : Th} (h : s.th t = x) (hx : x.holds) : s.lock = some t :=
  (ci.mutex t).mp (by rw [h]; exact hx)

theorem cstep_spec {s s' : CState} {ev : CEv} (ci : CInv s) (h : CStep s ev s') : ∃ t, StepSpec s ev s' t := by
  cases h with
  | @invalid t cfg e h1 h2 =>
    refine ⟨t, ci.inv, .refl _, fun u hu => CState.set_other _ _ hu, by rw [CState.set_same]; trivial, .inl ⟨rfl, ?_⟩, .inl rfl⟩
    rw [CState.set_same, h1]; exact Iff.rfl
  | @write t cfg h1 h2 =>
    obtain ⟨i, x⟩ := withConfig_inv ci.inv cfg
    refine ⟨t, i, x, fun u hu => CState.set_other _ _ hu, by rw [CState.set_same]; trivial, .inl ⟨rfl, ?_⟩, .inl rfl⟩
    rw [CState.set_same, h1]; exact Iff.rfl
  | @notifyLock t order h1 h2 h3 =>
    refine ⟨t, ci.inv, .refl _, fun u hu => CState.set_other _ _ hu, ?_, .inr (.inl ⟨h2, rfl, by rw [CState.set_same]; trivial⟩), .inl rfl⟩
    rw [CState.set_same]
    intro r hr
    obtain ⟨⟨n, r'⟩, hm, rfl⟩ := List.mem_map.mp (h3.mem_iff.mp hr)
    obtain ⟨l, hl, _⟩ := ci.inv.named n r' (Map.get_of_mem ci.inv.nodup hm)
    exact heap_lt hl
  | @notifyFetch t r rs l h1 h2 =>
    obtain ⟨i, x, b, _⟩ := fetch_inv ci.inv l.name
    refine ⟨t, i, x, fun u hu => CState.set_other _ _ hu, ?_, .inl ⟨rfl, ?_⟩, .inl rfl⟩
    · rw [CState.set_same]
      have hl := ci.loc t; rw [h1] at hl
      exact ⟨hl r (by simp), b, fun r' hr' => hl r' (by simp [hr'])⟩
    · rw [CState.set_same, h1]; exact Iff.rfl
  | @notifyApply t r res rs h1 =>
    have hl := ci.loc t; rw [h1] at hl
    obtain ⟨i, x, _, hr, _⟩ := apply_inv ci.inv r hl.2.1
    refine ⟨t, i, x, fun u hu => CState.set_other _ _ hu, ?_, .inl ⟨rfl, ?_⟩, .inl hr⟩
    · rw [CState.set_same]
      exact fun r' hr' => Nat.lt_of_lt_of_le (hl.2.2 r' hr') x.heap_len
    · rw [CState.set_same, h1]; exact Iff.rfl
  | @notifyUnlock t h1 =>
    refine ⟨t, ci.inv, .refl _, fun u hu => CState.set_other _ _ hu, by rw [CState.set_same]; trivial,
      .inr (.inr ⟨holds_of_eq ci h1 trivial, rfl, by rw [CState.set_same]; exact id⟩), .inl rfl⟩
  | @getLock t name h1 h2 =>
    exact ⟨t, ci.inv, .refl _, fun u hu => CState.set_other _ _ hu, by rw [CState.set_same]; trivial,
      .inr (.inl ⟨h2, rfl, by rw [CState.set_same]; trivial⟩), .inl rfl⟩
  | @getRoot t name r h1 h2 h3 =>
    refine ⟨t, ci.inv, .refl _, fun u hu => CState.set_other _ _ hu, ?_, .inl ⟨rfl, ?_⟩, .inl rfl⟩
    · rw [CState.set_same]
      have e : canon name = rootLoggerName := by
        unfold canon; rcases h2 with h | h <;> simp [h]
      simp only [Local, e]
      exact (ci.inv.rootIn r).mp h3
    · rw [CState.set_same, h1]; exact Iff.rfl
  | @getOld t name r h1 h2 h3 h4 =>
    refine ⟨t, ci.inv, .refl _, fun u hu => CState.set_other _ _ hu, ?_, .inl ⟨rfl, ?_⟩, .inl rfl⟩
    · rw [CState.set_same]
      simp only [Local, canon, if_neg h2]; exact h4
    · rw [CState.set_same, h1]; exact Iff.rfl
  | @rootFetch t name h1 h2 h3 =>
    obtain ⟨i, x, b, _⟩ := fetch_inv ci.inv rootLoggerName
    refine ⟨t, i, x, fun u hu => CState.set_other _ _ hu, ?_, .inl ⟨rfl, ?_⟩, .inl rfl⟩
    · rw [CState.set_same]; exact ⟨h2, b⟩
    · rw [CState.set_same, h1]; exact Iff.rfl
  | @rootMake t name res h1 =>
    have hl := ci.loc t; rw [h1] at hl
    obtain ⟨i, x, _⟩ := makeRoot_inv ci.inv hl.1 hl.2
    refine ⟨t, i, x, fun u hu => CState.set_other _ _ hu, by rw [CState.set_same]; trivial, .inl ⟨rfl, ?_⟩, .inr (holds_of_eq ci h1 trivial)⟩
    rw [CState.set_same, h1]; exact Iff.rfl
  | @create t name root h1 h2 h3 h4 h5 =>
    obtain ⟨i, x, hg, _⟩ := create_spec ci.inv h5 h2 h3
    refine ⟨t, i, x, fun u hu => CState.set_other _ _ hu, ?_, .inl ⟨rfl, ?_⟩, .inr (holds_of_eq ci h1 trivial)⟩
    · rw [CState.set_same]; exact ⟨hg, h2, h3⟩
    · rw [CState.set_same, h1]; exact Iff.rfl
  | @selfFetch t name r h1 =>
    have hl := ci.loc t; rw [h1] at hl
    obtain ⟨i, x, b, _⟩ := fetch_inv ci.inv name
    refine ⟨t, i, x, fun u hu => CState.set_other _ _ hu, ?_, .inl ⟨rfl, ?_⟩, .inl rfl⟩
    · rw [CState.set_same]; exact ⟨hl.1, hl.2.1, hl.2.2, b⟩
    · rw [CState.set_same, h1]; exact Iff.rfl
  | @selfApply t name r res h1 =>
    have hl := ci.loc t; rw [h1] at hl
    obtain ⟨i, x, hlg, hr, _⟩ := apply_inv ci.inv r hl.2.2.2
    refine ⟨t, i, x, fun u hu => CState.set_other _ _ hu, ?_, .inl ⟨rfl, ?_⟩, .inl hr⟩
    · rw [CState.set_same]
      show Map.get (s.w.apply r res).loggers (canon name) = some r
      rw [hlg, canon, if_neg hl.2.1]; exact hl.1
    · rw [CState.set_same, h1]; exact Iff.rfl
  | @leave t name r h1 =>
    refine ⟨t, ci.inv, .refl _, fun u hu => CState.set_other _ _ hu, by rw [CState.set_same]; trivial,
      .inr (.inr ⟨holds_of_eq ci h1 trivial, rfl, by rw [CState.set_same]; exact id⟩), .inl rfl⟩

theorem StepSpec.cinv {s s' : CState} {ev : CEv} {t : Nat} (ci : CInv s) (h : StepSpec s ev s' t) : CInv s' := by
  refine ⟨h.inv, ?_, ?_⟩
  · intro u
    by_cases hu : u = t
    · subst hu
      rcases h.lock with ⟨a, b⟩ | ⟨a, b, c⟩ | ⟨a, b, c⟩
      · rw [a, b]; exact ci.mutex u
      · rw [b]; exact ⟨fun _ => rfl, fun _ => c⟩
      · rw [b]; exact ⟨fun x => absurd x c, fun x => by simp at x⟩
    · rw [h.frame u hu, ci.mutex u]
      rcases h.lock with ⟨a, b⟩ | ⟨a, b, c⟩ | ⟨a, b, c⟩
      · rw [a]
      · rw [a, b]; simp [Ne.symm hu]
      · rw [a, b]; simp [Ne.symm hu]
  · intro u
    by_cases hu : u = t
    · subst hu; exact h.loc
    · rw [h.frame u hu]
      refine (ci.loc u).ext h.ext ?_
      intro hh
      rcases h.root with hr | hr
      · exact hr
      · have := (ci.mutex u).mp hh
        rw [hr] at this; injection this with this; exact absurd this.symm hu

theorem exec_cinv {s s' : CState} {tr : List CEv} (ci : CInv s) (h : Exec s tr s') : CInv s' ∧ Ext s.w s'.w := by
  induction h with
  | refl => exact ⟨ci, .refl _⟩
  | tail _ st ih =>
    obtain ⟨t, sp⟩ := cstep_spec ih.1 st
    exact ⟨sp.cinv ih.1, ih.2.trans sp.ext⟩

theorem start_cinv {s : CState} (h : s.Start) : CInv s := by
  obtain ⟨h1, h2, h3⟩ := h
  refine ⟨reach_inv h1, ?_, ?_⟩
  · intro t
    obtain ⟨c, hc⟩ := h3 t
    rw [hc, h2]; simp [Th.holds]
  · intro t
    obtain ⟨c, hc⟩ := h3 t
    rw [hc]; trivial

/-! ## The last configuration wins -/

/-- The fetched answer is that of the entry `e`. -/
def Good (w : World) (e : CfgLogger) (res : Fetched) : Prop :=
  ∃ ops, res = .ok (ops, Level.levelFrom e.level) ∧ Resolved w.mgr e.outputNames ops

theorem resolved_ext {w w' : World} (x : Ext w w') {names : List Str} {ops : List Nat} (h : Resolved w.mgr names ops) :
    Resolved w'.mgr names ops := by
  unfold Resolved at *
  rw [← h]
  apply List.map_congr_left
  intro k hk
  have : Map.get w.mgr.outputs k ∈ ops.map some := by rw [← h]; exact List.mem_map.mpr ⟨k, hk, rfl⟩
  obtain ⟨o, _, ho⟩ := List.mem_map.mp this
  rw [← ho]; exact x.outputs _ _ ho.symm

theorem Good.ext {w w' : World} (x : Ext w w') {e : CfgLogger} {res : Fetched} (h : Good w e res) : Good w' e res := by
  obtain ⟨ops, a, b⟩ := h
  exact ⟨ops, a, resolved_ext x b⟩

/-- The goroutine will configure the logger `r`, named `n`, with the entry `e`. -/
def Owes (w : World) (n : Str) (r : Nat) (e : CfgLogger) : Th → Prop
  | .wrote => True
  | .notifying todo => r ∈ todo
  | .notifyGot r' res todo => (r' = r ∧ Good w e res) ∨ r ∈ todo
  | .created n' r' => n' = n ∧ r' = r
  | .selfGot n' r' res => n' = n ∧ r' = r ∧ Good w e res
  | _ => False

/-- What the goroutine may still write to `r` is right. -/
def Harmless (w : World) (r : Nat) (e : CfgLogger) : Th → Prop
  | .notifyGot r' res _ => r' = r → Good w e res
  | .selfGot _ r' res => r' = r → Good w e res
  | _ => True

structure Target (s : CState) (n : Str) (r : Nat) (e : CfgLogger) : Prop where
  get : Map.get s.w.loggers n = some r
  entry : FirstLogger s.w.mgr.config n e
  ok : ∀ k ∈ e.outputNames, Creatable s.w.mgr k

def KeptEntry (s : CState) (n : Str) (r : Nat) (e : CfgLogger) : Prop :=
  (∃ t, Owes s.w n r e (s.th t)) ∨ (Configured s.w r e ∧ ∀ t, Harmless s.w r e (s.th t))

def CEv.isWrite : CEv → Prop
  | .write _ _ _ => True
  | _ => False

/-- Steps other than `write` leave the definitions alone. -/
theorem cstep_mgr {s s' : CState} {ev : CEv} (ci : CInv s) (h : CStep s ev s') (hw : ¬ ev.isWrite) :
    s'.w.mgr.config = s.w.mgr.config ∧ s'.w.mgr.fmtCreators = s.w.mgr.fmtCreators ∧
    s'.w.mgr.outCreators = s.w.mgr.outCreators := by
  cases h with
  | invalid => exact ⟨rfl, rfl, rfl⟩
  | write => exact absurd trivial hw
  | notifyLock => exact ⟨rfl, rfl, rfl⟩
  | @notifyFetch t r rs l h1 h2 =>
    obtain ⟨_, _, _, g⟩ := fetch_inv ci.inv l.name
    exact ⟨g.config, g.fmtCreators, g.outCreators⟩
  | @notifyApply t r res rs h1 =>
    have hl := ci.loc t; rw [h1] at hl
    have := (apply_inv ci.inv r hl.2.1).2.2.2.2.1
    simp only [CState.set, this]
    trivial
  | notifyUnlock => exact ⟨rfl, rfl, rfl⟩
  | getLock => exact ⟨rfl, rfl, rfl⟩
  | getRoot => exact ⟨rfl, rfl, rfl⟩
  | getOld => exact ⟨rfl, rfl, rfl⟩
  | rootFetch =>
    obtain ⟨_, _, _, g⟩ := fetch_inv ci.inv rootLoggerName
    exact ⟨g.config, g.fmtCreators, g.outCreators⟩
  | @rootMake t name res h1 =>
    have hl := ci.loc t; rw [h1] at hl
    obtain ⟨_, _, a, b, c, _⟩ := makeRoot_inv ci.inv hl.1 hl.2
    exact ⟨a, b, c⟩
  | @create t name root h1 h2 h3 h4 h5 =>
    obtain ⟨_, _, _, hm⟩ := create_spec ci.inv h5 h2 h3
    simp only [CState.set, hm]
    trivial
  | @selfFetch t name r h1 =>
    obtain ⟨_, _, _, g⟩ := fetch_inv ci.inv name
    exact ⟨g.config, g.fmtCreators, g.outCreators⟩
  | @selfApply t name r res h1 =>
    have hl := ci.loc t; rw [h1] at hl
    have := (apply_inv ci.inv r hl.2.2.2).2.2.2.2.1
    simp only [CState.set, this]
    trivial
  | leave => exact ⟨rfl, rfl, rfl⟩

theorem Target.step {s s' : CState} {ev : CEv} (ci : CInv s) (h : CStep s ev s') (hw : ¬ ev.isWrite) {n : Str} {r : Nat}
    {e : CfgLogger} (tg : Target s n r e) : Target s' n r e := by
  obtain ⟨a, b, c⟩ := cstep_mgr ci h hw
  obtain ⟨t, sp⟩ := cstep_spec ci h
  exact ⟨sp.ext.loggers _ _ tg.get, by rw [a]; exact tg.entry, fun k hk => creatable_congr a b c (tg.ok k hk)⟩

/-- A fetch for the target is good. -/
theorem fetch_good {s : CState} (ci : CInv s) {n : Str} {r : Nat} {e : CfgLogger} (tg : Target s n r e) :
    Good { s.w with mgr := (s.w.mgr.getLoggerOutputs n).2 } e (s.w.mgr.getLoggerOutputs n).1 := by
  obtain ⟨ops, ho⟩ := getLoggerOutputs_ok ci.inv.mgr tg.entry tg.ok
  obtain ⟨_, _, hok⟩ := getLoggerOutputs_spec s.w.mgr ci.inv.mgr n
  obtain ⟨lc, h1, h2, h3⟩ := hok ops _ ho
  have : lc = e := by
    have b := (firstLogger_iff _ _ _).mpr tg.entry
    rw [h1] at b; injection b
  subst this
  exact ⟨ops, ho, h3⟩

theorem apply_good {w : World} {r : Nat} {l : Logger} (hl : w.heap[r]? = some l) {e : CfgLogger} {res : Fetched}
    (h : Good w e res) : Configured (w.apply r res) r e := by
  obtain ⟨ops, rfl, b⟩ := h
  unfold Configured
  simp only [apply, setOutputs, setLevel]
  rw [update_heap, if_pos rfl, update_heap, if_pos rfl]
  simp only [hl]
  exact ⟨_, rfl, rfl, b⟩

theorem Harmless.ext {w w' : World} (x : Ext w w') {r : Nat} {e : CfgLogger} {th : Th} (h : Harmless w r e th) : Harmless w' r e th := by
  cases th <;> try trivial
  · exact fun hr => (h hr).ext x
  · exact fun hr => (h hr).ext x

theorem Owes.ext {w w' : World} (x : Ext w w') {n : Str} {r : Nat} {e : CfgLogger} {th : Th} (h : Owes w n r e th) : Owes w' n r e th := by
  cases th <;> try exact h
  · rcases h with ⟨a, b⟩ | h
    · exact .inl ⟨a, b.ext x⟩
    · exact .inr h
  · exact ⟨h.1, h.2.1, h.2.2.ext x⟩

theorem harmless_not_holds {w : World} {r : Nat} {e : CfgLogger} {th : Th} (h : ¬ th.holds) : Harmless w r e th := by
  cases th <;> first | trivial | exact absurd trivial h

theorem configured_same {w w' : World} (x : Ext w w') {r : Nat} {e : CfgLogger} (hh : ∀ l, w.heap[r]? = some l → w'.heap[r]? = some l)
    (h : Configured w r e) : Configured w' r e := by
  obtain ⟨l, a, b, c⟩ := h
  exact ⟨l, hh l a, b, resolved_ext x c⟩

/-- The goroutine with the lock has just configured the target. -/
theorem kept_done {s' : CState} (ci' : CInv s') {t : Nat} (hl : s'.lock = some t) {n : Str} {r : Nat} {e : CfgLogger}
    (hc : Configured s'.w r e) (hh : Harmless s'.w r e (s'.th t)) : KeptEntry s' n r e := by
  refine .inr ⟨hc, fun u => ?_⟩
  by_cases hut : u = t
  · subst hut; exact hh
  · apply harmless_not_holds
    intro h
    have := (ci'.mutex u).mp h
    rw [hl] at this; injection this with this; exact hut this.symm

theorem step_kept {s s' : CState} {ev : CEv} (ci : CInv s) (h : CStep s ev s') (hw : ¬ ev.isWrite) {n : Str} {r : Nat}
    {e : CfgLogger} (tg : Target s n r e) (hk : KeptEntry s n r e) : KeptEntry s' n r e := by
  obtain ⟨l0, hl0, hname⟩ := ci.inv.named _ _ tg.get
  have h0 := h
  obtain ⟨t0, sp⟩ := cstep_spec ci h0
  have ci' := sp.cinv ci
  clear t0 sp
  cases h with
  | @invalid t cfg er h1 h2 =>
    refine .casesOn hk ?_ ?_
    · rintro ⟨u, hu⟩
      refine .inl ⟨u, ?_⟩
      have hut : u ≠ t := by rintro rfl; rw [h1] at hu; exact hu
      rw [CState.set_other _ _ hut]; exact hu
    · rintro ⟨hc, hh⟩
      refine .inr ⟨hc, fun u => ?_⟩
      by_cases hut : u = t
      · subst hut; rw [CState.set_same]; trivial
      · rw [CState.set_other _ _ hut]; exact hh u
  | write => exact absurd trivial hw
  | @notifyLock t order h1 h2 h3 =>
    refine .casesOn hk ?_ ?_
    · rintro ⟨u, hu⟩
      refine .inl ⟨u, ?_⟩
      by_cases hut : u = t
      · subst hut; rw [CState.set_same]
        exact h3.mem_iff.mpr (List.mem_map.mpr ⟨(n, r), Map.mem_of_get tg.get, rfl⟩)
      · rw [CState.set_other _ _ hut]; exact hu
    · rintro ⟨hc, hh⟩
      refine .inr ⟨hc, fun u => ?_⟩
      by_cases hut : u = t
      · subst hut; rw [CState.set_same]; trivial
      · rw [CState.set_other _ _ hut]; exact hh u
  | @notifyFetch t r' rs l h1 h2 =>
    obtain ⟨i, x, b, _⟩ := fetch_inv ci.inv l.name
    have hgood : r' = r → Good { s.w with mgr := (s.w.mgr.getLoggerOutputs l.name).2 } e (s.w.mgr.getLoggerOutputs l.name).1 := by
      rintro rfl
      rw [hl0] at h2; injection h2 with h2; subst h2
      rw [hname]; exact fetch_good ci tg
    refine .casesOn hk ?_ ?_
    · rintro ⟨u, hu⟩
      refine .inl ⟨u, ?_⟩
      by_cases hut : u = t
      · subst hut; rw [CState.set_same]
        rw [h1] at hu
        rcases List.mem_cons.mp hu with hu | hu
        · exact .inl ⟨hu.symm, hgood hu.symm⟩
        · exact .inr hu
      · rw [CState.set_other _ _ hut]; exact hu.ext x
    · rintro ⟨hc, hh⟩
      refine .inr ⟨configured_same x (fun _ h => h) hc, fun u => ?_⟩
      by_cases hut : u = t
      · subst hut; rw [CState.set_same]; exact hgood
      · rw [CState.set_other _ _ hut]; exact (hh u).ext x
  | @notifyApply t r' res rs h1 =>
    have hl := ci.loc t; rw [h1] at hl
    obtain ⟨i, x, _, _, _, hoth⟩ := apply_inv ci.inv r' hl.2.1
    refine .casesOn hk ?_ ?_
    · rintro ⟨u, hu⟩
      by_cases hut : u = t
      · subst hut
        rw [h1] at hu
        rcases hu with ⟨rfl, hg⟩ | hu
        · refine kept_done ci' (t := u) ?_ (apply_good hl0 hg) ?_
          · exact holds_of_eq ci h1 trivial
          · rw [CState.set_same]; trivial
        · exact .inl ⟨u, by rw [CState.set_same]; exact hu⟩
      · exact .inl ⟨u, by rw [CState.set_other _ _ hut]; exact hu.ext x⟩
    · rintro ⟨hc, hh⟩
      refine .inr ⟨?_, fun u => ?_⟩
      · by_cases hr : r' = r
        · subst hr
          have := hh t; rw [h1] at this
          exact apply_good hl0 (this rfl)
        · exact configured_same x (fun l h => by
            show (s.w.apply r' res).heap[r]? = some l
            rw [hoth r (Ne.symm hr)]; exact h) hc
      · by_cases hut : u = t
        · subst hut; rw [CState.set_same]; trivial
        · rw [CState.set_other _ _ hut]; exact (hh u).ext x
  | @notifyUnlock t h1 =>
    refine .casesOn hk ?_ ?_
    · rintro ⟨u, hu⟩
      refine .inl ⟨u, ?_⟩
      have hut : u ≠ t := by rintro rfl; rw [h1] at hu; simp [Owes] at hu
      rw [CState.set_other _ _ hut]; exact hu
    · rintro ⟨hc, hh⟩
      refine .inr ⟨hc, fun u => ?_⟩
      by_cases hut : u = t
      · subst hut; rw [CState.set_same]; trivial
      · rw [CState.set_other _ _ hut]; exact hh u
  | @getLock t name h1 h2 =>
    refine .casesOn hk ?_ ?_
    · rintro ⟨u, hu⟩
      refine .inl ⟨u, ?_⟩
      have hut : u ≠ t := by rintro rfl; rw [h1] at hu; exact hu
      rw [CState.set_other _ _ hut]; exact hu
    · rintro ⟨hc, hh⟩
      refine .inr ⟨hc, fun u => ?_⟩
      by_cases hut : u = t
      · subst hut; rw [CState.set_same]; trivial
      · rw [CState.set_other _ _ hut]; exact hh u
  | @getRoot t name r' h1 h2 h3 =>
    refine .casesOn hk ?_ ?_
    · rintro ⟨u, hu⟩
      refine .inl ⟨u, ?_⟩
      have hut : u ≠ t := by rintro rfl; rw [h1] at hu; exact hu
      rw [CState.set_other _ _ hut]; exact hu
    · rintro ⟨hc, hh⟩
      refine .inr ⟨hc, fun u => ?_⟩
      by_cases hut : u = t
      · subst hut; rw [CState.set_same]; trivial
      · rw [CState.set_other _ _ hut]; exact hh u
  | @getOld t name r' h1 h2 h3 h4 =>
    refine .casesOn hk ?_ ?_
    · rintro ⟨u, hu⟩
      refine .inl ⟨u, ?_⟩
      have hut : u ≠ t := by rintro rfl; rw [h1] at hu; exact hu
      rw [CState.set_other _ _ hut]; exact hu
    · rintro ⟨hc, hh⟩
      refine .inr ⟨hc, fun u => ?_⟩
      by_cases hut : u = t
      · subst hut; rw [CState.set_same]; trivial
      · rw [CState.set_other _ _ hut]; exact hh u
  | @rootFetch t name h1 h2 h3 =>
    obtain ⟨hh, _⟩ := root_create_inv ci.inv h2
    rw [hh] at hl0; simp at hl0
  | @rootMake t name res h1 =>
    have hl := ci.loc t; rw [h1] at hl
    obtain ⟨hh, _⟩ := root_create_inv ci.inv hl.1
    rw [hh] at hl0; simp at hl0
  | @create t name root h1 h2 h3 h4 h5 =>
    obtain ⟨i, x, hg, hm⟩ := create_spec ci.inv h5 h2 h3
    refine .casesOn hk ?_ ?_
    · rintro ⟨u, hu⟩
      refine .inl ⟨u, ?_⟩
      have hut : u ≠ t := by rintro rfl; rw [h1] at hu; exact hu
      rw [CState.set_other _ _ hut]; exact hu.ext x
    · rintro ⟨hc, hh⟩
      refine .inr ⟨configured_same x (fun l h => create_keeps _ _ _ (parentLoop_keeps _ _ _ _ h)) hc, fun u => ?_⟩
      by_cases hut : u = t
      · subst hut; rw [CState.set_same]; trivial
      · rw [CState.set_other _ _ hut]; exact (hh u).ext x
  | @selfFetch t name r' h1 =>
    obtain ⟨i, x, b, _⟩ := fetch_inv ci.inv name
    have hl := ci.loc t; rw [h1] at hl
    have hgood : r' = r → Good { s.w with mgr := (s.w.mgr.getLoggerOutputs name).2 } e (s.w.mgr.getLoggerOutputs name).1 := by
      rintro rfl
      obtain ⟨l1, a, b⟩ := ci.inv.named _ _ hl.1
      rw [hl0] at a; injection a with a; subst a
      rw [hname] at b; subst b
      exact fetch_good ci tg
    refine .casesOn hk ?_ ?_
    · rintro ⟨u, hu⟩
      refine .inl ⟨u, ?_⟩
      by_cases hut : u = t
      · subst hut; rw [CState.set_same]
        rw [h1] at hu
        exact ⟨hu.1, hu.2, hgood hu.2⟩
      · rw [CState.set_other _ _ hut]; exact hu.ext x
    · rintro ⟨hc, hh⟩
      refine .inr ⟨configured_same x (fun _ h => h) hc, fun u => ?_⟩
      by_cases hut : u = t
      · subst hut; rw [CState.set_same]; exact hgood
      · rw [CState.set_other _ _ hut]; exact (hh u).ext x
  | @selfApply t name r' res h1 =>
    have hl := ci.loc t; rw [h1] at hl
    obtain ⟨i, x, _, _, _, hoth⟩ := apply_inv ci.inv r' hl.2.2.2
    refine .casesOn hk ?_ ?_
    · rintro ⟨u, hu⟩
      by_cases hut : u = t
      · subst hut
        rw [h1] at hu
        obtain ⟨rfl, rfl, hg⟩ := hu
        refine kept_done ci' (t := u) ?_ (apply_good hl0 hg) ?_
        · exact holds_of_eq ci h1 trivial
        · rw [CState.set_same]; trivial
      · exact .inl ⟨u, by rw [CState.set_other _ _ hut]; exact hu.ext x⟩
    · rintro ⟨hc, hh⟩
      refine .inr ⟨?_, fun u => ?_⟩
      · by_cases hr : r' = r
        · subst hr
          have := hh t; rw [h1] at this
          exact apply_good hl0 (this rfl)
        · exact configured_same x (fun l h => by
            show (s.w.apply r' res).heap[r]? = some l
            rw [hoth r (Ne.symm hr)]; exact h) hc
      · by_cases hut : u = t
        · subst hut; rw [CState.set_same]; trivial
        · rw [CState.set_other _ _ hut]; exact (hh u).ext x
  | @leave t name r' h1 =>
    refine .casesOn hk ?_ ?_
    · rintro ⟨u, hu⟩
      refine .inl ⟨u, ?_⟩
      have hut : u ≠ t := by rintro rfl; rw [h1] at hu; exact hu
      rw [CState.set_other _ _ hut]; exact hu
    · rintro ⟨hc, hh⟩
      refine .inr ⟨hc, fun u => ?_⟩
      by_cases hut : u = t
      · subst hut; rw [CState.set_same]; trivial
      · rw [CState.set_other _ _ hut]; exact hh u

theorem exec_kept {s s' : CState} {tr : List CEv} (ci : CInv s) (h : Exec s tr s') (hw : ∀ ev ∈ tr, ¬ ev.isWrite)
    {n : Str} {r : Nat} {e : CfgLogger} (tg : Target s n r e) (hk : KeptEntry s n r e) : Target s' n r e ∧ KeptEntry s' n r e := by
  induction h with
  | refl => exact ⟨tg, hk⟩
  | @tail tr' s1 ev s2 hx st ih =>
    obtain ⟨a, b⟩ := ih (fun ev h => hw ev (by simp [h]))
    have ci1 := (exec_cinv ci hx).1
    have hnw : ¬ ev.isWrite := hw ev (by simp)
    exact ⟨a.step ci1 st hnw, step_kept ci1 st hnw a b⟩

/-- An execution cut at an event. -/
theorem exec_split {s s' : CState} {tr pre post : List CEv} {ev : CEv} (h : Exec s tr s') (e : tr = pre ++ ev :: post) :
    ∃ s1 s2, Exec s pre s1 ∧ CStep s1 ev s2 ∧ Exec s2 post s' := by
  induction h generalizing post with
  | refl => simp at e
  | @tail tr' s1 ev' s2 hx st ih =>
    rcases List.eq_nil_or_concat post with rfl | ⟨post', ev'', rfl⟩
    · have := List.append_inj' (show tr' ++ [ev'] = pre ++ [ev] from e) rfl
      obtain ⟨rfl, h2⟩ := this
      injection h2 with h2; subst h2
      exact ⟨s1, s2, hx, st, .refl _⟩
    · have e' : tr' ++ [ev'] = (pre ++ ev :: post') ++ [ev''] := by rw [e]; simp
      obtain ⟨h1, h2⟩ := List.append_inj' e' rfl
      injection h2 with h2; subst h2
      obtain ⟨a, b, c, d, f⟩ := ih h1
      exact ⟨a, b, c, d, by rw [List.concat_eq_append]; exact .tail f st⟩

theorem quiet_kept {s : CState} (hq : s.Quiet) {n : Str} {r : Nat} {e : CfgLogger} (hk : KeptEntry s n r e) : Configured s.w r e := by
  rcases hk with ⟨t, ht⟩ | ⟨h, _⟩
  · rcases hq t with ⟨c, h⟩ | h <;> (rw [h] at ht; exact ht.elim)
  · exact h

/-- Creators never change. -/
theorem exec_creators {s s' : CState} {tr : List CEv} (ci : CInv s) (h : Exec s tr s') (hw : ∀ ev ∈ tr, ¬ ev.isWrite) :
    s'.w.mgr.config = s.w.mgr.config ∧ s'.w.mgr.fmtCreators = s.w.mgr.fmtCreators ∧ s'.w.mgr.outCreators = s.w.mgr.outCreators := by
  induction h with
  | refl => exact ⟨rfl, rfl, rfl⟩
  | @tail tr' s1 ev s2 hx st ih =>
    obtain ⟨a, b, c⟩ := ih (fun ev h => hw ev (by simp [h]))
    obtain ⟨a', b', c'⟩ := cstep_mgr (exec_cinv ci hx).1 st (hw ev (by simp))
    exact ⟨a'.trans a, b'.trans b, c'.trans c⟩

/-! ## The root logger while it is being made -/

/-- Goroutine `t` is about to make the root logger with the entry `e`. -/
structure RootComing (s : CState) (t : Nat) (e : CfgLogger) : Prop where
  got : ∃ name res, s.th t = .rootGot name res ∧ Good s.w e res
  entry : FirstLogger s.w.mgr.config rootLoggerName e
  ok : ∀ k ∈ e.outputNames, Creatable s.w.mgr k

theorem makeRoot_good {w : World} (inv : WInv w) (hroot : w.root = none) {res : Fetched} {e : CfgLogger} (h : Good w e res) :
    ∃ r, Map.get (w.makeRoot res).loggers rootLoggerName = some r ∧ Configured (w.makeRoot res) r e := by
  obtain ⟨ops, rfl, b⟩ := h
  obtain ⟨hh, hl⟩ := root_create_inv inv hroot
  refine ⟨0, ?_, ?_⟩
  · simp [makeRoot, hh]
  · simp only [makeRoot, hh, List.length_nil, List.nil_append]
    exact ⟨_, rfl, rfl, b⟩

theorem rootComing_step {s s' : CState} {ev : CEv} (ci : CInv s) (h : CStep s ev s') (hw : ¬ ev.isWrite) {t : Nat} {e : CfgLogger}
    (rc : RootComing s t e) : RootComing s' t e ∨ ∃ r, Target s' rootLoggerName r e ∧ KeptEntry s' rootLoggerName r e := by
  obtain ⟨a, b, c⟩ := cstep_mgr ci h hw
  obtain ⟨u, sp⟩ := cstep_spec ci h
  have hentry : FirstLogger s'.w.mgr.config rootLoggerName e := by rw [a]; exact rc.entry
  have hok : ∀ k ∈ e.outputNames, Creatable s'.w.mgr k := fun k hk => creatable_congr a b c (rc.ok k hk)
  obtain ⟨name, res, hth, hg⟩ := rc.got
  by_cases hut : u = t
  · subst hut
    have hne : s'.th u ≠ s.th u → ∃ r, Target s' rootLoggerName r e ∧ KeptEntry s' rootLoggerName r e := by
      intro hne
      have ci' := sp.cinv ci
      cases h with
      | @rootMake t name' res' h1 =>
        have htu : t = u := by
          by_cases h : u = t
          · exact h.symm
          · exact absurd (CState.set_other _ _ h) hne
        subst htu
        rw [hth] at h1; injection h1 with h1 h2; subst h1; subst h2
        have hl := ci.loc t; rw [hth] at hl
        obtain ⟨r, h1, h2⟩ := makeRoot_good ci.inv hl.1 hg
        exact ⟨r, ⟨h1, hentry, hok⟩, kept_done ci' (t := t) (holds_of_eq ci hth trivial) h2 (by rw [CState.set_same]; trivial)⟩
      | @invalid t _ _ h1 => exact absurd (CState.set_other _ _ (by rintro rfl; rw [hth] at h1; simp at h1)) hne
      | @write t _ h1 => exact absurd (CState.set_other _ _ (by rintro rfl; rw [hth] at h1; simp at h1)) hne
      | @notifyLock t _ h1 => exact absurd (CState.set_other _ _ (by rintro rfl; rw [hth] at h1; simp at h1)) hne
      | @notifyFetch t _ _ _ h1 => exact absurd (CState.set_other _ _ (by rintro rfl; rw [hth] at h1; simp at h1)) hne
      | @notifyApply t _ _ _ h1 => exact absurd (CState.set_other _ _ (by rintro rfl; rw [hth] at h1; simp at h1)) hne
      | @notifyUnlock t h1 => exact absurd (CState.set_other _ _ (by rintro rfl; rw [hth] at h1; simp at h1)) hne
      | @getLock t _ h1 => exact absurd (CState.set_other _ _ (by rintro rfl; rw [hth] at h1; simp at h1)) hne
      | @getRoot t _ _ h1 => exact absurd (CState.set_other _ _ (by rintro rfl; rw [hth] at h1; simp at h1)) hne
      | @getOld t _ _ h1 => exact absurd (CState.set_other _ _ (by rintro rfl; rw [hth] at h1; simp at h1)) hne
      | @rootFetch t _ h1 => exact absurd (CState.set_other _ _ (by rintro rfl; rw [hth] at h1; simp at h1)) hne
      | @create t _ _ h1 => exact absurd (CState.set_other _ _ (by rintro rfl; rw [hth] at h1; simp at h1)) hne
      | @selfFetch t _ _ h1 => exact absurd (CState.set_other _ _ (by rintro rfl; rw [hth] at h1; simp at h1)) hne
      | @selfApply t _ _ _ h1 => exact absurd (CState.set_other _ _ (by rintro rfl; rw [hth] at h1; simp at h1)) hne
      | @leave t _ _ h1 => exact absurd (CState.set_other _ _ (by rintro rfl; rw [hth] at h1; simp at h1)) hne
    by_cases hs : s'.th u = s.th u
    · exact .inl ⟨⟨name, res, by rw [hs]; exact hth, hg.ext sp.ext⟩, hentry, hok⟩
    · exact .inr (hne hs)
  · exact .inl ⟨⟨name, res, by rw [sp.frame t (Ne.symm hut)]; exact hth, hg.ext sp.ext⟩, hentry, hok⟩

theorem exec_rootComing {s s' : CState} {tr : List CEv} (ci : CInv s) (h : Exec s tr s') (hw : ∀ ev ∈ tr, ¬ ev.isWrite)
    {t : Nat} {e : CfgLogger} (rc : RootComing s t e) :
    RootComing s' t e ∨ ∃ r, Target s' rootLoggerName r e ∧ KeptEntry s' rootLoggerName r e := by
  induction h with
  | refl => exact .inl rc
  | @tail tr' s1 ev s2 hx st ih =>
    have ci1 := (exec_cinv ci hx).1
    have hnw : ¬ ev.isWrite := hw ev (by simp)
    rcases ih (fun ev h => hw ev (by simp [h])) with h | ⟨r, h1, h2⟩
    · exact rootComing_step ci1 st hnw h
    · exact .inr ⟨r, h1.step ci1 st hnw, step_kept ci1 st hnw h1 h2⟩

/-! ## Progress -/

theorem Exec.single {s s' : CState} {ev : CEv} (h : CStep s ev s') : Exec s [ev] s' := .tail (.refl s) h

theorem Exec.trans {a b c : CState} {tr tr' : List CEv} (h : Exec a tr b) (h' : Exec b tr' c) : Exec a (tr ++ tr') c := by
  induction h' with
  | refl => simpa using h
  | tail _ st ih => rw [← List.append_assoc]; exact .tail ih st

theorem Exec.cons {a b c : CState} {ev : CEv} {tr : List CEv} (h : CStep a ev b) (h' : Exec b tr c) : Exec a (ev :: tr) c :=
  (Exec.single h).trans h'

/-- Goroutine `t`, running alone, comes to its end from here. -/
def CanFinish (s : CState) (t : Nat) : Prop :=
  ∃ tr s', Exec s tr s' ∧ s'.lock = none ∧ s'.th t = .done ∧ ∀ u, u ≠ t → s'.th u = s.th u

theorem CanFinish.step {s s' : CState} {ev : CEv} {t : Nat} (h : CStep s ev s') (hf : ∀ u, u ≠ t → s'.th u = s.th u)
    (hc : CanFinish s' t) : CanFinish s t := by
  obtain ⟨tr, s2, a, b, c, d⟩ := hc
  exact ⟨ev :: tr, s2, .cons h a, b, c, fun u hu => (d u hu).trans (hf u hu)⟩

theorem finish_leaving {s : CState} {t : Nat} {name : Str} {r : Nat} (h : s.th t = .leaving name r) : CanFinish s t :=
  ⟨_, _, .single (.leave h), rfl, CState.set_same _ _ _, fun u hu => CState.set_other _ _ hu⟩

theorem step_got {s : CState} (ci : CInv s) {t r : Nat} {res : Fetched} {rs : List Nat} (h : s.th t = .notifyGot r res rs)
    (ih : ∀ {s : CState}, CInv s → s.th t = .notifying rs → CanFinish s t) : CanFinish s t := by
  have st := CStep.notifyApply h
  obtain ⟨t2, sp⟩ := cstep_spec ci st
  exact .step st (fun u hu => CState.set_other _ _ hu) (ih (sp.cinv ci) (CState.set_same _ _ _))

theorem finish_notifying {s : CState} (ci : CInv s) {t : Nat} {todo : List Nat} (h : s.th t = .notifying todo) : CanFinish s t := by
  induction todo generalizing s with
  | nil => exact ⟨_, _, .single (.notifyUnlock h), rfl, CState.set_same _ _ _, fun u hu => CState.set_other _ _ hu⟩
  | cons r rs ih =>
    have hl := ci.loc t; rw [h] at hl
    have hlt : r < s.w.heap.length := hl r (by simp)
    have hr : s.w.heap[r]? = some s.w.heap[r] := List.getElem?_eq_getElem hlt
    have st := CStep.notifyFetch h hr
    obtain ⟨t', sp⟩ := cstep_spec ci st
    have ci1 := sp.cinv ci
    refine .step st (fun u hu => CState.set_other _ _ hu) ?_
    refine step_got ci1 (CState.set_same _ _ _) ih

theorem finish_created {s : CState} {t : Nat} {name : Str} {r : Nat} (h : s.th t = .created name r) : CanFinish s t := by
  refine .step (CStep.selfFetch h) (fun u hu => CState.set_other _ _ hu) ?_
  refine .step (CStep.selfApply (CState.set_same _ t _)) (fun u hu => CState.set_other _ _ hu) ?_
  exact finish_leaving (CState.set_same _ _ _)

theorem finish_entered {s : CState} (ci : CInv s) {t : Nat} {name : Str} (h : s.th t = .entered name) (hr : s.w.root ≠ none) : CanFinish s t := by
  cases hroot : s.w.root with
  | none => exact absurd hroot hr
  | some root =>
    by_cases h1 : name = [] ∨ name = rootLoggerName
    · exact .step (CStep.getRoot h h1 hroot) (fun u hu => CState.set_other _ _ hu) (finish_leaving (CState.set_same _ _ _))
    · simp only [not_or] at h1
      cases hg : Map.get s.w.loggers name with
      | some r => exact .step (CStep.getOld h h1.1 h1.2 hg) (fun u hu => CState.set_other _ _ hu) (finish_leaving (CState.set_same _ _ _))
      | none => exact .step (CStep.create h h1.1 h1.2 hg hroot) (fun u hu => CState.set_other _ _ hu) (finish_created (CState.set_same _ _ _))

theorem finish_rootGot {s : CState} (ci : CInv s) {t : Nat} {name : Str} {res : Fetched} (h : s.th t = .rootGot name res) : CanFinish s t := by
  have hl := ci.loc t; rw [h] at hl
  have st := CStep.rootMake h
  obtain ⟨t', sp⟩ := cstep_spec ci st
  refine .step st (fun u hu => CState.set_other _ _ hu) ?_
  exact finish_entered (sp.cinv ci) (CState.set_same _ _ _) (makeRoot_inv ci.inv hl.1 hl.2).2.2.2.2.2

theorem finish_holder {s : CState} (ci : CInv s) {t : Nat} (h : (s.th t).holds) : CanFinish s t := by
  cases hth : s.th t with
  | ready c => rw [hth] at h; exact h.elim
  | wrote => rw [hth] at h; exact h.elim
  | done => rw [hth] at h; exact h.elim
  | notifying todo => exact finish_notifying ci hth
  | notifyGot r res todo =>
    have st := CStep.notifyApply hth
    obtain ⟨t', sp⟩ := cstep_spec ci st
    exact .step st (fun u hu => CState.set_other _ _ hu) (finish_notifying (sp.cinv ci) (CState.set_same _ _ _))
  | entered name =>
    cases hroot : s.w.root with
    | some r => exact finish_entered ci hth (by rw [hroot]; simp)
    | none =>
      have hg : Map.get s.w.loggers name = none := by rw [(root_create_inv ci.inv hroot).2]; rfl
      have st := CStep.rootFetch hth hroot hg
      obtain ⟨t', sp⟩ := cstep_spec ci st
      exact .step st (fun u hu => CState.set_other _ _ hu) (finish_rootGot (sp.cinv ci) (CState.set_same _ _ _))
  | rootGot name res => exact finish_rootGot ci hth
  | created name r => exact finish_created hth
  | selfGot name r res =>
    exact .step (CStep.selfApply hth) (fun u hu => CState.set_other _ _ hu) (finish_leaving (CState.set_same _ _ _))
  | leaving name r => exact finish_leaving hth

/-- With the lock free, any call can run to its end. -/
theorem finish_free {s : CState} (ci : CInv s) (hl : s.lock = none) {t : Nat} (h : s.th t ≠ .done) : CanFinish s t := by
  have hn : ¬ (s.th t).holds := by rw [ci.mutex t, hl]; simp
  have fromWrote : ∀ {s : CState}, CInv s → s.lock = none → s.th t = .wrote → CanFinish s t := by
    intro s ci hl hth
    have st := CStep.notifyLock hth hl (List.Perm.refl _)
    obtain ⟨t', sp⟩ := cstep_spec ci st
    exact .step st (fun u hu => CState.set_other _ _ hu) (finish_notifying (sp.cinv ci) (CState.set_same _ _ _))
  cases hth : s.th t with
  | done => exact absurd hth h
  | wrote => exact fromWrote ci hl hth
  | ready c =>
    cases c with
    | setConfig cfg =>
      cases hv : validateConfig cfg with
      | some e => exact ⟨_, _, .single (.invalid hth hv), hl, CState.set_same _ _ _, fun u hu => CState.set_other _ _ hu⟩
      | none =>
        have st := CStep.write hth hv
        obtain ⟨t', sp⟩ := cstep_spec ci st
        exact .step st (fun u hu => CState.set_other _ _ hu) (fromWrote (sp.cinv ci) hl (CState.set_same _ _ _))
    | getLogger name =>
      have st := CStep.getLock hth hl
      obtain ⟨t', sp⟩ := cstep_spec ci st
      exact .step st (fun u hu => CState.set_other _ _ hu) (finish_holder (sp.cinv ci) (by rw [CState.set_same]; trivial))
  | notifying _ => rw [hth] at hn; exact absurd trivial hn
  | notifyGot _ _ _ => rw [hth] at hn; exact absurd trivial hn
  | entered _ => rw [hth] at hn; exact absurd trivial hn
  | rootGot _ _ => rw [hth] at hn; exact absurd trivial hn
  | created _ _ => rw [hth] at hn; exact absurd trivial hn
  | selfGot _ _ _ => rw [hth] at hn; exact absurd trivial hn
  | leaving _ _ => rw [hth] at hn; exact absurd trivial hn

/-- A returned logger is the one the factory keeps. -/
theorem ret_get {s s' : CState} {tr : List CEv} (ci : CInv s) (h : Exec s tr s') {t : Nat} {n : Str} {r : Nat}
    (hm : .ret t n r ∈ tr) : Map.get s'.w.loggers (canon n) = some r := by
  obtain ⟨pre, post, e⟩ := List.append_of_mem hm
  obtain ⟨s1, s2, a, b, c⟩ := exec_split h e
  have ci1 := (exec_cinv ci a).1
  obtain ⟨u, sp⟩ := cstep_spec ci1 b
  have x := (exec_cinv (sp.cinv ci1) c).2
  cases b with
  | leave h1 =>
    have := ci1.loc t; rw [h1] at this
    exact x.loggers _ _ this

end Log4g
