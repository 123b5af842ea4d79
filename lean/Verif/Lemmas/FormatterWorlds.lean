import Verif.Spec.Formatters
import Verif.Lemmas.Logger
import Verif.Lemmas.Caller

/-! # Worlds whose outputs get other formatters -/

namespace Log4g
open Spec World
open scoped List
variable {V : Type}

/-- What the manager refers to exists. -/
structure MOk (m : Manager) : Prop where
  formats : ∀ k g, Map.get m.formats k = some g → g < m.fheap.length
  outputs : ∀ k o, Map.get m.outputs k = some o → o < m.oheap.length
  fmt : ∀ (o : Nat) (ob : OutObj) g, m.oheap[o]? = some ob → ob.fmt = some g → g < m.fheap.length

/-- Only new instances. -/
structure MGrow (m m' : Manager) : Prop where
  fheap : m.fheap <+: m'.fheap
  oheap : m.oheap <+: m'.oheap

theorem MGrow.refl (m : Manager) : MGrow m m := ⟨List.prefix_refl _, List.prefix_refl _⟩
theorem MGrow.trans {a b c : Manager} (h : MGrow a b) (h' : MGrow b c) : MGrow a c := ⟨h.1.trans h'.1, h.2.trans h'.2⟩

theorem prefix_get {α : Type} {a b : List α} (h : a <+: b) {i : Nat} {x : α} (hx : a[i]? = some x) : b[i]? = some x := by
  obtain ⟨c, rfl⟩ := h
  rw [List.getElem?_append_left (List.getElem?_eq_some_iff.mp hx).1]; exact hx

theorem prefix_same {α : Type} {a b : List α} (h : a <+: b) {i : Nat} (hi : i < a.length) : b[i]? = a[i]? := by
  obtain ⟨c, rfl⟩ := h
  rw [List.getElem?_append_left hi]

theorem mgrow_flag {m m' : Manager} (h : MOk m) (g : MGrow m m') {o : Nat} (ho : o < m.oheap.length) : m'.outFlag o = m.outFlag o := by
  simp only [Manager.outFlag]
  rw [prefix_same g.oheap ho]
  cases h1 : m.oheap[o]? with
  | none => rfl
  | some ob =>
    have hf := h.fmt o ob
    obtain ⟨og, fm⟩ := ob
    cases fm with
    | none => rfl
    | some f =>
      cases og with
      | user flag => rfl
      | _ => simp only; rw [prefix_same g.fheap (hf f h1 rfl)]

theorem getFormat_ok {m : Manager} (h : MOk m) (c : CfgMap) :
    MOk (m.getFormat c).2 ∧ MGrow m (m.getFormat c).2 ∧ ∀ g, (m.getFormat c).1 = .ok g → g < (m.getFormat c).2.fheap.length := by
  unfold Manager.getFormat
  split
  · exact ⟨h, .refl m, by simp⟩
  · split
    · rename_i f hf
      exact ⟨h, .refl m, by intro g hg; injection hg with hg; subst hg; exact h.formats _ _ hf⟩
    · split
      · exact ⟨⟨h.1, h.2, h.3⟩, ⟨List.prefix_refl _, List.prefix_refl _⟩, by simp⟩
      · refine ⟨⟨?_, h.2, ?_⟩, ⟨List.prefix_append _ _, List.prefix_refl _⟩, ?_⟩
        · intro k g hk
          simp only [List.length_append, List.length_cons, List.length_nil]
          by_cases hkk : k = c.name
          · subst hkk; rw [Map.get_set_self] at hk; injection hk with hk; omega
          · rw [Map.get_set_ne _ _ (Ne.symm hkk)] at hk
            have := h.formats _ _ hk; omega
        · intro o ob g h1 h2
          have := h.fmt o ob g h1 h2
          simp; omega
        · intro g hg; injection hg with hg; subst hg; simp

theorem getOutput_ok {m : Manager} (h : MOk m) (c : CfgMap) {f : Nat} (hf : f < m.fheap.length) :
    MOk (m.getOutput c f).2 ∧ MGrow m (m.getOutput c f).2 ∧ ∀ o, (m.getOutput c f).1 = .ok o → o < (m.getOutput c f).2.oheap.length := by
  unfold Manager.getOutput
  split
  · exact ⟨h, .refl m, by simp⟩
  · split
    · rename_i f hf
      exact ⟨h, .refl m, by intro g hg; injection hg with hg; subst hg; exact h.outputs _ _ hf⟩
    · split
      · exact ⟨⟨h.1, h.2, h.3⟩, ⟨List.prefix_refl _, List.prefix_refl _⟩, by simp⟩
      · refine ⟨⟨h.1, ?_, ?_⟩, ⟨List.prefix_refl _, List.prefix_append _ _⟩, ?_⟩
        · intro k g hk
          simp only [List.length_append, List.length_cons, List.length_nil]
          by_cases hkk : k = c.name
          · subst hkk; rw [Map.get_set_self] at hk; injection hk with hk; omega
          · rw [Map.get_set_ne _ _ (Ne.symm hkk)] at hk
            have := h.outputs _ _ hk; omega
        · intro o ob g h1 h2
          rcases (getElem?_concat _ _ _ _).mp h1 with h1 | ⟨h1, h3⟩
          · exact h.fmt o ob g h1 h2
          · subst h3; simp at h2; subst h2; exact hf
        · intro g hg; injection hg with hg; subst hg; simp

theorem one_ok_refs {m : Manager} (h : MOk m) (n : Str) :
    MOk (m.one n).2 ∧ MGrow m (m.one n).2 ∧ ∀ o, (m.one n).1 = .ok o → o < (m.one n).2.oheap.length := by
  unfold Manager.one
  simp only
  split
  · exact ⟨h, .refl m, by simp⟩
  · split
    · exact ⟨h, .refl m, by simp⟩
    · obtain ⟨k1, k2, k3⟩ := getFormat_ok h (m.config.getCfgFormat (m.config.getCfgOutput n).formatName)
      split
      · rename_i e m' he
        rw [he] at k1 k2
        exact ⟨k1, k2, by simp⟩
      · rename_i f m' he
        rw [he] at k1 k2 k3
        obtain ⟨j1, j2, j3⟩ := getOutput_ok k1 (m.config.getCfgOutput n) (k3 f rfl)
        exact ⟨j1, k2.trans j2, j3⟩

theorem loop_refs {m : Manager} (h : MOk m) (ns : List Str) :
    MOk (m.loop ns).2 ∧ MGrow m (m.loop ns).2 ∧ ∀ os, (m.loop ns).1 = .ok os → ∀ o ∈ os, o < (m.loop ns).2.oheap.length := by
  induction ns generalizing m with
  | nil => exact ⟨h, .refl m, by intro os hos; injection hos with hos; subst hos; simp⟩
  | cons n ns ih =>
    obtain ⟨k1, k2, k3⟩ := one_ok_refs h n
    simp only [Manager.loop]
    split
    · rename_i e m' he
      rw [he] at k1 k2
      exact ⟨k1, k2, by simp⟩
    · rename_i o m' he
      rw [he] at k1 k2 k3
      obtain ⟨j1, j2, j3⟩ := ih k1
      split
      · rename_i e m'' he'
        rw [he'] at j1 j2
        exact ⟨j1, k2.trans j2, by simp⟩
      · rename_i os m'' he'
        rw [he'] at j1 j2 j3
        refine ⟨j1, k2.trans j2, ?_⟩
        intro os' hos'
        injection hos' with hos'
        subst hos'
        intro o' ho'
        rcases List.mem_cons.mp ho' with rfl | ho'
        · exact Nat.lt_of_lt_of_le (k3 _ rfl) j2.oheap.length_le
        · exact j3 os rfl o' ho'

theorem outputs_refs {m : Manager} (h : MOk m) (n : Str) :
    MOk (m.getLoggerOutputs n).2 ∧ MGrow m (m.getLoggerOutputs n).2 ∧
      ∀ ops lvl, (m.getLoggerOutputs n).1 = .ok (ops, lvl) → ∀ o ∈ ops, o < (m.getLoggerOutputs n).2.oheap.length := by
  unfold Manager.getLoggerOutputs
  split
  · exact ⟨h, .refl m, by simp⟩
  · rename_i lc hlc
    obtain ⟨k1, k2, k3⟩ := loop_refs h lc.outputNames
    split
    · rename_i e m' he
      rw [he] at k1 k2
      exact ⟨k1, k2, by simp⟩
    · rename_i ops m' he
      rw [he] at k1 k2 k3
      refine ⟨k1, k2, ?_⟩
      intro ops' lvl h1
      injection h1 with h1
      injection h1 with h1 h2
      subst h1
      exact k3 _ rfl

/-- The elementary changes the library makes to its state. -/
inductive Elem : World → World → Prop
  | mgr {w m} : MOk m → MGrow w.mgr m → Elem w { w with mgr := m }
  | maps {w root loggers} : Elem w { w with root := root, loggers := loggers }
  | new {w} (name : Str) (parent : Option Nat) : Elem w { w with heap := w.heap ++ [{ newLogger name with parent := parent }] }
  | level {w} (r : Nat) (lvl : Level) : Elem w (w.setLevel r lvl)
  | outs {w} (r : Nat) (ops : List Nat) : (∀ o ∈ ops, o < w.mgr.oheap.length) → Elem w (w.setOutputs r ops)

/-- Some of them in a row. -/
inductive Elems : World → World → Prop
  | refl (w) : Elems w w
  | tail {a b c} : Elems a b → Elem b c → Elems a c

theorem Elems.trans {a b c : World} (h : Elems a b) (h' : Elems b c) : Elems a c := by
  induction h' with
  | refl => exact h
  | tail _ e ih => exact .tail ih e

theorem Elem.elems {a b : World} (h : Elem a b) : Elems a b := .tail (.refl _) h

theorem elem_ok {a b : World} (h : Elem a b) (ha : MOk a.mgr) : MOk b.mgr := by
  cases h with
  | mgr h _ => exact h
  | _ => exact ha

theorem elems_ok {a b : World} (h : Elems a b) (ha : MOk a.mgr) : MOk b.mgr := by
  induction h with
  | refl => exact ha
  | tail _ e ih => exact elem_ok e ih

theorem elems_configure {w : World} (h : MOk w.mgr) (r : Nat) (name : Str) : Elems w (w.configure r name) := by
  obtain ⟨k1, k2, k3⟩ := outputs_refs h name
  unfold configure
  split
  · rename_i e m he
    rw [he] at k1 k2
    exact Elem.elems (.mgr k1 k2)
  · rename_i ops lvl m he
    rw [he] at k1 k2 k3
    exact ((Elem.elems (.mgr k1 k2)).tail (.level r lvl)).tail (.outs r ops (k3 ops lvl rfl))

theorem elems_create {w : World} (name : Str) (p : Option Nat) : Elems w (w.createLogger name p).2 := by
  unfold createLogger
  split
  · exact .refl w
  · exact (Elem.elems (.new name p)).tail .maps

theorem elems_root {w : World} (h : MOk w.mgr) : Elems w w.getRootLogger.2 := by
  unfold getRootLogger
  split
  · exact .refl w
  · simp only
    refine Elems.tail ?_ .maps
    have h0 : Elems w { w with root := some w.heap.length, heap := w.heap ++ [newLogger rootLoggerName] } :=
      (Elem.elems (.new rootLoggerName none)).tail .maps
    obtain ⟨k1, k2, k3⟩ := outputs_refs h rootLoggerName
    split
    · rename_i e m he
      rw [he] at k1 k2
      refine Elems.tail ?_ (.outs _ _ (by simp [setLevel, update]))
      refine Elems.tail ((h0.tail (.mgr k1 k2)).tail (.level w.heap.length Level.Debug)) (.mgr ⟨?_, ?_, ?_⟩ ⟨?_, ?_⟩)
      · exact k1.formats
      · intro k o hk
        have := k1.outputs k o hk
        simp [setLevel, update] at this ⊢; omega
      · intro o ob g h1 h2
        rcases (getElem?_concat _ _ _ _).mp h1 with h1 | ⟨h1, h3⟩
        · exact k1.fmt o ob g h1 h2
        · subst h3; simp at h2
      · exact List.prefix_refl _
      · exact List.prefix_append _ _
    · rename_i ops lvl m he
      rw [he] at k1 k2 k3
      exact ((h0.tail (.mgr k1 k2)).tail (.level _ lvl)).tail (.outs _ ops (k3 ops lvl rfl))

theorem elems_parentLoop {w : World} (p : Nat) (before rest : Str) : Elems w (w.parentLoop p before rest).2 := by
  induction rest generalizing w p before with
  | nil => exact .refl w
  | cons c rest ih =>
    simp only [parentLoop]
    split
    · exact (elems_create before (some p)).trans (ih _ _)
    · exact ih _ _

theorem elems_getLogger {w : World} (h : MOk w.mgr) (name : Str) : Elems w (w.getLogger name).2 := by
  unfold getLogger
  split
  · exact elems_root h
  · split
    · exact .refl w
    · have h1 : Elems w (w.getParent name).2 := by
        unfold getParent
        exact (elems_root h).trans (elems_parentLoop _ _ _)
      have h2 := h1.trans (elems_create name (some (w.getParent name).1))
      exact h2.trans (elems_configure (elems_ok h2 h) _ _)

theorem elems_notify {w : World} (h : MOk w.mgr) (order : List Nat) : Elems w (w.notify order) := by
  induction order generalizing w with
  | nil => exact .refl w
  | cons r rs ih =>
    simp only [notify]
    split
    · exact ih h
    · have := elems_configure h r (by assumption : Logger).name
      exact this.trans (ih (elems_ok this h))

theorem elems_setConfig {w : World} (h : MOk w.mgr) (cfg : Config) (order : List Nat) : Elems w (w.setConfig cfg order).2 := by
  unfold setConfig
  split
  · exact .refl w
  · exact (Elem.elems (.mgr (m := { w.mgr with config := cfg }) ⟨h.1, h.2, h.3⟩ ⟨List.prefix_refl _, List.prefix_refl _⟩)).trans
      (elems_notify (w := { w with mgr := { w.mgr with config := cfg } }) ⟨h.1, h.2, h.3⟩ order)

/-- Every call but `SetCallerSkip` is a row of elementary changes. -/
theorem elems_act {w : World} (h : MOk w.mgr) (a : Act) (ok : a.ok w) (hs : ∀ r k, a ≠ .setCallerSkip r k) : Elems w (a.run w) := by
  cases a with
  | registerFormatter t f => exact Elem.elems (.mgr ⟨h.1, h.2, h.3⟩ ⟨List.prefix_refl _, List.prefix_refl _⟩)
  | registerOutput t f => exact Elem.elems (.mgr ⟨h.1, h.2, h.3⟩ ⟨List.prefix_refl _, List.prefix_refl _⟩)
  | setConfig cfg order => exact elems_setConfig h _ _
  | loadConfig d bs ext order => exact elems_setConfig h _ _
  | loadConfigFile d file read order =>
    simp only [Act.run]
    unfold loadConfigFile
    split
    · exact .refl w
    · split
      · exact .refl w
      · exact elems_setConfig h _ _
  | getLogger name => exact elems_getLogger h name
  | queryOutputs name =>
    obtain ⟨k1, k2, _⟩ := outputs_refs h name
    exact Elem.elems (.mgr k1 k2)
  | userOutput flag =>
    refine Elem.elems (.mgr ⟨h.1, ?_, ?_⟩ ⟨List.prefix_refl _, List.prefix_append _ _⟩)
    · intro k o hk
      have := h.outputs k o hk
      simp; omega
    · intro o ob g h1 h2
      rcases (getElem?_concat _ _ _ _).mp h1 with h1 | ⟨h1, h3⟩
      · exact h.fmt o ob g h1 h2
      · subst h3; simp at h2
  | setLevel r lvl => exact Elem.elems (.level r lvl)
  | setCallerSkip r k => exact absurd rfl (hs r k)
  | setOutputs r ops => exact Elem.elems (.outs r ops ok.2)

/-! ## What stays true -/

/-- A formatter that says so, or an output of the user's, was made some time. -/
def Ever (m : Manager) (flag : Int) : Prop :=
  (∃ (i : Nat) (fo : FmtObj), m.fheap[i]? = some fo ∧ fo.flag = flag) ∨ ∃ (o : Nat) (ob : OutObj), m.oheap[o]? = some ob ∧ ob.origin = .user flag

theorem ever_of (m : Manager) (o : Nat) : m.outFlag o = 0 ∨ Ever m (m.outFlag o) := by
  simp only [Manager.outFlag]
  cases h1 : m.oheap[o]? with
  | none => exact .inl rfl
  | some ob =>
    obtain ⟨og, fm⟩ := ob
    cases og with
    | user flag => exact .inr (.inr ⟨o, _, h1, rfl⟩)
    | _ =>
      cases fm with
      | none => exact .inl rfl
      | some f =>
        simp only
        cases h2 : m.fheap[f]? with
        | none => exact .inl rfl
        | some fo => exact .inr (.inl ⟨f, fo, h2, rfl⟩)

theorem ever_grow {m m' : Manager} (g : MGrow m m') {flag : Int} (h : Ever m flag) : Ever m' flag := by
  rcases h with ⟨i, fo, h1, h2⟩ | ⟨o, ob, h1, h2⟩
  · exact .inl ⟨i, fo, prefix_get g.fheap h1, h2⟩
  · exact .inr ⟨o, ob, prefix_get g.oheap h1, h2⟩

/-- The references of manager and loggers are good, and flags come from somewhere. -/
structure FInv (w : World) : Prop where
  ok : MOk w.mgr
  outs : ∀ (r : Nat) (l : Logger), w.heap[r]? = some l → ∀ o ∈ l.outputs, o < w.mgr.oheap.length
  from_ : ∀ (r : Nat) (l : Logger), w.heap[r]? = some l → l.callerInfoFlag = 0 ∨ Ever w.mgr l.callerInfoFlag

/-- A logger's flag is as high as an output of it wants. -/
def PairOk (r o : Nat) (w : World) : Prop := ∀ (l : Logger), w.heap[r]? = some l → o ∈ l.outputs → w.mgr.outFlag o ≤ l.callerInfoFlag

/-- The caller skips are as `K` says. -/
def SkipsAre (K : Nat → Int) (w : World) : Prop :=
  ∀ (r : Nat), (∀ (l : Logger), w.heap[r]? = some l → l.callerSkip = 3 + K r) ∧ (w.heap[r]? = none → K r = 0)

theorem finv_empty : FInv {} :=
  ⟨⟨by simp [Map.get], by simp [Map.get], by simp⟩, by simp, by simp⟩

/-- Loggers change, in fields that do not matter. -/
theorem finv_update {w : World} (h : FInv w) (r : Nat) (f : Logger → Logger)
    (h1 : ∀ (l : Logger), w.heap[r]? = some l → ∀ o ∈ (f l).outputs, o < w.mgr.oheap.length)
    (h2 : ∀ (l : Logger), w.heap[r]? = some l → (f l).callerInfoFlag = 0 ∨ Ever w.mgr (f l).callerInfoFlag) : FInv (w.update r f) := by
  refine ⟨h.ok, ?_, ?_⟩
  · intro r' l hl
    rw [update_heap] at hl
    split at hl
    · rename_i e; subst e
      obtain ⟨l0, h0, rfl⟩ := Option.map_eq_some_iff.mp hl
      exact h1 l0 h0
    · exact h.outs r' l hl
  · intro r' l hl
    rw [update_heap] at hl
    split at hl
    · rename_i e; subst e
      obtain ⟨l0, h0, rfl⟩ := Option.map_eq_some_iff.mp hl
      exact h2 l0 h0
    · exact h.from_ r' l hl

theorem elem_finv {a b : World} (e : Elem a b) (h : FInv a) : FInv b := by
  cases e with
  | mgr k g =>
    exact ⟨k, fun r l hl o ho => Nat.lt_of_lt_of_le (h.outs r l hl o ho) g.oheap.length_le,
      fun r l hl => (h.from_ r l hl).imp id (ever_grow g)⟩
  | maps => exact ⟨h.1, h.2, h.3⟩
  | new name p =>
    refine ⟨h.1, ?_, ?_⟩
    · intro r l hl
      rcases (getElem?_concat _ _ _ _).mp hl with hl | ⟨_, rfl⟩
      · exact h.outs r l hl
      · simp [newLogger]
    · intro r l hl
      rcases (getElem?_concat _ _ _ _).mp hl with hl | ⟨_, rfl⟩
      · exact h.from_ r l hl
      · exact .inl rfl
  | level r lvl => exact finv_update h r _ (fun l hl => h.outs r l hl) (fun l hl => h.from_ r l hl)
  | outs r ops ho =>
    refine finv_update h r _ (fun l hl => ho) (fun l hl => ?_)
    rcases raiseFlag_from a.mgr l.callerInfoFlag ops with k | ⟨o, _, k⟩
    · simp only; rw [k]; exact h.from_ r l hl
    · simp only; rw [← k]; exact ever_of _ _

theorem elems_finv {a b : World} (e : Elems a b) (h : FInv a) : FInv b := by
  induction e with
  | refl => exact h
  | tail _ e ih => exact elem_finv e ih

theorem elem_pair {a b : World} (e : Elem a b) (h : FInv a) {r o : Nat} (hp : PairOk r o a) : PairOk r o b := by
  cases e with
  | mgr k g =>
    intro l hl ho
    rw [show Manager.outFlag _ o = a.mgr.outFlag o from mgrow_flag h.ok g (h.outs r l hl o ho)]
    exact hp l hl ho
  | maps => exact hp
  | new name p =>
    intro l hl ho
    rcases (getElem?_concat _ _ _ _).mp hl with hl | ⟨_, rfl⟩
    · exact hp l hl ho
    · simp [newLogger] at ho
  | level r' lvl =>
    intro l hl ho
    rw [setLevel, update_heap] at hl
    split at hl
    · obtain ⟨l0, h0, rfl⟩ := Option.map_eq_some_iff.mp hl
      exact hp l0 h0 ho
    · exact hp l hl ho
  | outs r' ops _ =>
    intro l hl ho
    rw [setOutputs, update_heap] at hl
    split at hl
    · obtain ⟨l0, h0, rfl⟩ := Option.map_eq_some_iff.mp hl
      exact (raiseFlag_ge a.mgr l0.callerInfoFlag ops).2 o ho
    · exact hp l hl ho

theorem elems_pair {a b : World} (e : Elems a b) (h : FInv a) {r o : Nat} (hp : PairOk r o a) : PairOk r o b := by
  induction e with
  | refl => exact hp
  | tail es e ih => exact elem_pair e (elems_finv es h) ih

theorem elem_skips {a b : World} (e : Elem a b) {K : Nat → Int} (h : SkipsAre K a) : SkipsAre K b := by
  have upd : ∀ r (f : Logger → Logger), (∀ l, (f l).callerSkip = l.callerSkip) → SkipsAre K (a.update r f) := by
    intro r f hf r'
    rw [update_heap]
    split
    · refine ⟨?_, ?_⟩
      · intro l hl
        obtain ⟨l0, h0, rfl⟩ := Option.map_eq_some_iff.mp hl
        rw [hf]; exact (h r').1 l0 h0
      · intro hn; exact (h r').2 (by simpa using hn)
    · exact h r'
  cases e with
  | mgr k g => exact h
  | maps => exact h
  | new name p =>
    intro r
    refine ⟨?_, ?_⟩
    · intro l hl
      rcases (getElem?_concat _ _ _ _).mp hl with hl | ⟨k, rfl⟩
      · exact (h r).1 l hl
      · rw [(h r).2 (by rw [k]; simp)]; rfl
    · intro hn
      refine (h r).2 ?_
      simp only [List.getElem?_eq_none_iff, List.length_append] at hn ⊢
      omega
  | level r lvl => exact upd r _ fun _ => rfl
  | outs r ops _ => exact upd r _ fun _ => rfl

theorem elems_skips {a b : World} (e : Elems a b) {K : Nat → Int} (h : SkipsAre K a) : SkipsAre K b := by
  induction e with
  | refl => exact h
  | tail _ e ih => exact elem_skips e ih

/-! ## `SetFormatter` -/

theorem setFormatter_oheap (w : World) (o : Nat) (fo : Option FmtObj) (o' : Nat) :
    (w.setFormatter o fo).mgr.oheap[o']? = if o = o' then w.mgr.oheap[o']?.map (fun ob => { ob with fmt := fo.map fun _ => w.mgr.fheap.length }) else w.mgr.oheap[o']? := by
  simp only [World.setFormatter, List.getElem?_modify]
  cases w.mgr.oheap[o']? <;> split <;> simp

theorem setFormatter_ok {w : World} (h : MOk w.mgr) (o : Nat) (fo : Option FmtObj) : MOk (w.setFormatter o fo).mgr := by
  refine ⟨?_, ?_, ?_⟩
  · intro k g hk
    have := h.formats k g hk
    simp only [World.setFormatter, List.length_append]; omega
  · intro k o' hk
    have := h.outputs k o' hk
    simpa [World.setFormatter] using this
  · intro o' ob g h1 h2
    rw [setFormatter_oheap] at h1
    have hlen : (w.setFormatter o fo).mgr.fheap.length = w.mgr.fheap.length + fo.toList.length := by simp [World.setFormatter]
    rw [hlen]
    split at h1
    · obtain ⟨ob0, h0, rfl⟩ := Option.map_eq_some_iff.mp h1
      cases fo with
      | none => simp at h2
      | some fo => simp at h2; simp; omega
    · have := h.fmt o' ob g h1 h2; omega

theorem setFormatter_ever {w : World} (o : Nat) (fo : Option FmtObj) {flag : Int} (h : Ever w.mgr flag) : Ever (w.setFormatter o fo).mgr flag := by
  rcases h with ⟨i, f, h1, h2⟩ | ⟨o', ob, h1, h2⟩
  · exact .inl ⟨i, f, prefix_get (List.prefix_append _ _) h1, h2⟩
  · by_cases e : o = o'
    · exact .inr ⟨o', { ob with fmt := fo.map fun _ => w.mgr.fheap.length }, by rw [setFormatter_oheap, if_pos e, h1]; rfl, h2⟩
    · exact .inr ⟨o', ob, by rw [setFormatter_oheap, if_neg e, h1], h2⟩

theorem setFormatter_finv {w : World} (h : FInv w) (o : Nat) (fo : Option FmtObj) : FInv (w.setFormatter o fo) :=
  ⟨setFormatter_ok h.ok o fo, fun r l hl o' ho => by simpa [World.setFormatter] using h.outs r l hl o' ho,
    fun r l hl => (h.from_ r l hl).imp id (setFormatter_ever o fo)⟩

theorem setFormatter_flag {w : World} (h : MOk w.mgr) {o o' : Nat} (hne : o ≠ o') (fo : Option FmtObj) :
    (w.setFormatter o fo).mgr.outFlag o' = w.mgr.outFlag o' := by
  simp only [Manager.outFlag]
  rw [setFormatter_oheap, if_neg hne]
  cases h1 : w.mgr.oheap[o']? with
  | none => rfl
  | some ob =>
    have hf := h.fmt o' ob
    obtain ⟨og, fm⟩ := ob
    cases fm with
    | none => rfl
    | some f =>
      cases og with
      | user flag => rfl
      | _ => simp only; rw [show (w.setFormatter o fo).mgr.fheap[f]? = w.mgr.fheap[f]? from prefix_same (List.prefix_append _ _) (hf f h1 rfl)]

/-! ## Histories -/

theorem fmtAct_finv {w : World} (h : FInv w) (a : FmtAct) (ok : a.ok w) : FInv (a.run w) := by
  cases a with
  | setFormatter o fo => exact setFormatter_finv h o fo
  | lib a =>
    by_cases hs : ∃ r k, a = .setCallerSkip r k
    · obtain ⟨r, k, rfl⟩ := hs
      exact finv_update h r _ (fun l hl => h.outs r l hl) (fun l hl => h.from_ r l hl)
    · exact elems_finv (elems_act h.ok a ok fun r k e => hs ⟨r, k, e⟩) h

theorem fmtSteps_finv {w w' : World} {as : List FmtAct} (h : FmtSteps w as w') (hw : FInv w) : FInv w' := by
  induction h with
  | refl => exact hw
  | tail _ ok ih => exact fmtAct_finv ih _ ok

theorem fmtSteps_pair {w w' : World} {as : List FmtAct} (h : FmtSteps w as w') (hw : FInv w) {r o : Nat} (hp : PairOk r o w)
    (hno : ∀ fo, .setFormatter o fo ∉ as) : PairOk r o w' := by
  induction h with
  | refl => exact hp
  | @tail w1 as a hs ok ih =>
    have hp := ih fun fo hf => hno fo (List.mem_append_left _ hf)
    have hi := fmtSteps_finv hs hw
    cases a with
    | setFormatter o' fo =>
      have hne : o' ≠ o := by
        rintro rfl
        exact hno fo (by simp)
      intro l hl ho
      simp only [FmtAct.run]
      rw [setFormatter_flag hi.ok hne fo]
      exact hp l hl ho
    | lib a =>
      by_cases hs : ∃ r k, a = .setCallerSkip r k
      · obtain ⟨r', k, rfl⟩ := hs
        intro l hl ho
        simp only [FmtAct.run, Act.run, setCallerSkip] at hl
        rw [update_heap] at hl
        split at hl
        · obtain ⟨l0, h0, rfl⟩ := Option.map_eq_some_iff.mp hl
          exact hp l0 h0 ho
        · exact hp l hl ho
      · exact elems_pair (elems_act hi.ok a ok fun r k e => hs ⟨r, k, e⟩) hi hp

theorem libCalls_snoc_lib (as : List FmtAct) (a : Act) : libCalls (as ++ [.lib a]) = libCalls as ++ [a] := by
  simp [libCalls, List.filterMap_append]

theorem libCalls_snoc_set (as : List FmtAct) (o : Nat) (fo : Option FmtObj) : libCalls (as ++ [.setFormatter o fo]) = libCalls as := by
  simp [libCalls, List.filterMap_append]

theorem fmtSteps_skips {w' : World} {as : List FmtAct} (h : FmtSteps {} as w') : SkipsAre (skipOf (libCalls as)) w' := by
  generalize hw0 : ({} : World) = w at h
  induction h with
  | refl => subst hw0; exact fun r => ⟨by simp, fun _ => rfl⟩
  | @tail w1 as a hs ok ih =>
    subst hw0
    have ih := ih
    have hi := fmtSteps_finv hs finv_empty
    cases a with
    | setFormatter o fo => rw [libCalls_snoc_set]; exact ih
    | lib a =>
      rw [libCalls_snoc_lib]
      by_cases hsk : ∃ r k, a = .setCallerSkip r k
      · obtain ⟨r', k, rfl⟩ := hsk
        intro r
        have hr' : r' < w1.heap.length := ok
        rw [skipOf_snoc]
        simp only [FmtAct.run, Act.run, setCallerSkip]
        rw [update_heap]
        by_cases e : r' = r
        · subst e
          rw [if_pos rfl, if_pos rfl]
          refine ⟨?_, ?_⟩
          · intro l hl
            obtain ⟨l0, h0, rfl⟩ := Option.map_eq_some_iff.mp hl
            rfl
          · intro hn
            rw [List.getElem?_eq_getElem hr'] at hn; simp at hn
        · rw [if_neg e, if_neg e]; exact ih r
      · have hnk : ∀ r k, a ≠ .setCallerSkip r k := fun r k e => hsk ⟨r, k, e⟩
        have : skipOf (libCalls as ++ [a]) = skipOf (libCalls as) := by
          funext r
          rw [skipOf_snoc]
          cases a with
          | setCallerSkip r' k => exact absurd rfl (hnk r' k)
          | _ => rfl
        rw [this]
        exact elems_skips (elems_act hi.ok a ok hnk) ih

/-- A logger that has been given an output since its formatter was set wants at least as much. -/
theorem given_pair {as : List FmtAct} {w : World} {r o : Nat} (h : GivenSince as w r o) : PairOk r o w := by
  obtain ⟨x, y, w1, rfl, h1, h2, hno, hg⟩ := h
  have hi := fmtSteps_finv h1 finv_empty
  refine fmtSteps_pair h2 hi ?_ hno
  rcases hg with hg | ⟨x', ops, rfl⟩
  · exact fun l hl ho => absurd ho (hg l hl)
  · generalize hw0 : ({} : World) = w0 at h1
    generalize hx : x' ++ [FmtAct.lib (Act.setOutputs r ops)] = xs at h1
    cases h1 with
    | refl => simp at hx
    | @tail w2 as a hs ok =>
      have e := List.append_inj' hx rfl
      obtain ⟨rfl, e⟩ := e
      injection e with e _
      subst e
      intro l hl ho
      simp only [FmtAct.run, Act.run, setOutputs] at hl
      rw [update_heap, if_pos rfl] at hl
      obtain ⟨l0, h0, rfl⟩ := Option.map_eq_some_iff.mp hl
      exact (raiseFlag_ge w2.mgr l0.callerInfoFlag ops).2 o ho

/-! ## Messages -/

/-- Whoever delivers a message has the output, and has counted the steps. -/
theorem write_delivery (w : World) (now : Nat) (fuel : Nat) (stack : List Frame) (r : Nat) (ctx : Ctx V) (name : Str) (skip : Int)
    (lvl : Level) (fmt : Str) (args : List V) {d : Delivery V} (hd : d ∈ (w.write now fuel stack r ctx name skip lvl fmt args).deliveries) :
    ∃ (k rm : Nat) (l : Logger) (ctx' : Ctx V), w.heap[rm]? = some l ∧ d.out ∈ l.outputs ∧ (ctx' = ctx ∨ ctx' = []) ∧
      d ∈ (dispatch l (List.replicate (k + 1) writeFrame ++ stack) now ctx' name (skip + k) lvl fmt args).deliveries := by
  have out : ∀ (l : Logger) st ctx', d ∈ (dispatch l st now ctx' name skip lvl fmt args).deliveries → d.out ∈ l.outputs := by
    intro l st ctx' hd
    rcases dispatch_out l st now ctx' name skip lvl fmt args with hp | ⟨evt, he, _⟩
    · rw [hp] at hd; simp [Outcome.deliveries] at hd
    · rw [he] at hd
      simp only [Outcome.deliveries, List.mem_map] at hd
      obtain ⟨o, ho, rfl⟩ := hd
      exact ho
  induction fuel generalizing stack r ctx skip with
  | zero => simp [write, Outcome.deliveries] at hd
  | succ fuel ih =>
    simp only [write] at hd
    split at hd
    · simp [Outcome.deliveries] at hd
    · rename_i l hl
      have here : d ∈ (dispatch l (writeFrame :: stack) now ctx name skip lvl fmt args).deliveries →
          ∃ (k rm : Nat) (l : Logger) (ctx' : Ctx V), w.heap[rm]? = some l ∧ d.out ∈ l.outputs ∧ (ctx' = ctx ∨ ctx' = []) ∧
            d ∈ (dispatch l (List.replicate (k + 1) writeFrame ++ stack) now ctx' name (skip + k) lvl fmt args).deliveries := by
        intro hd
        exact ⟨0, r, l, ctx, hl, out l _ _ hd, .inl rfl, by simpa using hd⟩
      split at hd
      · simp [Outcome.deliveries] at hd
      · split at hd
        · split at hd
          · rename_i p hp
            obtain ⟨k, rm, l', ctx', h1, h2, h3, h4⟩ := ih (writeFrame :: stack) p [] (skip + 1) hd (by
              intro l st ctx' hd
              rcases dispatch_out l st now ctx' name (skip + 1) lvl fmt args with hp | ⟨evt, he, _⟩
              · rw [hp] at hd; simp [Outcome.deliveries] at hd
              · rw [he] at hd
                simp only [Outcome.deliveries, List.mem_map] at hd
                obtain ⟨o, ho, rfl⟩ := hd
                exact ho)
            refine ⟨k + 1, rm, l', ctx', h1, h2, .inr (h3.elim id id), ?_⟩
            have e1 : List.replicate (k + 1 + 1) writeFrame ++ stack = List.replicate (k + 1) writeFrame ++ writeFrame :: stack := by
              rw [List.replicate_succ', List.append_assoc]; rfl
            have e2 : skip + ((k + 1 : Nat) : Int) = skip + 1 + (k : Nat) := by omega
            rw [e1, e2]; exact h4
          · exact here hd
        · exact here hd

end Log4g
