import Verif.Spec.System
import Verif.Lemmas.Async
import Verif.Lemmas.Standard
import Verif.Props.Numbers

/-! # A whole program: what each output sees of it -/

namespace Log4g
open Spec
open scoped List
variable {V : Type}

/-! ## More calls to make change nothing that has happened -/

/-- The same output, with goroutines that will make more calls. -/
def AState.more (s : AState V) (x : Nat → List (ACall V)) : AState V :=
  { s with th := fun u => { pc := (s.th u).pc, todo := (s.th u).todo ++ x u } }

theorem more_set (s : AState V) (x : Nat → List (ACall V)) (t : Nat) (y : Thread V) :
    (s.set t y).more x = (s.more x).set t { pc := y.pc, todo := y.todo ++ x t } := by
  simp only [AState.more, AState.set, AState.mk.injEq, true_and, and_true]
  funext u
  by_cases h : u = t
  · subst h; simp
  · simp [h]

theorem more_th {s : AState V} {t : Nat} {y : Thread V} (h : s.th t = y) (x : Nat → List (ACall V)) :
    (s.more x).th t = { pc := y.pc, todo := y.todo ++ x t } := by
  simp [AState.more, h]

theorem more_handle (cfg : ACfg V) (f : Formatter V) (s : AState V) (e : Event V) (x : Nat → List (ACall V)) :
    (s.handle cfg f e).more x = (s.more x).handle cfg f e := by
  unfold AState.handle
  by_cases h : cfg.t ≤ e.level
  · simp only [h, if_true]
    by_cases h2 : cfg.batchNum ≤ s.currNum + 1
    · have h2' : cfg.batchNum ≤ (s.more x).currNum + 1 := h2
      simp only [h2, h2', if_true]
      rfl
    · have h2' : ¬ cfg.batchNum ≤ (s.more x).currNum + 1 := h2
      simp only [h2, h2', if_false]
      rfl
  · simp only [h, if_false]

theorem more_act {cfg : ACfg V} {s s' : AState V} {l : ALab V} (h : AAct cfg s l s') (x : Nat → List (ACall V)) :
    AAct cfg (s.more x) l (s'.more x) := by
  cases h with
  | sendStart h1 h2 => rw [more_set]; exact .sendStart (more_th h1 x) h2
  | sendSkip h1 h2 => rw [more_set]; exact .sendSkip (more_th h1 x) h2
  | sendQueue h1 h2 h3 => rw [more_set]; exact .sendQueue (more_th h1 x) h2 h3
  | sendPanic h1 h2 => exact .sendPanic (more_th h1 x) h2
  | closeStart h1 h2 => rw [more_set]; exact .closeStart (more_th h1 x) h2
  | closeSkip h1 h2 => rw [more_set]; exact .closeSkip (more_th h1 x) h2
  | closeRequest h1 h2 h3 => rw [more_set]; exact .closeRequest (more_th h1 x) h2 h3
  | requestPanic h1 h2 => exact .requestPanic (more_th h1 x) h2
  | closeWait h1 h2 => rw [more_set]; exact .closeWait (more_th h1 x) h2
  | closeStore h1 => rw [more_set]; exact .closeStore (more_th h1 x)
  | closeChan h1 h2 => rw [more_set]; exact .closeChan (more_th h1 x) h2
  | closePanic h1 h2 => exact .closePanic (more_th h1 x) h2
  | begin h1 => exact .begin h1
  | tick h1 => exact .tick h1
  | takeEvent h1 h2 h3 => rw [more_handle]; exact .takeEvent h1 h2 h3
  | takeIgnored h1 h2 h3 h4 => exact .takeIgnored h1 h2 h3 h4
  | takePanic h1 h2 h3 h4 => exact .takePanic h1 h2 h3 h4
  | takeNil h1 h2 => exact .takeNil h1 h2
  | takeClosed h1 h2 h3 => exact .takeClosed h1 h2 h3

theorem more_exec {cfg : ACfg V} {s s' : AState V} {tr : List (ALab V)} (h : AExec cfg s tr s') (x : Nat → List (ACall V)) :
    AExec cfg (s.more x) tr (s'.more x) := by
  induction h with
  | nil => exact .nil
  | snoc _ hs ih => exact .snoc ih ⟨hs.1, more_act hs.2 x⟩

theorem push_more (s : AState V) (t : Nat) (c : ACall V) : s.push t c = s.more fun u => if u = t then [c] else [] := by
  simp only [AState.push, AState.more, AState.set, AState.mk.injEq, true_and, and_true]
  funext u
  by_cases h : u = t
  · subst h; simp
  · simp [h]

theorem push_new {cfg : ACfg V} {prog : Nat → List (ACall V)} {tr : List (ALab V)} {s : AState V}
    (h : AExec cfg (newAsync prog) tr s) (t : Nat) (c : ACall V) :
    AExec cfg (newAsync fun u => prog u ++ if u = t then [c] else []) tr (s.push t c) := by
  rw [push_more]
  exact more_exec h _

/-! ## Goroutines -/

/-- A goroutine that only sends. -/
def Sender (x : Thread V) : Prop := (x.pc = .idle ∨ ∃ e, x.pc = .sending e) ∧ ACall.close ∉ x.todo
/-- A goroutine that only closes. -/
def Closer (x : Thread V) : Prop := (∀ e, x.pc ≠ .sending e) ∧ ∀ e, ACall.send e ∉ x.todo

/-- What a step does to one goroutine: a property of goroutines is kept that survives all their moves. -/
theorem act_thread {cfg : ACfg V} {s s' : AState V} {l : ALab V} (h : AAct cfg s l s') (t : Nat) (P : Thread V → Prop)
    (h1 : ∀ e cs, P { pc := .idle, todo := .send e :: cs } → P { pc := .sending e, todo := cs })
    (h2 : ∀ c cs, P { pc := .idle, todo := c :: cs } → P { pc := .idle, todo := cs })
    (h3 : ∀ e cs, P { pc := .sending e, todo := cs } → P { pc := .idle, todo := cs })
    (h4 : ∀ cs, P { pc := .idle, todo := .close :: cs } → P { pc := .requesting, todo := cs })
    (h5 : ∀ cs, P { pc := .requesting, todo := cs } → P { pc := .waiting, todo := cs })
    (h6 : ∀ cs, P { pc := .waiting, todo := cs } → P { pc := .storing, todo := cs })
    (h7 : ∀ cs, P { pc := .storing, todo := cs } → P { pc := .closing, todo := cs })
    (h8 : ∀ cs, P { pc := .closing, todo := cs } → P { pc := .idle, todo := cs }) :
    P (s.th t) → P (s'.th t) := by
  intro hp
  have key : ∀ (s1 : AState V) (u : Nat) (x y : Thread V), s1.th = s.th → s.th u = x → (P x → P y) → P ((s1.set u y).th t) := by
    intro s1 u x y e1 e2 hxy
    rw [set_th]
    split
    · rename_i e; subst e; exact hxy (e2 ▸ hp)
    · rw [e1]; exact hp
  cases h with
  | sendStart e _ => exact key _ _ _ _ rfl e (h1 _ _)
  | sendSkip e _ => exact key _ _ _ _ rfl e (h2 _ _)
  | sendQueue e _ _ => refine key _ _ _ _ ?_ e (h3 _ _); rfl
  | sendPanic e _ => exact hp
  | closeStart e _ => exact key _ _ _ _ rfl e (h4 _)
  | closeSkip e _ => exact key _ _ _ _ rfl e (h2 _ _)
  | closeRequest e _ _ => refine key _ _ _ _ ?_ e (h5 _); rfl
  | requestPanic e _ => exact hp
  | closeWait e _ => exact key _ _ _ _ rfl e (h6 _)
  | closeStore e => refine key _ _ _ _ ?_ e (h7 _); rfl
  | closeChan e _ => refine key _ _ _ _ ?_ e (h8 _); rfl
  | closePanic e _ => exact hp
  | begin _ => exact hp
  | tick _ => exact hp
  | takeEvent _ _ _ => rw [(handle_same cfg _ _ _).2.2.2.2.2.1]; exact hp
  | takeIgnored _ _ _ _ => exact hp
  | takePanic _ _ _ _ => exact hp
  | takeNil _ _ => exact hp
  | takeClosed _ _ _ => exact hp

theorem sender_act {cfg : ACfg V} {s s' : AState V} {l : ALab V} (h : AAct cfg s l s') (t : Nat) : Sender (s.th t) → Sender (s'.th t) := by
  apply act_thread h t <;> simp +contextual [Sender]

theorem closer_act {cfg : ACfg V} {s s' : AState V} {l : ALab V} (h : AAct cfg s l s') (t : Nat) : Closer (s.th t) → Closer (s'.th t) := by
  refine act_thread h t Closer ?_ ?_ ?_ ?_ ?_ ?_ ?_ ?_
  · intro e cs hh; exact absurd (by simp) (hh.2 e)
  all_goals simp +contextual [Closer]

theorem still_act {cfg : ACfg V} {s s' : AState V} {l : ALab V} (h : AAct cfg s l s') (t : Nat) : s.th t = {} → s'.th t = {} := by
  apply act_thread h t (fun x => x = {}) <;> simp

theorem done_act {cfg : ACfg V} {s s' : AState V} {l : ALab V} (h : AAct cfg s l s') (t : Nat) : (s.th t).todo = [] → (s'.th t).todo = [] := by
  apply act_thread h t (fun x => x.todo = []) <;> simp

/-- One call at a time. -/
def Lone (x : Thread V) : Prop := (x.pc = .idle ∧ ∃ c, x.todo = [c]) ∨ x.todo = []

theorem lone_act {cfg : ACfg V} {s s' : AState V} {l : ALab V} (h : AAct cfg s l s') (t : Nat) : Lone (s.th t) → Lone (s'.th t) := by
  apply act_thread h t <;> simp +contextual [Lone]

/-- If nobody closes, everybody only sends, and the output stays open. -/
theorem never_closed {cfg : ACfg V} {prog : Nat → List (ACall V)} (hc : ∀ t, ACall.close ∉ prog t) {tr : List (ALab V)} {s : AState V}
    (h : AExec cfg (newAsync prog) tr s) :
    (∀ t, Sender (s.th t)) ∧ s.closed = false ∧ s.chanClosed = false ∧ none ∉ queuedOf tr ∧ ∀ t c, .skip t c ∉ tr := by
  generalize h0 : newAsync prog = s0 at h
  induction h with
  | nil => subst h0; exact ⟨fun t => ⟨.inl rfl, hc t⟩, rfl, rfl, by simp [queuedOf], by simp⟩
  | @snoc tr s l s' he hs ih =>
    subst h0
    obtain ⟨i1, i2, i3, i4, i5⟩ := ih
    have no : ∀ {t x}, s.th t = x → x.pc = .requesting ∨ x.pc = .waiting ∨ x.pc = .storing ∨ x.pc = .closing → False := by
      intro t x e hx
      have := (i1 t).1
      rw [e] at this
      rcases hx with hx | hx | hx | hx <;> simp [hx] at this
    refine ⟨fun t => sender_act hs.2 t (i1 t), ?_⟩
    rw [queuedOf_append]
    cases hs.2 with
    | sendStart e h2 => exact ⟨i2, i3, by simpa [queuedOf] using i4, by simpa using i5⟩
    | sendSkip e h2 => rw [i2] at h2; simp at h2
    | sendQueue e h2 h3 => exact ⟨i2, i3, by simpa [queuedOf] using i4, by simpa using i5⟩
    | sendPanic e h2 => rw [i3] at h2; simp at h2
    | @closeStart t cs e h2 => exact absurd (by rw [e]; simp) (i1 t).2
    | closeSkip e h2 => rw [i2] at h2; simp at h2
    | closeRequest e h2 h3 => exact (no e (by simp)).elim
    | requestPanic e h2 => exact (no e (by simp)).elim
    | closeWait e h2 => exact (no e (by simp)).elim
    | closeStore e => exact (no e (by simp)).elim
    | closeChan e h2 => exact (no e (by simp)).elim
    | closePanic e h2 => exact (no e (by simp)).elim
    | begin _ => exact ⟨i2, i3, by simpa [queuedOf] using i4, by simpa using i5⟩
    | tick _ => exact ⟨i2, i3, by simpa [queuedOf] using i4, by simpa using i5⟩
    | @takeEvent e rest f h1 h2 h3 =>
      obtain ⟨_, _, _, a, b, _, _⟩ := handle_same cfg f { s with chan := rest } e
      exact ⟨a.trans i2, b.trans i3, by simpa [queuedOf] using i4, by simpa using i5⟩
    | takeIgnored _ _ _ _ => exact ⟨i2, i3, by simpa [queuedOf] using i4, by simpa using i5⟩
    | takePanic _ _ _ _ => exact ⟨i2, i3, by simpa [queuedOf] using i4, by simpa using i5⟩
    | takeNil _ _ => exact ⟨i2, i3, by simpa [queuedOf] using i4, by simpa using i5⟩
    | takeClosed _ _ _ => exact ⟨i2, i3, by simpa [queuedOf] using i4, by simpa using i5⟩

/-! ## The world grows -/

theorem ext_oheap {w w' : World} (x : Ext w w') {o : Nat} (h : o < w.mgr.oheap.length) : w'.mgr.oheap[o]? = w.mgr.oheap[o]? := by
  obtain ⟨y, hy⟩ := x.oheap
  rw [hy, List.getElem?_append_left h]

theorem ext_length {w w' : World} (x : Ext w w') : w.mgr.oheap.length ≤ w'.mgr.oheap.length := by
  obtain ⟨y, hy⟩ := x.oheap
  rw [hy]; simp

theorem ext_formatter (lib : Lib V) (other : Nat → Formatter V) {w w' : World} (inv : WInv w) (x : Ext w w') {o : Nat} {ob : OutObj}
    (h : w.mgr.oheap[o]? = some ob) (stack : List Frame) : w'.formatterOf lib stack other ob = w.formatterOf lib stack other ob := by
  unfold World.formatterOf
  cases hf : ob.fmt with
  | none => rfl
  | some g =>
    obtain ⟨fo, hfo⟩ := inv.mgr.fmtRef o ob g h hf
    obtain ⟨y, hy⟩ := x.fheap
    have : g < w.mgr.fheap.length := (List.getElem?_eq_some_iff.mp hfo).1
    simp only [Option.map_some, hy, List.getElem?_append_left this]

theorem ext_asyncOf (env : PEnv V) {w w' : World} (inv : WInv w) (x : Ext w w') {o : Nat} (h : o < w.mgr.oheap.length) :
    w'.asyncOf env o = w.asyncOf env o := by
  unfold World.asyncOf
  rw [ext_oheap x h]
  cases ho : w.mgr.oheap[o]? with
  | none => rfl
  | some ob => simp only [ext_formatter env.lib env.other inv x ho]

theorem ext_sendWrites (env : PEnv V) {w w' : World} (inv : WInv w) (x : Ext w w') (stack : List Frame) (d : World.Delivery V)
    (h : d.out < w.mgr.oheap.length) :
    w'.sendWrites env.tc env.lib stack env.other d = w.sendWrites env.tc env.lib stack env.other d := by
  unfold World.sendWrites
  rw [ext_oheap x h]
  cases ho : w.mgr.oheap[d.out]? with
  | none => rfl
  | some ob => simp only [ext_formatter env.lib env.other inv x ho]

theorem ext_sendSyslog (env : PEnv V) {w w' : World} (inv : WInv w) (x : Ext w w') (stack : List Frame) (d : World.Delivery V)
    (h : d.out < w.mgr.oheap.length) : w'.sendSyslog env stack d = w.sendSyslog env stack d := by
  unfold World.sendSyslog
  rw [ext_oheap x h]
  cases ho : w.mgr.oheap[d.out]? with
  | none => rfl
  | some ob => simp only [ext_formatter env.lib env.other inv x ho]

theorem asyncOf_lt {env : PEnv V} {w : World} {o : Nat} {cfg : ACfg V} (h : w.asyncOf env o = some cfg) : o < w.mgr.oheap.length := by
  unfold World.asyncOf at h
  split at h
  · simp at h
  · rename_i ob ho
    exact (List.getElem?_eq_some_iff.mp ho).1

/-- An asynchronous output has been made from configuration: it has a formatter, room in its queue, and its name is in the manager's map. -/
theorem asyncOf_cfg {env : PEnv V} {w : World} (inv : WInv w) {o : Nat} {cfg : ACfg V} (h : w.asyncOf env o = some cfg) :
    (∃ f, cfg.f = some f) ∧ 1 ≤ cfg.queueSize ∧ 1 ≤ cfg.batchNum ∧ ∃ n, Map.get w.mgr.outputs n = some o := by
  unfold World.asyncOf at h
  split at h
  · simp at h
  · rename_i ob ho
    have made : ∀ {t q b}, (∃ m, ob.origin = .managed m ∧ q = GetQueueSize (m.at c!"queue_size") ∧ b = GetBatchNum (m.at c!"batch_num")) →
        some ({ queueSize := q.toNat, batchNum := b.toNat, t := t, f := w.formatterOf env.lib env.stack env.other ob } : ACfg V) = some cfg →
        (∃ f, cfg.f = some f) ∧ 1 ≤ cfg.queueSize ∧ 1 ≤ cfg.batchNum ∧ ∃ n, Map.get w.mgr.outputs n = some o := by
      rintro t q b ⟨m, hm, rfl, rfl⟩ e
      injection e with e
      subst e
      have ho' : w.mgr.oheap[o]? = some ⟨.managed m, ob.fmt⟩ := by rw [ho, ← hm]
      obtain ⟨h1, g, fo, h2, _⟩ := inv.mgr.managed o m ob.fmt ho'
      have hq := ((C28_ranges.1 (m.at c!"queue_size")).1).1
      have hb := ((C28_ranges.2.1 (m.at c!"batch_num")).1).1
      refine ⟨⟨_, by simp [World.formatterOf, h2]; rfl⟩, by simp only; omega, by simp only; omega, _, h1⟩
    split at h
    · rename_i t q b hk
      refine made ?_ h
      unfold OutObj.kind at hk
      split at hk
      · simp [newConsoleOutput] at hk
      · simp at hk
      · rename_i m hm
        refine ⟨m, hm, ?_⟩
        split at hk
        · injection hk with hk
          unfold newConsoleOutput at hk
          split at hk
          · injection hk with _ h1 h2; exact ⟨h1.symm, h2.symm⟩
          · simp at hk
        · split at hk
          · simp at hk
          · split at hk
            · split at hk <;> simp at hk
            · split at hk <;> simp at hk
    · rename_i c t q b hk
      refine made ?_ h
      unfold OutObj.kind at hk
      split at hk
      · simp at hk
      · simp at hk
      · rename_i m hm
        refine ⟨m, hm, ?_⟩
        split at hk
        · simp at hk
        · split at hk
          · simp at hk
          · split at hk
            · split at hk
              · rename_i c' k hr
                injection hk with h0 hk
                subst hk
                unfold newRollingOutput at hr
                split at hr
                · simp at hr
                · split at hr
                  · injection hr with hr
                    injection hr with _ hr
                    injection hr with _ h1 h2; exact ⟨h1.symm, h2.symm⟩
                  · simp at hr
              · simp at hk
            · split at hk <;> simp at hk
    · simp at h

end Log4g
