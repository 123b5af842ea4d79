import Verif.Spec.Query
import Verif.Lemmas.Early

/-! # Helpers for C142 -/

namespace Log4g
open Spec World

theorem sameOut_grow {m a b a' b' : Manager} {o o' : Nat} (h : SameOut m a b o o') (ga : Grow a a') (gb : Grow b b') : SameOut m a' b' o o' := by
  rcases h with h | ⟨h1, h2, d, f, f', h3, h4, h5⟩
  · exact .inl h
  · refine .inr ⟨h1, h2, d, f, f', ga.oheap_get h3, gb.oheap_get h4, ?_⟩
    rcases h5 with h5 | ⟨k1, k2, fo, k3, k4⟩
    · exact .inl h5
    · exact .inr ⟨k1, k2, fo, ga.fheap_get k3, gb.fheap_get k4⟩

theorem like_grow {m a b a' b' : Manager} {l l' : Logger} (h : LikeLogger m a b l l') (ga : Grow a a') (gb : Grow b b') : LikeLogger m a' b' l l' := by
  refine ⟨h.name, h.level, h.parent, h.skip, h.needs, h.count, fun i o o' h1 h2 => ?_⟩
  rcases h.outputs i o o' h1 h2 with h3 | ⟨h3, h4⟩
  · exact .inl (sameOut_grow h3 ga gb)
  · exact .inr ⟨ga.oheap_get h3, gb.oheap_get h4⟩

/-- Both worlds came from one where the manager was `m`, with the same loggers. -/
structure Joint (m : Manager) (a b : World) : Prop where
  left : Since m a.mgr
  right : Since m b.mgr
  loggers : b.loggers = a.loggers
  root : b.root = a.root
  length : b.heap.length = a.heap.length
  like : ∀ (r : Nat) l l', a.heap[r]? = some l → b.heap[r]? = some l' → LikeLogger m a.mgr b.mgr l l'

theorem joint_mgr {m : Manager} {a b : World} (h : Joint m a b) {x y : Manager} (sx : Since m x) (gx : Grow a.mgr x) (sy : Since m y) (gy : Grow b.mgr y) :
    Joint m { a with mgr := x } { b with mgr := y } :=
  ⟨sx, sy, h.loggers, h.root, h.length, fun r l l' h1 h2 => like_grow (h.like r l l' h1 h2) gx gy⟩

theorem joint_update {m : Manager} {a b : World} (h : Joint m a b) (r : Nat) (f g : Logger → Logger)
    (hf : ∀ l l', LikeLogger m a.mgr b.mgr l l' → LikeLogger m a.mgr b.mgr (f l) (g l')) : Joint m (a.update r f) (b.update r g) := by
  refine ⟨h.left, h.right, h.loggers, h.root, by simp [update, h.length], fun q l l' h1 h2 => ?_⟩
  rw [update_heap] at h1 h2
  by_cases e : r = q
  · rw [if_pos e, Option.map_eq_some_iff] at h1 h2
    obtain ⟨x, hx, rfl⟩ := h1
    obtain ⟨y, hy, rfl⟩ := h2
    exact hf _ _ (h.like q x y hx hy)
  · rw [if_neg e] at h1 h2
    exact h.like q l l' h1 h2

theorem joint_add {m : Manager} {a b : World} (h : Joint m a b) (x : Logger) (hx : x.outputs = []) (ro : Option Nat) (lo : Map Str Nat) :
    Joint m { a with root := ro, loggers := lo, heap := a.heap ++ [x] } { b with root := ro, loggers := lo, heap := b.heap ++ [x] } := by
  refine ⟨h.left, h.right, rfl, rfl, by simp [h.length], fun q l l' h1 h2 => ?_⟩
  rcases (getElem?_concat _ _ _ _).mp h1 with h1 | ⟨e, rfl⟩ <;> rcases (getElem?_concat _ _ _ _).mp h2 with h2 | ⟨e', rfl⟩
  · exact h.like q l l' h1 h2
  · have := (List.getElem?_eq_some_iff.mp h1).1
    have := h.length
    omega
  · have := (List.getElem?_eq_some_iff.mp h2).1
    have := h.length
    omega
  · exact ⟨rfl, rfl, rfl, rfl, rfl, rfl, fun i o o' h3 => by rw [hx] at h3; simp at h3⟩

theorem joint_fields {m : Manager} {a b : World} (h : Joint m a b) (lo : Map Str Nat) : Joint m { a with loggers := lo } { b with loggers := lo } :=
  ⟨h.left, h.right, rfl, h.root, h.length, h.like⟩

theorem outputs_since {m : Manager} {a : World} (s : Since m a.mgr) (n : Str) : Grow a.mgr (a.mgr.getLoggerOutputs n).2 := (getLoggerOutputs_spec a.mgr s.inv n).1

theorem joint_set {m : Manager} (inv : MgrInv m) (st : Steady m) {a b : World} (h : Joint m a b) (r : Nat) {ns : List Str} {os os' : List Nat} (lvl : Level) (h1 : Resolved a.mgr ns os)
    (h2 : Resolved b.mgr ns os') : Joint m ((a.setLevel r lvl).setOutputs r os) ((b.setLevel r lvl).setOutputs r os') := by
  obtain ⟨i1, i2, i3⟩ := same_resolved inv st h.left h.right h1 h2
  have j1 : Joint m (a.setLevel r lvl) (b.setLevel r lvl) := joint_update h r _ _ fun l l' k => ⟨k.name, rfl, k.parent, k.skip, k.needs, k.count, k.outputs⟩
  exact joint_update j1 r _ _ fun l l' k => ⟨k.name, k.level, k.parent, k.skip, by rw [k.needs]; exact i2 _, i1, fun i o o' h3 h4 => .inl (i3 i o o' h3 h4)⟩

theorem joint_configure {m : Manager} (inv : MgrInv m) (st : Steady m) {a b : World} (h : Joint m a b) (r : Nat) (n : Str) : Joint m (a.configure r n) (b.configure r n) := by
  obtain ⟨s1, e1⟩ := getLoggerOutputs_since st h.left n
  obtain ⟨s2, e2⟩ := getLoggerOutputs_since st h.right n
  have g1 := outputs_since h.left n
  have g2 := outputs_since h.right n
  unfold configure
  generalize a.mgr.getLoggerOutputs n = x at s1 e1 g1
  generalize b.mgr.getLoggerOutputs n = y at s2 e2 g2
  obtain ⟨x, m1⟩ := x
  obtain ⟨y, m2⟩ := y
  simp only at s1 e1 g1 s2 e2 g2
  have j := joint_mgr h s1 g1 s2 g2
  rcases e1 with ⟨⟨e, rfl⟩, h1⟩ | ⟨ops, lc, rfl, h1, k1⟩ <;> rcases e2 with ⟨⟨e', rfl⟩, h2⟩ | ⟨ops', lc', rfl, h2, k2⟩
  · exact j
  · exact absurd h2 (h1 lc')
  · exact absurd h1 (h2 lc)
  · have : lc' = lc := Option.some.inj (h2.1.symm.trans h1.1)
    subst this
    exact joint_set inv st j r _ k1 k2

theorem joint_root {m : Manager} (inv : MgrInv m) (st : Steady m) {a b : World} (h : Joint m a b) : b.getRootLogger.1 = a.getRootLogger.1 ∧ Joint m a.getRootLogger.2 b.getRootLogger.2 := by
  unfold getRootLogger
  rw [h.root]
  cases a.root with
  | some r => exact ⟨rfl, h⟩
  | none =>
    refine ⟨h.length, ?_⟩
    obtain ⟨s1, e1⟩ := getLoggerOutputs_since st h.left rootLoggerName
    obtain ⟨s2, e2⟩ := getLoggerOutputs_since st h.right rootLoggerName
    have g1 := outputs_since h.left rootLoggerName
    have g2 := outputs_since h.right rootLoggerName
    have j0 := joint_add h (newLogger rootLoggerName) rfl (some a.heap.length) a.loggers
    simp only [h.loggers, h.length]
    generalize a.mgr.getLoggerOutputs rootLoggerName = x at s1 e1 g1
    generalize b.mgr.getLoggerOutputs rootLoggerName = y at s2 e2 g2
    obtain ⟨x, m1⟩ := x
    obtain ⟨y, m2⟩ := y
    simp only at s1 e1 g1 s2 e2 g2
    have j := joint_mgr j0 s1 g1 s2 g2
    rcases e1 with ⟨⟨e, rfl⟩, h1⟩ | ⟨ops, lc, rfl, h1, k1⟩ <;> rcases e2 with ⟨⟨e', rfl⟩, h2⟩ | ⟨ops', lc', rfl, h2, k2⟩
    · have gc : ∀ x : Manager, Grow x { x with oheap := x.oheap ++ [{ origin := .console, fmt := none }] } := fun x => ⟨rfl, rfl, rfl, fun _ _ h => h, fun _ _ h => h, ⟨[], by simp⟩, ⟨_, rfl⟩⟩
      have j1 := joint_update j a.heap.length (fun l => { l with level := Level.Debug }) (fun l => { l with level := Level.Debug }) fun l l' k => ⟨k.name, rfl, k.parent, k.skip, k.needs, k.count, k.outputs⟩
      have j2 := joint_mgr j1 (s1.console (console_inv s1.inv)) (gc m1) (s2.console (console_inv s2.inv)) (gc m2)
      have j3 := joint_update j2 a.heap.length
        (fun l => { l with outputs := [m1.oheap.length], callerInfoFlag := raiseFlag { m1 with oheap := m1.oheap ++ [{ origin := .console, fmt := none }] } l.callerInfoFlag [m1.oheap.length] })
        (fun l => { l with outputs := [m2.oheap.length], callerInfoFlag := raiseFlag { m2 with oheap := m2.oheap ++ [{ origin := .console, fmt := none }] } l.callerInfoFlag [m2.oheap.length] })
        fun l l' k => ⟨k.name, k.level, k.parent, k.skip, by simp [raiseFlag, Manager.outFlag, k.needs], rfl, fun i o o' h3 h4 => by
          cases i with
          | succ i => simp at h3
          | zero =>
            simp only [List.getElem?_cons_zero, Option.some.injEq] at h3 h4
            subst h3; subst h4
            exact .inr ⟨by simp, by simp⟩⟩
      exact joint_fields j3 _
    · exact absurd h2 (h1 lc')
    · exact absurd h1 (h2 lc)
    · have : lc' = lc := Option.some.inj (h2.1.symm.trans h1.1)
      subst this
      exact joint_fields (joint_set inv st j a.heap.length _ k1 k2) _

theorem joint_create {m : Manager} {a b : World} (h : Joint m a b) (n : Str) (p : Option Nat) : (b.createLogger n p).1 = (a.createLogger n p).1 ∧ Joint m (a.createLogger n p).2 (b.createLogger n p).2 := by
  unfold createLogger
  rw [h.loggers]
  cases Map.get a.loggers n with
  | some r => exact ⟨rfl, h⟩
  | none =>
    refine ⟨h.length, ?_⟩
    have j := joint_add h { newLogger n with parent := p } rfl a.root (Map.set a.loggers n a.heap.length)
    simp only [h.length]
    rw [show b.root = a.root from h.root]
    exact j

theorem joint_parent {m : Manager} : ∀ (rest : Str) {a b : World} (p : Nat) (before : Str), Joint m a b →
    (b.parentLoop p before rest).1 = (a.parentLoop p before rest).1 ∧ Joint m (a.parentLoop p before rest).2 (b.parentLoop p before rest).2
  | [], _, _, _, _, h => ⟨rfl, h⟩
  | c :: rest, a, b, p, before, h => by
    simp only [parentLoop]
    split
    · obtain ⟨h1, h2⟩ := joint_create h before (some p)
      rw [h1]
      exact joint_parent rest _ _ h2
    · exact joint_parent rest _ _ h

theorem joint_get {m : Manager} (inv : MgrInv m) (st : Steady m) {a b : World} (h : Joint m a b) (n : Str) : Joint m (a.getLogger n).2 (b.getLogger n).2 := by
  unfold getLogger
  split
  · exact (joint_root inv st h).2
  · rw [h.loggers]
    cases Map.get a.loggers n with
    | some r => exact h
    | none =>
      obtain ⟨h1, h2⟩ := joint_root inv st h
      simp only [getParent]
      rw [h1]
      obtain ⟨h3, h4⟩ := joint_parent n a.getRootLogger.1 [] h2
      rw [h3]
      obtain ⟨h5, h6⟩ := joint_create h4 n (some (a.getRootLogger.2.parentLoop a.getRootLogger.1 [] n).1)
      rw [h5]
      exact joint_configure inv st h6 _ n

theorem joint_query {m : Manager} (st : Steady m) {a b : World} (h : Joint m a b) (n : Str) : Joint m (a.queryOutputs n) b := by
  have j := joint_mgr h (getLoggerOutputs_since st h.left n).1 (outputs_since h.left n) h.right (.refl _)
  exact j

theorem joint_act {m : Manager} (inv : MgrInv m) (st : Steady m) {a b : World} (h : Joint m a b) (c : Act) (hm : Mild m c) (hq : isQuery c = false) (ok : c.ok a) : c.ok b ∧ Joint m (c.run a) (c.run b) := by
  cases c with
  | getLogger n => exact ⟨trivial, joint_get inv st h n⟩
  | setLevel r lvl =>
    refine ⟨by simp only [Act.ok] at ok ⊢; rw [h.length]; exact ok, ?_⟩
    exact joint_update h r _ _ fun l l' k => ⟨k.name, rfl, k.parent, k.skip, k.needs, k.count, k.outputs⟩
  | setCallerSkip r s =>
    refine ⟨by simp only [Act.ok] at ok ⊢; rw [h.length]; exact ok, ?_⟩
    exact joint_update h r _ _ fun l l' k => ⟨k.name, k.level, k.parent, rfl, k.needs, k.count, k.outputs⟩
  | setOutputs r ops =>
    have hm : ∀ o ∈ ops, o < m.oheap.length := hm
    have flags : ∀ {x : Manager}, Since m x → ∀ flag, raiseFlag x flag ops = raiseFlag m flag ops := fun s flag => raiseFlag_grow s.grow inv flag ops hm
    refine ⟨⟨by rw [h.length]; exact ok.1, fun o ho => ?_⟩, ?_⟩
    · obtain ⟨x, hx⟩ := h.right.grow.oheap
      have := hm o ho
      rw [hx, List.length_append]
      omega
    · refine joint_update h r _ _ fun l l' k => ⟨k.name, k.level, k.parent, k.skip, ?_, rfl, fun i o o' h3 h4 => .inl (.inl ⟨hm o (List.mem_of_getElem? h3), ?_⟩)⟩
      · simp only
        rw [flags h.left, flags h.right, k.needs]
      · exact Option.some.inj (h3.symm.trans h4)
  | setConfig cfg order =>
    have e : ∀ w : World, (w.setConfig cfg order).2 = w := fun w => by
      unfold World.setConfig
      cases hv : validateConfig cfg with
      | none => exact absurd hv hm
      | some _ => rfl
    refine ⟨by simp only [Act.ok] at ok ⊢; rw [h.loggers]; exact ok, ?_⟩
    show Joint m (a.setConfig cfg order).2 (b.setConfig cfg order).2
    rw [e, e]
    exact h
  | queryOutputs n => cases hq
  | _ => exact hm.elim

theorem joint_steps {m : Manager} (inv : MgrInv m) (st : Steady m) {w a : World} {as : List Act} (h0 : Joint m w w) (hm : ∀ c ∈ as, Mild m c) (h : Steps w as a) :
    ∃ b, Steps w (as.filter fun c => !isQuery c) b ∧ Joint m a b := by
  induction h with
  | refl => exact ⟨w, .refl _, h0⟩
  | @tail a as c _ ok ih =>
    obtain ⟨b, h1, h2⟩ := ih fun c hc => hm c (List.mem_append_left _ hc)
    cases hq : isQuery c with
    | true =>
      cases c with
      | queryOutputs n =>
        refine ⟨b, by simpa [isQuery] using h1, joint_query st h2 n⟩
      | _ => cases hq
    | false =>
      obtain ⟨h3, h4⟩ := joint_act inv st h2 c (hm c (by simp)) hq ok
      refine ⟨c.run b, ?_, h4⟩
      rw [List.filter_append]
      have : [c].filter (fun c => !isQuery c) = [c] := by simp [hq]
      rw [this]
      exact .tail h1 h3

theorem joint_start {w : World} (inv : WInv w) : Joint w.mgr w w := by
  refine ⟨.refl inv.mgr, .refl inv.mgr, rfl, rfl, rfl, fun r l l' h1 h2 => ?_⟩
  rw [h1] at h2
  cases h2
  refine ⟨rfl, rfl, rfl, rfl, rfl, rfl, fun i o o' h3 h4 => .inl (.inl ⟨?_, ?_⟩)⟩
  · exact inv.outs r l h1 o (List.mem_of_getElem? h3)
  · rw [h3] at h4; exact Option.some.inj h4

end Log4g
