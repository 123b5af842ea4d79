import Verif.Spec.Slices
import Verif.Lemmas.Handed
import Verif.Lemmas.Standard

/-! # Helpers for C108 -/

namespace Log4g
open Spec World

/-- The slices after some acts. -/
def slicesAfter (ss : List (List Nat)) : List SlcAct → List (List Nat)
  | [] => ss
  | .make ops :: as => slicesAfter (ss ++ [ops]) as
  | .assign i k o :: as => slicesAfter (ss.modify i (·.set k o)) as
  | _ :: as => slicesAfter ss as

theorem cloned_append (as bs : List SlcAct) (ss : List (List Nat)) : cloned ss (as ++ bs) = cloned ss as ++ cloned (slicesAfter ss as) bs := by
  induction as generalizing ss with
  | nil => rfl
  | cons a as ih => cases a <;> simp [cloned, slicesAfter, ih]

theorem slicesAfter_append (as bs : List SlcAct) (ss : List (List Nat)) : slicesAfter ss (as ++ bs) = slicesAfter (slicesAfter ss as) bs := by
  induction as generalizing ss with
  | nil => rfl
  | cons a as ih => cases a <;> simp [slicesAfter, ih]

theorem slc_slices {p0 p : SlcWorld} {as : List SlcAct} (h : SlcSteps p0 as p) : p.slices = slicesAfter p0.slices as := by
  induction h with
  | refl => rfl
  | @tail p' as a _ _ ih =>
    rw [slicesAfter_append, ← ih]
    cases a <;> rfl

theorem slc_fold {p0 p : SlcWorld} {as : List SlcAct} (h : SlcSteps p0 as p) : p = as.foldl SlcAct.run p0 := by
  induction h with
  | refl => rfl
  | tail _ _ ih => rw [List.foldl_append, ← ih]; rfl

theorem refresh_none {p : SlcWorld} {i : Nat} (h : ∀ r, p.held r ≠ some i) (ops : List Nat) : p.refresh i ops = p.w := by
  have : (p.w.heap.mapIdx fun r l => if p.held r = some i then { l with outputs := ops } else l) = p.w.heap := by
    apply List.ext_getElem?
    intro r
    rw [List.getElem?_mapIdx]
    cases p.w.heap[r]? with
    | none => rfl
    | some l => simp [h r]
  unfold SlcWorld.refresh
  rw [this]

theorem slc_cloned {p0 p : SlcWorld} {as : List SlcAct} (h : SlcSteps p0 as p) (hr : KeepsOff p0 as) : Steps p0.w (cloned p0.slices as) p.w := by
  induction h with
  | refl => exact .refl _
  | @tail p' as a hx hok ih =>
    have ih := ih fun x i k o y p e => hr x i k o (y ++ [a]) p (by rw [e]; simp)
    rw [cloned_append, ← slc_slices hx]
    cases a with
    | lib a => exact ih.tail hok
    | make ops => simpa [SlcAct.run, cloned] using ih
    | assign i k o =>
      have hne := hr as i k o [] p' rfl hx
      simp only [SlcAct.run, refresh_none hne, cloned, List.append_nil]
      exact ih
    | set r i =>
      obtain ⟨h1, ops, h2, h3⟩ := hok
      exact ih.tail (a := .setOutputs r _) ⟨h1, by rw [h2]; exact h3⟩

/-! ## The program with copies runs along -/

/-- A logger without its outputs. -/
def Logger.strip (l : Logger) : Logger := { l with outputs := [] }

/-- Two loggers differ at most in their outputs, and not at all if the outputs are no slice of the program. -/
def SameBut (h : Option Nat) : Option Logger → Option Logger → Prop
  | none, none => True
  | some l, some l' => l.strip = l'.strip ∧ (h = none → l = l')
  | _, _ => False

theorem SameBut.refl (h : Option Nat) (x : Option Logger) : SameBut h x x := by
  cases x <;> simp [SameBut]

theorem SameBut.cases {h : Option Nat} {x y : Option Logger} (hs : SameBut h x y) :
    (x = none ∧ y = none) ∨ ∃ l l', x = some l ∧ y = some l' ∧ l.strip = l'.strip ∧ (h = none → l = l') := by
  cases x <;> cases y <;> simp_all [SameBut]

/-- Two worlds differ at most in the outputs of loggers whose outputs are a slice of the program. -/
structure Alongside (held : Nat → Option Nat) (a b : World) : Prop where
  mgr : a.mgr = b.mgr
  root : a.root = b.root
  loggers : a.loggers = b.loggers
  heap : ∀ r, SameBut (held r) a.heap[r]? b.heap[r]?

theorem Alongside.length {held : Nat → Option Nat} {a b : World} (h : Alongside held a b) : a.heap.length = b.heap.length := by
  have h1 := h.heap a.heap.length
  have h2 := h.heap b.heap.length
  rw [List.getElem?_eq_none (Nat.le_refl _)] at h1 h2
  rcases h1.cases with ⟨-, h1⟩ | ⟨l, l', h1, -⟩
  · rcases h2.cases with ⟨h2, -⟩ | ⟨l, l', -, h2, -⟩
    · have := List.getElem?_eq_none_iff.mp h1
      have := List.getElem?_eq_none_iff.mp h2
      omega
    · cases h2
  · cases h1

theorem Alongside.update {held held' : Nat → Option Nat} {a b : World} (h : Alongside held a b) (r : Nat) (f : Logger → Logger)
    (hq : ∀ q, q ≠ r → held' q = none → held q = none)
    (hf : ∀ l l', l.strip = l'.strip → (held r = none → l = l') → (f l).strip = (f l').strip ∧ (held' r = none → f l = f l')) :
    Alongside held' (a.update r f) (b.update r f) := by
  refine ⟨h.mgr, h.root, h.loggers, fun q => ?_⟩
  simp only [World.update, List.getElem?_modify]
  rcases (h.heap q).cases with ⟨h1, h2⟩ | ⟨l, l', h1, h2, h3, h4⟩
  · rw [h1, h2]; exact trivial
  · rw [h1, h2]
    by_cases hrq : r = q
    · subst hrq
      simp only [if_true, Option.map_some]
      exact hf l l' h3 h4
    · simp only [if_neg hrq]
      exact ⟨h3, fun hn => h4 (hq q (fun e => hrq e.symm) hn)⟩

theorem Alongside.withMgr {held : Nat → Option Nat} {a b : World} (h : Alongside held a b) (m : Manager) :
    Alongside held { a with mgr := m } { b with mgr := m } := ⟨rfl, h.root, h.loggers, h.heap⟩

theorem strip_eq {l l' : Logger} : l.strip = l'.strip ↔ l.name = l'.name ∧ l.level = l'.level ∧ l.parent = l'.parent ∧
    l.callerSkip = l'.callerSkip ∧ l.callerInfoFlag = l'.callerInfoFlag := by
  cases l; cases l'; simp [Logger.strip]

theorem Alongside.setLevel {held : Nat → Option Nat} {a b : World} (h : Alongside held a b) (r : Nat) (lvl : Level) :
    Alongside held (a.setLevel r lvl) (b.setLevel r lvl) :=
  h.update r _ (fun _ _ h => h) fun l l' h1 h2 => by
    refine ⟨?_, fun hn => by rw [h2 hn]⟩
    rw [strip_eq] at h1 ⊢
    exact ⟨h1.1, rfl, h1.2.2⟩

theorem Alongside.setCallerSkip {held : Nat → Option Nat} {a b : World} (h : Alongside held a b) (r : Nat) (k : Int) :
    Alongside held (a.setCallerSkip r k) (b.setCallerSkip r k) :=
  h.update r _ (fun _ _ h => h) fun l l' h1 h2 => by
    refine ⟨?_, fun hn => by rw [h2 hn]⟩
    rw [strip_eq] at h1 ⊢
    exact ⟨h1.1, h1.2.1, h1.2.2.1, rfl, h1.2.2.2.2⟩

theorem Alongside.setOutputs {held held' : Nat → Option Nat} {a b : World} (h : Alongside held a b) (r : Nat) (ops : List Nat)
    (hq : ∀ q, q ≠ r → held' q = none → held q = none) : Alongside held' (a.setOutputs r ops) (b.setOutputs r ops) := by
  unfold World.setOutputs
  rw [h.mgr]
  refine h.update r _ hq fun l l' h1 _ => ?_
  have : ({ l with outputs := ops, callerInfoFlag := raiseFlag b.mgr l.callerInfoFlag ops } : Logger) =
      { l' with outputs := ops, callerInfoFlag := raiseFlag b.mgr l'.callerInfoFlag ops } := by
    rw [strip_eq] at h1
    obtain ⟨e1, e2, e3, e4, e5⟩ := h1
    rw [e1, e2, e3, e4, e5]
  exact ⟨by rw [this], fun _ => this⟩

/-- The slices held after `configure`. -/
def configureHeld (w : World) (held : Nat → Option Nat) (r : Nat) (name : Str) : Nat → Option Nat :=
  match w.mgr.getLoggerOutputs name with
  | (.error _, _) => held
  | (.ok _, _) => letGo held r

theorem letGo_other {held : Nat → Option Nat} {r : Nat} : ∀ q, q ≠ r → letGo held r q = none → held q = none := by
  intro q hq h; simpa [letGo, hq] using h

theorem Alongside.configure {held : Nat → Option Nat} {a b : World} (h : Alongside held a b) (r : Nat) (name : Str) :
    Alongside (configureHeld a held r name) (a.configure r name) (b.configure r name) := by
  unfold World.configure configureHeld
  rw [← h.mgr]
  rcases hg : a.mgr.getLoggerOutputs name with ⟨e | ⟨ops, lvl⟩, m⟩
  · exact h.withMgr m
  · exact ((h.withMgr m).setLevel r lvl).setOutputs r ops letGo_other

/-- Fewer slices held: what `configure` gives is the same in both, so that `held` may stay. -/
theorem Alongside.mono {held held' : Nat → Option Nat} {a b : World} (h : Alongside held a b) (hm : ∀ r, held' r = none → held r = none) :
    Alongside held' a b :=
  ⟨h.mgr, h.root, h.loggers, fun r => by
    rcases (h.heap r).cases with ⟨h1, h2⟩ | ⟨l, l', h1, h2, h3, h4⟩
    · rw [h1, h2]; exact trivial
    · rw [h1, h2]; exact ⟨h3, fun hn => h4 (hm r hn)⟩⟩

theorem letGo_none {held : Nat → Option Nat} {r q : Nat} (h : held q = none) : letGo held r q = none := by
  unfold letGo; split <;> simp [h]

theorem configureHeld_mono {w : World} {held : Nat → Option Nat} {r : Nat} {name : Str} {q : Nat} (h : held q = none) :
    configureHeld w held r name q = none := by
  unfold configureHeld
  rcases w.mgr.getLoggerOutputs name with ⟨e | x, m⟩
  · exact h
  · exact letGo_none h

theorem Alongside.append {held : Nat → Option Nat} {a b : World} (h : Alongside held a b) (l : Logger) :
    ∀ r, SameBut (held r) (a.heap ++ [l])[r]? (b.heap ++ [l])[r]? := by
  intro r
  rcases Nat.lt_or_ge r a.heap.length with hl | hl
  · rw [List.getElem?_append_left hl, List.getElem?_append_left (h.length ▸ hl)]
    exact h.heap r
  · rw [List.getElem?_append_right hl, List.getElem?_append_right (h.length ▸ hl), h.length]
    exact .refl _ _

theorem Alongside.create {held : Nat → Option Nat} {a b : World} (h : Alongside held a b) (name : Str) (p : Option Nat) :
    (a.createLogger name p).1 = (b.createLogger name p).1 ∧ Alongside held (a.createLogger name p).2 (b.createLogger name p).2 := by
  unfold createLogger
  rw [← h.loggers, ← h.length]
  split
  · exact ⟨rfl, h⟩
  · exact ⟨rfl, ⟨h.mgr, h.root, by simp, h.append _⟩⟩

theorem Alongside.parent {held : Nat → Option Nat} : ∀ (rest : Str) {a b : World} (_ : Alongside held a b) (p : Nat) (before : Str),
    (a.parentLoop p before rest).1 = (b.parentLoop p before rest).1 ∧ Alongside held (a.parentLoop p before rest).2 (b.parentLoop p before rest).2
  | [], _, _, h, _, _ => ⟨rfl, h⟩
  | c :: rest, a, b, h, p, before => by
    simp only [parentLoop]
    split
    · obtain ⟨h1, h2⟩ := h.create before (some p)
      rw [h1]
      exact Alongside.parent rest h2 _ _
    · exact Alongside.parent rest h _ _

theorem Alongside.rootOf {held : Nat → Option Nat} {a b : World} (h : Alongside held a b) :
    a.getRootLogger.1 = b.getRootLogger.1 ∧ Alongside held a.getRootLogger.2 b.getRootLogger.2 := by
  unfold getRootLogger
  rw [← h.root]
  split
  · exact ⟨rfl, h⟩
  · simp only
    rw [← h.mgr, ← h.length]
    have h0 : ∀ m, Alongside held { a with mgr := m, root := some a.heap.length, heap := a.heap ++ [newLogger rootLoggerName] }
        { b with mgr := m, root := some a.heap.length, heap := b.heap ++ [newLogger rootLoggerName] } :=
      fun m => ⟨rfl, rfl, h.loggers, h.append _⟩
    refine ⟨rfl, ?_⟩
    rcases hg : a.mgr.getLoggerOutputs rootLoggerName with ⟨e | ⟨ops, lvl⟩, m⟩
    · have h1 := (((h0 m).setLevel a.heap.length Level.Debug).withMgr { m with oheap := m.oheap ++ [{ origin := .console, fmt := none }] }).setOutputs (held' := held)
        a.heap.length [m.oheap.length] fun _ _ h => h
      exact ⟨h1.mgr, h1.root, by show Map.set _ _ _ = Map.set _ _ _; exact congrArg (Map.set · _ _) h1.loggers, h1.heap⟩
    · have h1 := ((h0 m).setLevel a.heap.length lvl).setOutputs (held' := held) a.heap.length ops fun _ _ h => h
      exact ⟨h1.mgr, h1.root, by show Map.set _ _ _ = Map.set _ _ _; exact congrArg (Map.set · _ _) h1.loggers, h1.heap⟩

theorem Alongside.get {held : Nat → Option Nat} {a b : World} (h : Alongside held a b) (name : Str) :
    Alongside held (a.getLogger name).2 (b.getLogger name).2 := by
  unfold getLogger
  split
  · exact h.rootOf.2
  · rw [← h.loggers]
    split
    · exact h
    · simp only [getParent]
      obtain ⟨h1, h2⟩ := h.rootOf
      rw [h1]
      obtain ⟨h3, h4⟩ := Alongside.parent name h2 b.getRootLogger.1 []
      rw [h3]
      obtain ⟨h5, h6⟩ := h4.create name (some (b.getRootLogger.2.parentLoop b.getRootLogger.1 [] name).1)
      rw [h5]
      exact (h6.configure _ name).mono fun q hq => configureHeld_mono hq

theorem Alongside.notify : ∀ (order : List Nat) {held : Nat → Option Nat} {a b : World} (_ : Alongside held a b),
    Alongside (notifyHeld a held order) (a.notify order) (b.notify order)
  | [], _, _, _, h => h
  | r :: rs, held, a, b, h => by
    simp only [World.notify, notifyHeld]
    rcases (h.heap r).cases with ⟨h1, h2⟩ | ⟨l, l', h1, h2, h3, -⟩
    · rw [h1, h2]
      exact Alongside.notify rs h
    · rw [h1, h2]
      simp only
      rw [← (strip_eq.mp h3).1]
      exact Alongside.notify rs (h.configure r l.name)

theorem Alongside.setConfig {held : Nat → Option Nat} {a b : World} (h : Alongside held a b) (cfg : Config) (order : List Nat) :
    Alongside (Act.heldAfter.go a held cfg order) (a.setConfig cfg order).2 (b.setConfig cfg order).2 := by
  unfold World.setConfig Act.heldAfter.go
  cases validateConfig cfg with
  | some e => exact h
  | none => simp only; rw [← h.mgr]; exact Alongside.notify order (h.withMgr _)

theorem Alongside.load {held : Nat → Option Nat} {a b : World} (h : Alongside held a b) (d : Decoders) (bs : Bytes) (ext : Str) (order : List Nat) :
    Alongside (Act.heldAfter.go a held (Act.heldAfter.decode d bs ext) order) (a.loadConfig d bs ext order).2 (b.loadConfig d bs ext order).2 :=
  h.setConfig _ order

/-- A call of the library. -/
theorem Alongside.act {held : Nat → Option Nat} {a b : World} (h : Alongside held a b) (c : Act) (hok : c.ok a) :
    c.ok b ∧ Alongside (c.heldAfter a held) (c.run a) (c.run b) := by
  refine ⟨?_, ?_⟩
  · unfold Act.ok at hok ⊢
    rw [← h.loggers, ← h.length, ← h.mgr]
    exact hok
  · cases c with
    | registerFormatter t f => exact ⟨by simp only [Act.run, registerFormatter, h.mgr], h.root, h.loggers, h.heap⟩
    | registerOutput t f => exact ⟨by simp only [Act.run, registerOutput, h.mgr], h.root, h.loggers, h.heap⟩
    | setConfig cfg order => exact h.setConfig cfg order
    | loadConfig d bs ext order => exact h.load d bs ext order
    | loadConfigFile d file read order =>
      simp only [Act.run, World.loadConfigFile, Act.heldAfter]
      cases read with
      | none => exact h
      | some bs =>
        simp only
        cases World.pathExt file with
        | nil => exact h
        | cons c ext => exact h.load d bs ext order
    | getLogger name => exact h.get name
    | queryOutputs name => exact ⟨by simp only [Act.run, queryOutputs, h.mgr], h.root, h.loggers, h.heap⟩
    | userOutput flag => exact ⟨by simp only [Act.run, userOutput, h.mgr], h.root, h.loggers, h.heap⟩
    | setLevel r lvl => exact h.setLevel r lvl
    | setCallerSkip r k => exact h.setCallerSkip r k
    | setOutputs r ops => exact h.setOutputs r ops letGo_other

theorem slc_alongside {p0 p : SlcWorld} {as : List SlcAct} (h : SlcSteps p0 as p) :
    ∃ w, Steps p0.w (cloned p0.slices as) w ∧ Alongside p.held p.w w := by
  induction h with
  | refl => exact ⟨_, .refl _, rfl, rfl, rfl, fun _ => .refl _ _⟩
  | @tail p' as a hx hok ih =>
    obtain ⟨w, hs, hw⟩ := ih
    rw [cloned_append, ← slc_slices hx]
    cases a with
    | lib a =>
      obtain ⟨h1, h2⟩ := hw.act a hok
      exact ⟨_, hs.tail h1, h2⟩
    | make ops => exact ⟨w, by simpa [cloned] using hs, hw⟩
    | assign i k o =>
      refine ⟨w, by simpa [cloned] using hs, hw.mgr, hw.root, hw.loggers, fun r => ?_⟩
      simp only [SlcAct.run, SlcWorld.refresh, List.getElem?_mapIdx]
      rcases (hw.heap r).cases with ⟨h1, h2⟩ | ⟨l, l', h1, h2, h3, h4⟩
      · rw [h1, h2]; exact trivial
      · rw [h1, h2]
        simp only [Option.map_some]
        split
        · rename_i hh
          exact ⟨by rw [← h3]; rfl, fun hn => by rw [hh] at hn; cases hn⟩
        · exact ⟨h3, h4⟩
    | set r i =>
      obtain ⟨h1, ops, h2, h3⟩ := hok
      refine ⟨_, hs.tail (a := .setOutputs r _) ⟨hw.length ▸ h1, ?_⟩, hw.setOutputs r _ ?_⟩
      · rw [h2, ← hw.mgr]; exact h3
      · intro q hq hn; simpa [SlcAct.run, hq] using hn

/-! ## Loggers have the present content of their slices -/

/-- The logger that `GetLogger` configures is none there was before. -/
theorem get_new {w : World} (inv : WInv w) {name : Str} (h1 : name ≠ []) (h2 : name ≠ rootLoggerName) (hnone : Map.get w.loggers name = none)
    {r : Nat} {l : Logger} (hl : w.heap[r]? = some l) :
    r ≠ ((w.getRootLogger.2.parentLoop w.getRootLogger.1 [] name).2.createLogger name (some (w.getRootLogger.2.parentLoop w.getRootLogger.1 [] name).1)).1 := by
  obtain ⟨s, _⟩ := getRootLogger_spec inv
  obtain ⟨lr, k1, k2⟩ := s.inv.named _ _ s.get
  obtain ⟨i, x, ⟨lq, h3, h4⟩, hm⟩ := parentLoop_spec s.inv k1 [] name (by rw [k2]; exact parentOf_nil)
  have q1 := (root_firm inv).trans (parent_firm name w.getRootLogger.2 w.getRootLogger.1 [])
  simp only [List.nil_append] at h4
  obtain ⟨i2, x2, hget, hm2⟩ := create_inv i h3 h4 h1 h2
  have q2 := q1.trans (create_firm _ name (some (w.getRootLogger.2.parentLoop w.getRootLogger.1 [] name).1))
  rintro rfl
  obtain ⟨l2, hl2, hn⟩ := i2.named _ _ hget
  have := q2 _ _ hl
  rw [hl2] at this
  injection this with this
  subst this
  have hg := inv.all _ _ hl
  rw [hn, hnone] at hg
  cases hg

theorem configure_other (w : World) (q : Nat) (name : Str) (r : Nat) (h : r ≠ q) : (w.configure q name).heap[r]? = w.heap[r]? := by
  unfold World.configure
  rcases w.mgr.getLoggerOutputs name with ⟨e | ⟨ops, lvl⟩, m⟩
  · rfl
  · simp [World.setOutputs, World.setLevel, World.update, List.getElem?_modify, Ne.symm h]

/-- `GetLogger` changes no logger there is, also when slices were changed. -/
theorem Alongside.firm {held : Nat → Option Nat} {a b : World} (h : Alongside held a b) (inv : WInv b) (name : Str) : Firm a (a.getLogger name).2 := by
  have hroot : Firm a a.getRootLogger.2 := by
    intro r l hl
    cases hr : a.root with
    | some q => unfold getRootLogger; rw [hr]; exact hl
    | none =>
      exfalso
      have hb : b.heap = [] := by
        cases hb : b.heap with
        | nil => rfl
        | cons x xs =>
          obtain ⟨q, hq⟩ := inv.rooted (by rw [hb]; simp)
          rw [← h.root, hr] at hq; cases hq
      have := h.length
      rw [hb] at this
      rw [List.length_eq_zero_iff.mp this] at hl
      simp at hl
  unfold getLogger
  split
  · exact hroot
  · rename_i hn
    simp only [not_or] at hn
    split
    · exact fun _ _ h => h
    · rename_i hnone
      simp only [getParent]
      intro r l hl
      have q := (hroot.trans (parent_firm name a.getRootLogger.2 a.getRootLogger.1 [])).trans
        (create_firm _ name (some (a.getRootLogger.2.parentLoop a.getRootLogger.1 [] name).1))
      rw [configure_other]
      · exact q r l hl
      · have hlb : ∃ l', b.heap[r]? = some l' := by
          rcases (h.heap r).cases with ⟨h1, -⟩ | ⟨_, l', -, h2, -⟩
          · rw [h1] at hl; cases hl
          · exact ⟨l', h2⟩
        obtain ⟨l', hl'⟩ := hlb
        obtain ⟨h1, h2⟩ := h.rootOf
        obtain ⟨h3, h4⟩ := Alongside.parent name h2 b.getRootLogger.1 []
        obtain ⟨h5, -⟩ := h4.create name (some (b.getRootLogger.2.parentLoop b.getRootLogger.1 [] name).1)
        have := get_new inv hn.1 hn.2 (h.loggers ▸ hnone) hl'
        rw [← h5, ← h3, ← h1] at this
        exact this

/-- The logger `r` has slice `i` and its content. -/
def Has (p : SlcWorld) (r i : Nat) : Prop := p.held r = some i ∧ ∃ l, p.w.heap[r]? = some l ∧ p.slices[i]? = some l.outputs

theorem update_outs {w : World} {r q : Nat} {f : Logger → Logger} {l : Logger} (hf : ∀ l, (f l).outputs = l.outputs) (hl : w.heap[r]? = some l) :
    ∃ l', (w.update q f).heap[r]? = some l' ∧ l'.outputs = l.outputs := by
  simp only [World.update, List.getElem?_modify, hl]
  split
  · exact ⟨f l, rfl, hf l⟩
  · exact ⟨l, rfl, rfl⟩

theorem has_step {p : SlcWorld} {w : World} (hw : Alongside p.held p.w w) (inv : WInv w) {r i : Nat} (h : Has p r i) {a : SlcAct} (hok : a.ok p)
    (hr : ¬ Regives r a) : Has (a.run p) r i := by
  obtain ⟨hh, l, hl, hs⟩ := h
  cases a with
  | lib a =>
    cases a with
    | registerFormatter t f => exact ⟨hh, l, hl, hs⟩
    | registerOutput t f => exact ⟨hh, l, hl, hs⟩
    | setConfig cfg order => exact absurd trivial hr
    | loadConfig d bs ext order => exact absurd trivial hr
    | loadConfigFile d file read order => exact absurd trivial hr
    | getLogger name => exact ⟨hh, l, hw.firm inv name r l hl, hs⟩
    | queryOutputs name => exact ⟨hh, l, hl, hs⟩
    | userOutput flag => exact ⟨hh, l, hl, hs⟩
    | setLevel q lvl =>
      obtain ⟨l', h1, h2⟩ := update_outs (q := q) (f := fun l => { l with level := lvl }) (fun _ => rfl) hl
      exact ⟨hh, l', h1, by rw [h2]; exact hs⟩
    | setCallerSkip q k =>
      obtain ⟨l', h1, h2⟩ := update_outs (q := q) (f := fun l => { l with callerSkip := Log4g.callerSkip + k }) (fun _ => rfl) hl
      exact ⟨hh, l', h1, by rw [h2]; exact hs⟩
    | setOutputs q ops =>
      have hq : ¬ q = r := hr
      refine ⟨?_, l, ?_, hs⟩
      · simp only [SlcAct.run, Act.heldAfter, letGo, if_neg (Ne.symm hq)]; exact hh
      · simp only [SlcAct.run, Act.run, World.setOutputs, World.update, List.getElem?_modify, if_neg hq, hl]; rfl
  | make ops =>
    refine ⟨hh, l, hl, ?_⟩
    have hi : i < p.slices.length := by
      rcases Nat.lt_or_ge i p.slices.length with h | h
      · exact h
      · rw [List.getElem?_eq_none h] at hs; cases hs
    show (p.slices ++ [ops])[i]? = _
    rw [List.getElem?_append_left hi]; exact hs
  | assign j k o =>
    refine ⟨hh, ?_⟩
    simp only [SlcAct.run, SlcWorld.refresh, List.getElem?_mapIdx, hl, Option.map_some, hh, Option.some.injEq, List.getElem?_modify]
    by_cases hj : j = i
    · subst hj
      refine ⟨_, by rw [if_pos rfl], by simp [hs]⟩
    · refine ⟨_, by rw [if_neg (fun e => hj e.symm)], by simp [hj, hs]⟩
  | set q j =>
    have hq : ¬ q = r := hr
    refine ⟨?_, l, ?_, hs⟩
    · simp only [SlcAct.run, if_neg (Ne.symm hq)]; exact hh
    · simp only [SlcAct.run, World.setOutputs, World.update, List.getElem?_modify, if_neg hq, hl]; rfl

theorem slc_append {p0 p p' : SlcWorld} {as bs : List SlcAct} (h : SlcSteps p0 as p) (h' : SlcSteps p bs p') : SlcSteps p0 (as ++ bs) p' := by
  induction h' with
  | refl => simpa using h
  | tail _ hok ih => rw [← List.append_assoc]; exact ih.tail hok

theorem has_after {p p' : SlcWorld} {as bs : List SlcAct} (h : SlcSteps {} as p) {r i : Nat} (hh : Has p r i) (hb : SlcSteps p bs p')
    (hr : ∀ b ∈ bs, ¬ Regives r b) : Has p' r i := by
  induction hb with
  | refl => exact hh
  | @tail q bs b hx hok ih =>
    obtain ⟨w, hs, hw⟩ := slc_alongside (slc_append h hx)
    exact has_step hw (steps_inv WInv.empty hs).1 (ih fun b hb => hr b (by simp [hb])) hok (hr b (by simp))

theorem slc_cons {p p' : SlcWorld} {a : SlcAct} {bs : List SlcAct} (h : SlcSteps p (a :: bs) p') : a.ok p ∧ SlcSteps (a.run p) bs p' := by
  generalize hc : a :: bs = cs at h
  induction h generalizing bs with
  | refl => cases hc
  | @tail q cs c hx hok ih =>
    cases bs with
    | nil =>
      cases hx with
      | refl => injection hc with h1 _; subst h1; exact ⟨hok, .refl _⟩
      | tail hy _ => have := congrArg List.length hc; simp at this
    | cons b bs =>
      obtain ⟨bs', d, e⟩ : ∃ bs' d, b :: bs = bs' ++ [d] := ⟨(b :: bs).dropLast, (b :: bs).getLast (by simp), (List.dropLast_concat_getLast (by simp)).symm⟩
      rw [e] at hc ⊢
      rw [← List.cons_append] at hc
      obtain ⟨h1, h2⟩ := List.append_inj' hc rfl
      injection h2 with h2
      subst h2
      obtain ⟨h3, h4⟩ := ih h1
      exact ⟨h3, h4.tail hok⟩

theorem slc_named {p p' : SlcWorld} {as bs : List SlcAct} (h : SlcSteps {} as p) (hb : SlcSteps p bs p') {n : Str} {r : Nat}
    (hn : Map.get p.w.loggers n = some r) : Map.get p'.w.loggers n = some r := by
  obtain ⟨w, hs, hw⟩ := slc_alongside h
  obtain ⟨w', hs', hw'⟩ := slc_alongside (slc_append h hb)
  rw [cloned_append] at hs'
  obtain ⟨v, h1, h2⟩ := steps_split hs'
  have hv : v = w := by rw [steps_foldl h1, steps_foldl hs]
  subst hv
  rw [hw'.loggers]
  exact (steps_inv (steps_inv WInv.empty h1).1 h2).2.loggers n r (hw.loggers ▸ hn)

end Log4g
