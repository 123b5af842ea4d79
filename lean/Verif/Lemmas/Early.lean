import Verif.Spec.Early
import Verif.Lemmas.AnyOrder
import Verif.Lemmas.Config
import Verif.Lemmas.Creators

/-! # Helpers for C135 -/

namespace Log4g
open Spec World

/-- What a logger that was made after `m` is: as its entry says if it has one and everything in it can be made, otherwise as it was made. -/
def MadeOf (m fin : Manager) (l : Logger) : Prop :=
  l.callerSkip = 3 ∧
  ((∃ lc, EntryGood m l.name lc ∧ Resolved fin lc.outputNames l.outputs ∧ l.level = Level.levelFrom lc.level ∧ l.callerInfoFlag = raiseFlag fin 0 l.outputs) ∨
   ((∀ lc, ¬ EntryGood m l.name lc) ∧ l.callerInfoFlag = 0 ∧ (l.name = rootLoggerName → l.level = Level.Debug ∧ ∃ c, l.outputs = [c] ∧ fin.oheap[c]? = some ⟨.console, none⟩) ∧
     (l.name ≠ rootLoggerName → l.level = 0 ∧ l.outputs = [])))

theorem MadeOf.grow {m a b : Manager} {l : Logger} (h : MadeOf m a l) (g : Grow a b) (inv : MgrInv a) : MadeOf m b l := by
  obtain ⟨h0, ⟨lc, h1, h2, h3, h4⟩ | ⟨h1, h2, h3, h4⟩⟩ := h
  · refine ⟨h0, .inl ⟨lc, h1, h2.grow g, h3, ?_⟩⟩
    rw [raiseFlag_grow g inv _ _ (h2.bound inv)]
    exact h4
  · refine ⟨h0, .inr ⟨h1, h2, fun e => ?_, h4⟩⟩
    obtain ⟨k1, c, k2, k3⟩ := h3 e
    exact ⟨k1, c, k2, g.oheap_get k3⟩

theorem noLogger_bad {m : Manager} {n : Str} (h : NoLogger m.config n) (lc : CfgLogger) : ¬ EntryGood m n lc := by
  rintro ⟨h1, _⟩
  obtain ⟨pre, post, h2, h3, _⟩ := (firstLogger_iff _ _ _).mp h1
  exact h lc (by rw [h2]; simp) h3

/-- The loggers that there are were made after `m`. -/
structure AllMade (m : Manager) (w : World) : Prop where
  inv : WInv w
  since : Since m w.mgr
  made : ∀ (r : Nat) l, w.heap[r]? = some l → MadeOf m w.mgr l

theorem Since.console {m a : Manager} (s : Since m a) (i : MgrInv { a with oheap := a.oheap ++ [{ origin := .console, fmt := none }] }) :
    Since m { a with oheap := a.oheap ++ [{ origin := .console, fmt := none }] } := by
  have g : Grow a { a with oheap := a.oheap ++ [{ origin := .console, fmt := none }] } := ⟨rfl, rfl, rfl, fun _ _ h => h, fun _ _ h => h, ⟨[], by simp⟩, ⟨_, rfl⟩⟩
  refine ⟨s.grow.trans g, i, s.newF, fun n o h h' => ?_⟩
  obtain ⟨h1, cr, k, x, h2, h3, h4, h5⟩ := s.newO n o h h'
  exact ⟨h1, cr, k, x, h2, h3, g.oheap_get h4, h5⟩

theorem root_made {m : Manager} {w : World} (st : Steady m) (h : AllMade m w) : AllMade m w.getRootLogger.2 := by
  have i := (getRootLogger_spec h.inv).1.inv
  have hn := h.inv.rooted
  revert i
  unfold getRootLogger
  cases hr : w.root with
  | some r => exact fun _ => h
  | none =>
    have hh : w.heap = [] := by
      cases hw : w.heap with
      | nil => rfl
      | cons x xs =>
        obtain ⟨r, hr'⟩ := hn (by rw [hw]; simp)
        rw [hr] at hr'; cases hr'
    obtain ⟨s1, e1⟩ := getLoggerOutputs_since st h.since rootLoggerName
    simp only [hh, List.length_nil, List.nil_append]
    rcases he : w.mgr.getLoggerOutputs rootLoggerName with ⟨e | ⟨ops, lvl⟩, m1⟩
    · rw [he] at s1 e1
      simp only [setLevel, setOutputs, update, List.modify_zero_cons, raiseFlag]
      intro i
      refine ⟨i, s1.console i.mgr, fun r l hl => ?_⟩
      have : r = 0 := by cases r with | zero => rfl | succ r => simp at hl
      subst this
      simp only [List.getElem?_cons_zero, Option.some.injEq] at hl
      subst hl
      rcases e1 with ⟨_, h2⟩ | ⟨ops, lc, h3, _⟩
      · refine ⟨rfl, .inr ⟨h2, ?_, fun _ => ⟨rfl, _, rfl, by simp⟩, fun h => absurd rfl h⟩⟩
        simp [newLogger, Manager.outFlag]
      · cases h3
    · rw [he] at s1 e1
      simp only [setLevel, setOutputs, update, List.modify_zero_cons]
      intro i
      refine ⟨i, s1, fun r l hl => ?_⟩
      have : r = 0 := by cases r with | zero => rfl | succ r => simp at hl
      subst this
      simp only [List.getElem?_cons_zero, Option.some.injEq] at hl
      subst hl
      rcases e1 with ⟨⟨e, h1⟩, _⟩ | ⟨ops', lc, h3, h4, h5⟩
      · cases h1
      · cases h3
        exact ⟨rfl, .inl ⟨lc, h4, h5, rfl, rfl⟩⟩

theorem create_heap (w : World) (name : Str) (p : Option Nat) {r : Nat} {l : Logger} (h : (w.createLogger name p).2.heap[r]? = some l) :
    w.heap[r]? = some l ∨ Map.get w.loggers name = none ∧ l = { newLogger name with parent := p } := by
  revert h
  unfold createLogger
  split
  · exact .inl
  · rename_i hn
    intro h
    rcases (getElem?_concat _ _ _ _).mp h with h | ⟨_, h⟩
    · exact .inl h
    · exact .inr ⟨hn, h.symm⟩

theorem blank_made {m fin : Manager} {name : Str} {p : Option Nat} (hn : name ≠ rootLoggerName) (hno : NoLogger m.config name) : MadeOf m fin { newLogger name with parent := p } :=
  ⟨rfl, .inr ⟨noLogger_bad hno, rfl, fun h => absurd h hn, fun _ => ⟨rfl, rfl⟩⟩⟩

theorem parent_made {m : Manager} : ∀ (rest : Str) (w : World) (p : Nat) (before : Str),
    (∀ q, SepPrefix q (before ++ rest) → before.length ≤ q.length → Map.get w.loggers q ≠ none ∨ q ≠ rootLoggerName ∧ NoLogger m.config q) →
    (∀ (r : Nat) l, w.heap[r]? = some l → MadeOf m w.mgr l) → ∀ (r : Nat) l, (w.parentLoop p before rest).2.heap[r]? = some l → MadeOf m (w.parentLoop p before rest).2.mgr l
  | [], w, _, _, _, h => h
  | c :: rest, w, p, before, hq, h => by
    simp only [parentLoop]
    split
    · rename_i hc
      have hm : (w.createLogger before (some p)).2.mgr = w.mgr := by
        unfold createLogger
        split <;> rfl
      refine parent_made rest _ _ (before ++ [c]) (fun q h1 h2 => ?_) fun r l hl => ?_
      · rcases hq q (by simpa using h1) (by simp at h2; omega) with h3 | h3
        · left
          unfold createLogger
          split
          · exact h3
          · simp only [Map.get_set]
            split
            · simp
            · exact h3
        · exact .inr h3
      · rw [hm]
        rcases create_heap _ _ _ hl with h1 | ⟨h1, rfl⟩
        · exact h r l h1
        · have hs : SepPrefix before (before ++ c :: rest) := ⟨hc.2, c, rest, by
            have := hc.1
            simp only [isSep, Bool.or_eq_true, decide_eq_true_eq] at this
            exact this, rfl⟩
          rcases hq before hs (Nat.le_refl _) with h2 | h2
          · exact absurd h1 h2
          · exact blank_made h2.1 h2.2
    · refine parent_made rest _ _ (before ++ [c]) (fun q h1 h2 => hq q (by simpa using h1) (by simp at h2; omega)) h

theorem parent_absent : ∀ (rest : Str) (w : World) (p : Nat) (before x : Str), (before ++ rest).length ≤ x.length → Map.get (w.parentLoop p before rest).2.loggers x = Map.get w.loggers x
  | [], _, _, _, _, _ => rfl
  | c :: rest, w, p, before, x, h => by
    have h' : ((before ++ [c]) ++ rest).length ≤ x.length := by simpa using h
    simp only [parentLoop]
    split
    · rw [parent_absent rest _ _ _ _ h']
      unfold createLogger
      split
      · rfl
      · simp only [Map.get_set]
        split
        · rename_i e
          subst e
          simp at h
          omega
        · rfl
    · exact parent_absent rest _ _ _ _ h'

theorem root_new {w : World} (h : w.root = none) : w.getRootLogger.1 = w.heap.length ∧ w.getRootLogger.2.loggers = Map.set w.loggers rootLoggerName w.heap.length ∧
    w.getRootLogger.2.root = some w.heap.length ∧ w.getRootLogger.2.heap.length = w.heap.length + 1 := by
  unfold getRootLogger
  rcases he : w.mgr.getLoggerOutputs rootLoggerName with ⟨e | ⟨ops, lvl⟩, m1⟩ <;> simp [h, he, setOutputs, setLevel, update]

theorem root_absent (w : World) {x : Str} (hx : x ≠ rootLoggerName) (h : Map.get w.loggers x = none) : Map.get w.getRootLogger.2.loggers x = none := by
  cases hr : w.root with
  | none =>
    rw [(root_new hr).2.1, Map.get_set, if_neg (by first | exact hx | exact fun e => hx e.symm)]
    exact h
  | some r =>
    unfold getRootLogger
    rw [hr]
    exact h

theorem get_made {m : Manager} {w : World} (st : Steady m) (h : AllMade m w) (n : Str)
    (hq : ∀ q, SepPrefix q n → q = c!"root" ∨ Map.get w.loggers q ≠ none ∨ NoLogger m.config q) : AllMade m (w.getLogger n).2 := by
  have gs := getLogger_spec h.inv n
  suffices hs : Since m (w.getLogger n).2.mgr ∧ ∀ (r : Nat) l, (w.getLogger n).2.heap[r]? = some l → MadeOf m (w.getLogger n).2.mgr l from ⟨gs.inv, hs.1, hs.2⟩
  have hroot := root_made st h
  unfold getLogger
  split
  · exact ⟨hroot.since, hroot.made⟩
  · rename_i hname
    simp only [not_or] at hname
    split
    · exact ⟨h.since, h.made⟩
    · rename_i hnone
      obtain ⟨s, _⟩ := getRootLogger_spec h.inv
      obtain ⟨lr, h1, h2⟩ := s.inv.named _ _ s.get
      obtain ⟨i, x, ⟨lq, h3, h4⟩, hm⟩ := parentLoop_spec s.inv h1 [] n (by rw [h2]; exact parentOf_nil)
      have q1 := parent_made (m := m) n w.getRootLogger.2 w.getRootLogger.1 [] (fun q k _ => by
        rcases hq q k with rfl | k | k
        · left; rw [show Map.get w.getRootLogger.2.loggers c!"root" = _ from s.get]; simp
        · left
          cases e : Map.get w.loggers q with
          | none => exact absurd e k
          | some v => rw [s.ext.loggers _ _ e]; simp
        · by_cases e : q = rootLoggerName
          · left; rw [e, s.get]; simp
          · exact .inr ⟨e, k⟩) hroot.made
      simp only [List.nil_append] at h4
      simp only [getParent]
      generalize hw1 : w.getRootLogger.2.parentLoop w.getRootLogger.1 [] n = pw at i x h3 hm q1
      obtain ⟨p, w1⟩ := pw
      simp only at i x h3 hm q1 ⊢
      obtain ⟨i2, x2, hget, hm2⟩ := create_inv i h3 h4 hname.1 hname.2
      have q2 := fun r l => @create_heap w1 n (some p) r l
      generalize hw2 : w1.createLogger n (some p) = rw2 at i2 x2 hget hm2 q2
      obtain ⟨r, w2⟩ := rw2
      simp only at i2 x2 hget hm2 q2 ⊢
      obtain ⟨l, hl, hlname⟩ := i2.named _ _ hget
      have sn : Since m w2.mgr := by rw [hm2, hm]; exact hroot.since
      obtain ⟨s3, l', hl', b⟩ := configure_since st sn r hl
      rw [hlname] at s3 hl' b
      have cs := configure_spec i2 r n
      refine ⟨s3, fun r' k hk => ?_⟩
      by_cases e : r' = r
      · subst e
        rw [hl'] at hk
        cases hk
        rcases q2 r' l hl with h5 | ⟨_, rfl⟩
        · exfalso
          have h6 := i.all r' l h5
          rw [hlname] at h6
          have h7 := parent_absent n w.getRootLogger.2 w.getRootLogger.1 [] n (by simp)
          rw [hw1, root_absent w hname.2 hnone, h6] at h7
          cases h7
        · rcases b with ⟨b1, rfl⟩ | ⟨lc, b1, b2, b3⟩
          · exact ⟨rfl, .inr ⟨b1, rfl, fun h => absurd h hname.2, fun _ => ⟨rfl, rfl⟩⟩⟩
          · have e1 : l'.name = n := by rw [b3]; rfl
            refine ⟨by rw [b3]; rfl, .inl ⟨lc, by rw [e1]; exact b1, b2, by rw [b3], by rw [b3]; rfl⟩⟩
      · rw [cs.other r' e] at hk
        rcases q2 r' k hk with h5 | ⟨_, h5⟩
        · have := q1 r' k h5
          rw [hm] at this
          exact this.grow (by rw [← hm, ← hm2]; exact cs.grow) hroot.since.inv
        · exfalso
          apply e
          have h6 := i2.all r' k hk
          rw [h5] at h6
          rw [show ({ newLogger n with parent := some p } : Logger).name = n from rfl, hget] at h6
          cases h6; rfl

theorem obtained_made {m : Manager} (st : Steady m) : ∀ (ns pre : List Str) (w : World), AllMade m w → (∀ q ∈ pre, q ≠ [] → Map.get w.loggers q ≠ none) →
    TopDown m.config (pre ++ ns) → AllMade m (obtained w ns)
  | [], _, _, h, _, _ => h
  | n :: ns, pre, w, h, hp, ht => by
    have gs := getLogger_spec h.inv n
    refine obtained_made st ns (pre ++ [n]) (w.getLogger n).2 (get_made st h n fun q hq => ?_) (fun q hq hne => ?_) (by simpa using ht)
    · rcases ht pre n ns rfl q hq with h1 | h1 | h1
      · exact .inl h1
      · exact .inr (.inl (hp q h1 hq.1))
      · exact .inr (.inr h1)
    · rcases List.mem_append.mp hq with h1 | h1
      · cases e : Map.get w.loggers q with
        | none => exact absurd e (hp q h1 hne)
        | some v => rw [gs.ext.loggers _ _ e]; simp
      · simp only [List.mem_singleton] at h1
        subst h1
        have := gs.get
        rw [if_neg hne] at this
        rw [this]; simp

theorem obtained_inv : ∀ (ns : List Str) {w : World}, WInv w → WInv (obtained w ns)
  | [], _, h => h
  | n :: ns, _, h => obtained_inv ns (getLogger_spec h n).inv

/-! ## Nothing is made without a configuration -/

theorem outputs_unset {m : Manager} (h : m.config = {}) (name : Str) : ∃ e, m.getLoggerOutputs name = (.error e, m) := by
  unfold Manager.getLoggerOutputs
  rw [h]
  exact ⟨_, rfl⟩

theorem configure_unset {w : World} (h : w.mgr.config = {}) (r : Nat) (name : Str) : w.configure r name = w := by
  obtain ⟨e, he⟩ := outputs_unset h name
  unfold configure
  rw [he]

theorem root_unset {w : World} (h : w.mgr.config = {}) : w.getRootLogger.2.mgr.config = {} ∧ w.getRootLogger.2.mgr.formats = w.mgr.formats ∧ w.getRootLogger.2.mgr.outputs = w.mgr.outputs := by
  obtain ⟨e, he⟩ := outputs_unset h rootLoggerName
  unfold getRootLogger
  split
  · exact ⟨h, rfl, rfl⟩
  · simp only [he]
    exact ⟨h, rfl, rfl⟩

theorem get_unset {w : World} (h : w.mgr.config = {}) (n : Str) : (w.getLogger n).2.mgr.config = {} ∧ (w.getLogger n).2.mgr.formats = w.mgr.formats ∧ (w.getLogger n).2.mgr.outputs = w.mgr.outputs := by
  have h1 := root_unset h
  unfold getLogger
  split
  · exact h1
  · split
    · exact ⟨h, rfl, rfl⟩
    · have hm := parentLoop_mgr_eq w.getRootLogger.2 w.getRootLogger.1 [] n
      simp only [getParent]
      generalize w.getRootLogger.2.parentLoop w.getRootLogger.1 [] n = pw at hm
      have hm2 : (pw.2.createLogger n (some pw.1)).2.mgr = pw.2.mgr := by
        unfold createLogger
        split <;> rfl
      rw [configure_unset (by rw [hm2, hm]; exact h1.1), hm2, hm]
      exact h1

theorem obtained_unset : ∀ (ns : List Str) {w : World}, w.mgr.config = {} → (obtained w ns).mgr.config = {} ∧ (obtained w ns).mgr.formats = w.mgr.formats ∧ (obtained w ns).mgr.outputs = w.mgr.outputs
  | [], _, h => ⟨h, rfl, rfl⟩
  | n :: ns, w, h => by
    have h1 := get_unset h n
    have h2 := obtained_unset ns h1.1
    exact ⟨h2.1, h2.2.1.trans h1.2.1, h2.2.2.trans h1.2.2⟩

/-! ## The same loggers are there -/

structure Shape (w w' : World) : Prop where
  loggers : w'.loggers = w.loggers
  root : w'.root = w.root
  length : w'.heap.length = w.heap.length

theorem Shape.trans {a b c : World} (h : Shape a b) (h' : Shape b c) : Shape a c :=
  ⟨h'.loggers.trans h.loggers, h'.root.trans h.root, h'.length.trans h.length⟩

theorem Shape.symm {a b : World} (h : Shape a b) : Shape b a := ⟨h.loggers.symm, h.root.symm, h.length.symm⟩

theorem configure_shape (w : World) (r : Nat) (name : Str) : Shape w (w.configure r name) := by
  unfold configure
  split
  · exact ⟨rfl, rfl, rfl⟩
  · exact ⟨rfl, rfl, by simp [setOutputs, setLevel, update]⟩

theorem root_shape {w w' : World} (h : Shape w w') : w'.getRootLogger.1 = w.getRootLogger.1 ∧ Shape w.getRootLogger.2 w'.getRootLogger.2 := by
  cases hr : w.root with
  | some r =>
    unfold getRootLogger
    rw [h.root, hr]
    exact ⟨rfl, h⟩
  | none =>
    obtain ⟨a1, a2, a3, a4⟩ := root_new hr
    obtain ⟨b1, b2, b3, b4⟩ := root_new (h.root.trans hr)
    refine ⟨by rw [a1, b1, h.length], by rw [a2, b2, h.length, h.loggers], by rw [a3, b3, h.length], by rw [a4, b4, h.length]⟩

theorem create_shape {w w' : World} (h : Shape w w') (name : Str) (p : Option Nat) : (w'.createLogger name p).1 = (w.createLogger name p).1 ∧ Shape (w.createLogger name p).2 (w'.createLogger name p).2 := by
  unfold createLogger
  rw [h.loggers]
  split
  · exact ⟨rfl, h⟩
  · exact ⟨h.length, by simp only [h.length], h.root, by simp [h.length]⟩

theorem parent_shape : ∀ (rest : Str) {w w' : World} (p : Nat) (before : Str), Shape w w' → (w'.parentLoop p before rest).1 = (w.parentLoop p before rest).1 ∧ Shape (w.parentLoop p before rest).2 (w'.parentLoop p before rest).2
  | [], _, _, _, _, h => ⟨rfl, h⟩
  | c :: rest, w, w', p, before, h => by
    simp only [parentLoop]
    split
    · obtain ⟨h1, h2⟩ := create_shape h before (some p)
      rw [h1]
      exact parent_shape rest _ _ h2
    · exact parent_shape rest _ _ h

theorem get_shape {w w' : World} (h : Shape w w') (n : Str) : Shape (w.getLogger n).2 (w'.getLogger n).2 := by
  obtain ⟨h1, h2⟩ := root_shape h
  unfold getLogger
  rw [h.loggers]
  split
  · exact h2
  · split
    · exact h
    · obtain ⟨h3, h4⟩ := parent_shape n w.getRootLogger.1 [] h2
      simp only [getParent]
      rw [h1, h3]
      obtain ⟨h5, h6⟩ := create_shape h4 n (some (w.getRootLogger.2.parentLoop w.getRootLogger.1 [] n).1)
      rw [h5]
      exact ((configure_shape _ _ _).symm.trans h6).trans (configure_shape _ _ _)

theorem obtained_shape : ∀ (ns : List Str) {w w' : World}, Shape w w' → Shape (obtained w ns) (obtained w' ns)
  | [], _, _, h => h
  | n :: ns, _, _, h => obtained_shape ns (get_shape h n)

/-! ## Comparing -/

/-- Both have nothing cached, the same configuration and the same creators. -/
structure Peers (m m' : Manager) : Prop where
  config : m'.config = m.config
  fmtCreators : m'.fmtCreators = m.fmtCreators
  outCreators : m'.outCreators = m.outCreators
  formats : m.formats = []
  formats' : m'.formats = []
  outputs : m.outputs = []
  outputs' : m'.outputs = []

theorem Peers.good {m m' : Manager} (h : Peers m m') (n : Str) (lc : CfgLogger) : EntryGood m' n lc ↔ EntryGood m n lc := by
  unfold EntryGood OneGood FmtGood OutGood
  rw [h.config, h.fmtCreators, h.outCreators, h.formats, h.formats', h.outputs, h.outputs']

theorem alike_out {m m' a b : Manager} (p : Peers m m') (st : Steady m) (sa : Since m a) (sb : Since m' b) {n : Str} {o o' : Nat} (h : Map.get a.outputs n = some o)
    (h' : Map.get b.outputs n = some o') : AlikeOut a b o o' := by
  obtain ⟨_, _, _, g, _, _, h2, h3⟩ := sa.newO n o h (by rw [p.outputs]; rfl)
  obtain ⟨_, _, _, g', _, _, k2, k3⟩ := sb.newO n o' h' (by rw [p.outputs']; rfl)
  obtain ⟨_, cr, k, flag, p2, p3, p4⟩ := sa.newF _ _ h3 (by rw [p.formats]; rfl)
  obtain ⟨_, cr', k', flag', q2, q3, q4⟩ := sb.newF _ _ k3 (by rw [p.formats']; rfl)
  rw [p.config] at k2 q2 q3 q4
  rw [p.fmtCreators, p2] at q2
  cases q2
  rw [st.1 _ _ p2 k k', q3] at p3
  cases p3
  exact .inr ⟨_, g, g', _, h2, p4, k2, q4⟩

theorem alike_flag {a b : Manager} {o o' : Nat} (h : AlikeOut a b o o') : b.outFlag o' = a.outFlag o := by
  rcases h with ⟨h, h'⟩ | ⟨d, f, f', fo, h1, h2, h3, h4⟩
  · simp only [Manager.outFlag, h, h']
  · simp only [Manager.outFlag, h1, h2, h3, h4]

theorem alike_shared {x y : Manager} (i1 : MgrInv x) (i2 : MgrInv y) {a a' b b' : Nat} (ha : AlikeOut x y a a') (hb : AlikeOut x y b b') (hc : x.oheap[a]? ≠ some ⟨.console, none⟩) :
    a = b ↔ a' = b' := by
  rcases ha with ⟨ha, _⟩ | ⟨d, f, f', _, h1, _, h2, _⟩
  · exact absurd ha hc
  · rcases hb with ⟨k1, k2⟩ | ⟨e, g, g', _, k1, _, k2, _⟩
    · constructor
      · rintro rfl
        exact absurd k1 hc
      · rintro rfl
        rw [k2] at h2
        cases h2
    · constructor
      · rintro rfl
        rw [h1] at k1
        cases k1
        have := (i2.managed _ _ _ h2).1
        rw [(i2.managed _ _ _ k2).1] at this
        cases this; rfl
      · rintro rfl
        rw [h2] at k2
        cases k2
        have := (i1.managed _ _ _ h1).1
        rw [(i1.managed _ _ _ k1).1] at this
        cases this; rfl

theorem alike_resolved {m m' a b : Manager} (p : Peers m m') (st : Steady m) (sa : Since m a) (sb : Since m' b) {ns : List Str} {os os' : List Nat} (h : Resolved a ns os) (h' : Resolved b ns os') :
    os'.length = os.length ∧ (∀ flag, raiseFlag b flag os' = raiseFlag a flag os) ∧ ∀ (i : Nat) o o', os[i]? = some o → os'[i]? = some o' → AlikeOut a b o o' := by
  unfold Resolved at h h'
  induction ns generalizing os os' with
  | nil =>
    cases os with
    | cons => cases h
    | nil =>
      cases os' with
      | cons => cases h'
      | nil => exact ⟨rfl, fun _ => rfl, fun i o o' h => by simp at h⟩
  | cons n ns ih =>
    cases os with
    | nil => cases h
    | cons x xs =>
      cases os' with
      | nil => cases h'
      | cons y ys =>
        simp only [List.map_cons, List.cons.injEq] at h h'
        have e := alike_out p st sa sb h.1 h'.1
        obtain ⟨i1, i2, i3⟩ := ih h.2 h'.2
        refine ⟨by simp [i1], fun flag => ?_, fun i o o' => ?_⟩
        · simp only [raiseFlag]
          rw [alike_flag e]
          exact i2 _
        · cases i with
          | zero =>
            simp only [List.getElem?_cons_zero, Option.some.injEq]
            rintro rfl rfl
            exact e
          | succ i =>
            simp only [List.getElem?_cons_succ]
            exact i3 i o o'

theorem made_alike {m m' a b : Manager} (p : Peers m m') (st : Steady m) (sa : Since m a) (sb : Since m' b) {l l' : Logger} (hn : l'.name = l.name) (h : MadeOf m a l) (h' : MadeOf m' b l') :
    AlikeSetup a b l l' := by
  obtain ⟨s, h⟩ := h
  obtain ⟨s', h'⟩ := h'
  rw [hn] at h'
  rcases h with ⟨lc, h1, h2, h3, h4⟩ | ⟨h1, h2, h3, h4⟩ <;> rcases h' with ⟨lc', k1, k2, k3, k4⟩ | ⟨k1, k2, k3, k4⟩
  · rw [p.good] at k1
    have : lc' = lc := by
      have := k1.1
      rw [h1.1] at this
      exact (Option.some.inj this).symm
    subst this
    obtain ⟨i1, i2, i3⟩ := alike_resolved p st sa sb h2 k2
    exact ⟨hn, by rw [k3, h3], by rw [s, s'], by rw [k4, h4, i2], i1, i3⟩
  · exact absurd ((p.good _ _).mpr h1) (k1 lc)
  · exact absurd ((p.good _ _).mp k1) (h1 lc')
  · by_cases hr : l.name = rootLoggerName
    · obtain ⟨e1, c, e2, e3⟩ := h3 hr
      obtain ⟨f1, c', f2, f3⟩ := k3 hr
      refine ⟨hn, by rw [e1, f1], by rw [s, s'], by rw [h2, k2], by simp [e2, f2], fun i o o' ho ho' => ?_⟩
      rw [e2] at ho; rw [f2] at ho'
      cases i with
      | succ i => simp at ho
      | zero =>
        simp only [List.getElem?_cons_zero, Option.some.injEq] at ho ho'
        subst ho; subst ho'
        exact .inl ⟨e3, f3⟩
    · obtain ⟨e1, e2⟩ := h4 hr
      obtain ⟨f1, f2⟩ := k4 hr
      refine ⟨hn, by rw [e1, f1], by rw [s, s'], by rw [h2, k2], by simp [e2, f2], fun i o o' ho ho' => ?_⟩
      rw [e2] at ho; simp at ho

theorem same_parent {a b : World} (ia : WInv a) (ib : WInv b) (h : b.loggers = a.loggers) {r : Nat} {l l' : Logger} (hl : a.heap[r]? = some l) (hl' : b.heap[r]? = some l') (hn : l'.name = l.name) :
    l'.parent = l.parent := by
  by_cases hr : l.name = rootLoggerName
  · rw [ia.parentRoot r l hl hr, ib.parentRoot r l' hl' (hn.trans hr)]
  · obtain ⟨p, lp, h1, h2, h3, _⟩ := ia.parent r l hl hr
    obtain ⟨q, lq, k1, k2, k3, _⟩ := ib.parent r l' hl' (by rw [hn]; exact hr)
    rw [hn] at k3
    have h4 := ia.all _ _ h2
    have k4 := ib.all _ _ k2
    rw [parentOf_unique k3 h3, h, h4] at k4
    rw [h1, k1, k4]

theorem same_walk {a b : World} (h : ∀ r : Nat, (b.heap[r]?).map (fun l => (l.level, l.parent)) = (a.heap[r]?).map fun l => (l.level, l.parent)) : ∀ (fuel : Nat) (r : Option Nat), b.levelWalk fuel r = a.levelWalk fuel r
  | _, none => by simp only [levelWalk]
  | 0, some r => rfl
  | fuel + 1, some r => by
    have h1 := h r
    simp only [levelWalk]
    cases ha : a.heap[r]? with
    | none =>
      rw [ha] at h1
      cases hb : b.heap[r]? with
      | none => rfl
      | some x => rw [hb] at h1; cases h1
    | some l =>
      rw [ha] at h1
      cases hb : b.heap[r]? with
      | none => rw [hb] at h1; cases h1
      | some x =>
        rw [hb] at h1
        simp only [Option.map_some, Option.some.injEq, Prod.mk.injEq] at h1
        simp only [h1.1, h1.2, same_walk h fuel l.parent]

theorem same_enables {a b : World} (ia : WInv a) (h : b.loggers = a.loggers) (hlen : b.heap.length = a.heap.length)
    (hl : ∀ n l, loggerAt a n = some l → ∃ l', loggerAt b n = some l' ∧ l'.level = l.level ∧ l'.parent = l.parent) (n : Str) (lvl : Level) : Enables b n lvl ↔ Enables a n lvl := by
  have hw : ∀ fuel r, b.levelWalk fuel r = a.levelWalk fuel r := same_walk fun r => by
    cases ha : a.heap[r]? with
    | none =>
      rw [List.getElem?_eq_none_iff] at ha
      rw [List.getElem?_eq_none (by omega)]
    | some l =>
      have hg := ia.all r l ha
      obtain ⟨l', h1, h2, h3⟩ := hl l.name l (by unfold loggerAt; rw [hg]; exact ha)
      unfold loggerAt at h1
      rw [h, hg] at h1
      simp only [Option.bind_some] at h1
      rw [h1]
      simp [h2, h3]
  have he : ∀ r, b.levelEnabled r lvl = a.levelEnabled r lvl := fun r => by
    have : b.level r = a.level r := by unfold level; rw [hlen, hw]
    unfold levelEnabled
    rw [this]
  unfold Enables
  simp only [h, he]

/-! ## At the start -/

theorem untried_blank {w : World} (h : Untried w) : w.heap = [] ∧ w.loggers = [] ∧ w.root = none ∧ w.mgr.config = {} ∧ w.mgr.formats = [] ∧ w.mgr.outputs = [] := by
  obtain ⟨as, h, ha⟩ := h
  generalize hw : ({} : World) = w0 at h
  have h0 : w0.heap = [] ∧ w0.loggers = [] ∧ w0.root = none ∧ w0.mgr.config = {} ∧ w0.mgr.formats = [] ∧ w0.mgr.outputs = [] := by
    rw [← hw]; exact ⟨rfl, rfl, rfl, rfl, rfl, rfl⟩
  clear hw
  induction h with
  | refl => exact h0
  | @tail w' as a h1 h2 ih =>
    have ih := ih (fun a h => ha a (by simp [h]))
    rcases ha a (by simp) with ⟨t, f, e⟩ | ⟨t, f, e⟩ <;> subst e <;> exact ih

end Log4g
