import Verif.Model.World
import Verif.Spec.Names
import Verif.Lemmas.Config

namespace Log4g
open Spec

/-! ## Names -/

theorem sep_iff (c : Char) : isSep c = true ↔ Spec.Sep c := by
  simp [isSep, Spec.Sep]

theorem sepPrefix_snoc (q b : Str) (c : Char) :
    SepPrefix q (b ++ [c]) ↔ SepPrefix q b ∨ (q = b ∧ Sep c ∧ b ≠ []) := by
  constructor
  · rintro ⟨hq, d, rest, hd, e⟩
    rcases List.eq_nil_or_concat rest with rfl | ⟨r, x, rfl⟩
    · right
      have h1 := List.append_inj_left' e rfl
      have h2 := List.append_inj_right' e rfl
      simp at h2
      subst h1; subst h2
      exact ⟨rfl, hd, hq⟩
    · left
      have e2 : b ++ [c] = (q ++ d :: r) ++ [x] := by simpa using e
      exact ⟨hq, d, r, hd, List.append_inj_left' e2 rfl⟩
  · rintro (⟨hq, d, rest, hd, rfl⟩ | ⟨rfl, hc, hb⟩)
    · exact ⟨hq, d, rest ++ [c], hd, by simp⟩
    · exact ⟨hb, c, [], hc, rfl⟩

theorem sepPrefix_length {q b : Str} (h : SepPrefix q b) : q.length < b.length := by
  obtain ⟨_, c, r, _, rfl⟩ := h
  simp

/-- Scanning one more character. -/
theorem parentOf_snoc_sep {b : Str} {c : Char} (hc : Sep c) (hb : b ≠ []) :
    ParentOf (b ++ [c]) b := by
  left
  refine ⟨(sepPrefix_snoc b b c).mpr (.inr ⟨rfl, hc, hb⟩), ?_⟩
  intro q hq
  rcases (sepPrefix_snoc q b c).mp hq with h | ⟨rfl, _⟩
  · exact Nat.le_of_lt (sepPrefix_length h)
  · exact Nat.le_refl _

theorem parentOf_snoc_other {b p : Str} {c : Char} (h : ParentOf b p) (hc : ¬ (Sep c ∧ b ≠ [])) :
    ParentOf (b ++ [c]) p := by
  have e : ∀ q, SepPrefix q (b ++ [c]) ↔ SepPrefix q b := by
    intro q
    rw [sepPrefix_snoc]
    constructor
    · rintro (h | ⟨_, h⟩)
      · exact h
      · exact absurd h hc
    · exact .inl
  unfold ParentOf
  simp only [e]
  exact h

theorem parentOf_nil : ParentOf [] c!"root" := by
  right
  refine ⟨?_, rfl⟩
  rintro q ⟨_, c, r, _, h⟩
  simp at h

theorem parentOf_unique {n p p' : Str} (h : ParentOf n p) (h' : ParentOf n p') : p = p' := by
  rcases h with ⟨h1, h2⟩ | ⟨h1, h2⟩ <;> rcases h' with ⟨h3, h4⟩ | ⟨h3, h4⟩
  · have hl : p.length = p'.length := Nat.le_antisymm (h4 p h1) (h2 p' h3)
    obtain ⟨_, c, r, _, e⟩ := h1
    obtain ⟨_, c', r', _, e'⟩ := h3
    rw [e] at e'
    exact List.append_inj_left e' hl
  · exact absurd h1 (h3 p)
  · exact absurd h3 (h1 p')
  · rw [h2, h4]

/-! ## The invariant -/

/-- Every logger of a reachable world sits where its name says. -/
structure WInv (w : World) : Prop where
  mgr : MgrInv w.mgr
  nodup : (Map.keys w.loggers).Nodup
  rootIn : ∀ r, w.root = some r ↔ Map.get w.loggers rootLoggerName = some r
  named : ∀ n r, Map.get w.loggers n = some r → ∃ l, w.heap[r]? = some l ∧ l.name = n
  all : ∀ (r : Nat) l, w.heap[r]? = some l → Map.get w.loggers l.name = some r
  rooted : w.heap ≠ [] → ∃ r, w.root = some r
  noempty : Map.get w.loggers [] = none
  parentRoot : ∀ (r : Nat) l, w.heap[r]? = some l → l.name = rootLoggerName → l.parent = none
  parent : ∀ (r : Nat) l, w.heap[r]? = some l → l.name ≠ rootLoggerName →
    ∃ p lp, l.parent = some p ∧ w.heap[p]? = some lp ∧ ParentOf l.name lp.name ∧ p < r
  outs : ∀ (r : Nat) l, w.heap[r]? = some l → ∀ o ∈ l.outputs, o < w.mgr.oheap.length
  flags : ∀ (r : Nat) l, w.heap[r]? = some l → ∀ o ∈ l.outputs, w.mgr.outFlag o ≤ l.callerInfoFlag
  flagFrom : ∀ (r : Nat) l, w.heap[r]? = some l →
    l.callerInfoFlag = 0 ∨ ∃ o, o < w.mgr.oheap.length ∧ w.mgr.outFlag o = l.callerInfoFlag

theorem WInv.empty : WInv {} where
  mgr := MgrInv.empty
  nodup := by simp [Map.keys]
  rootIn := by simp
  named := by simp
  all := by simp
  rooted := by simp
  noempty := rfl
  parentRoot := by simp
  parent := by simp
  outs := by simp
  flags := by simp
  flagFrom := by simp

/-- Nothing that exists disappears or moves. -/
structure Ext (w w' : World) : Prop where
  loggers : ∀ n r, Map.get w.loggers n = some r → Map.get w'.loggers n = some r
  root : ∀ r, w.root = some r → w'.root = some r
  heap : ∀ (r : Nat) l, w.heap[r]? = some l → ∃ l', w'.heap[r]? = some l' ∧ l'.name = l.name ∧ l'.parent = l.parent
  oheap : ∃ x, w'.mgr.oheap = w.mgr.oheap ++ x
  fheap : ∃ x, w'.mgr.fheap = w.mgr.fheap ++ x
  outputs : ∀ k v, Map.get w.mgr.outputs k = some v → Map.get w'.mgr.outputs k = some v
  formats : ∀ k v, Map.get w.mgr.formats k = some v → Map.get w'.mgr.formats k = some v

theorem Ext.refl (w : World) : Ext w w :=
  ⟨fun _ _ h => h, fun _ h => h, fun _ l h => ⟨l, h, rfl, rfl⟩, ⟨[], by simp⟩, ⟨[], by simp⟩, fun _ _ h => h,
    fun _ _ h => h⟩

theorem Ext.trans {a b c : World} (h : Ext a b) (h' : Ext b c) : Ext a c where
  loggers := fun n r e => h'.loggers n r (h.loggers n r e)
  root := fun r e => h'.root r (h.root r e)
  heap := by
    intro r l e
    obtain ⟨l1, e1, n1, p1⟩ := h.heap r l e
    obtain ⟨l2, e2, n2, p2⟩ := h'.heap r l1 e1
    exact ⟨l2, e2, n2.trans n1, p2.trans p1⟩
  oheap := by
    obtain ⟨x, hx⟩ := h.oheap; obtain ⟨y, hy⟩ := h'.oheap
    exact ⟨x ++ y, by rw [hy, hx, List.append_assoc]⟩
  fheap := by
    obtain ⟨x, hx⟩ := h.fheap; obtain ⟨y, hy⟩ := h'.fheap
    exact ⟨x ++ y, by rw [hy, hx, List.append_assoc]⟩
  outputs := fun k v e => h'.outputs k v (h.outputs k v e)
  formats := fun k v e => h'.formats k v (h.formats k v e)

namespace World

theorem get_modify {l : List Logger} {r : Nat} {f : Logger → Logger} (r' : Nat) :
    (l.modify r f)[r']? = if r = r' then l[r']?.map f else l[r']? := by
  rw [List.getElem?_modify]
  split
  · simp
  · cases l[r']? <;> simp

theorem update_heap (w : World) (r : Nat) (f : Logger → Logger) (r' : Nat) :
    (w.update r f).heap[r']? = if r = r' then w.heap[r']?.map f else w.heap[r']? := get_modify r'

/-- Changing fields other than name and parent of one logger. -/
theorem update_inv {w : World} (inv : WInv w) (r : Nat) (f : Logger → Logger)
    (hn : ∀ l, (f l).name = l.name) (hp : ∀ l, (f l).parent = l.parent)
    (ho : ∀ l, w.heap[r]? = some l → (∀ o ∈ (f l).outputs, o < w.mgr.oheap.length) ∧
      (∀ o ∈ (f l).outputs, w.mgr.outFlag o ≤ (f l).callerInfoFlag) ∧
      ((f l).callerInfoFlag = 0 ∨ ∃ o, o < w.mgr.oheap.length ∧ w.mgr.outFlag o = (f l).callerInfoFlag)) :
    WInv (w.update r f) ∧ Ext w (w.update r f) := by
  have fwd : ∀ (r' : Nat) l, w.heap[r']? = some l → ∃ l', (w.update r f).heap[r']? = some l' ∧ l'.name = l.name ∧ l'.parent = l.parent := by
    intro r' l h
    rw [update_heap]
    split
    · exact ⟨f l, by simp [h], hn l, hp l⟩
    · exact ⟨l, h, rfl, rfl⟩
  have bwd : ∀ (r' : Nat) l', (w.update r f).heap[r']? = some l' →
      ∃ l, w.heap[r']? = some l ∧ l'.name = l.name ∧ l'.parent = l.parent ∧ (l' = l ∨ (r = r' ∧ l' = f l)) := by
    intro r' l' h
    rw [update_heap] at h
    split at h
    · cases hl : w.heap[r']? with
      | none => rw [hl] at h; simp at h
      | some l =>
        rw [hl] at h; simp at h; subst h
        rename_i e
        exact ⟨l, rfl, hn l, hp l, .inr ⟨e, rfl⟩⟩
    · exact ⟨l', h, rfl, rfl, .inl rfl⟩
  refine ⟨⟨inv.mgr, inv.nodup, inv.rootIn, ?_, ?_, ?_, inv.noempty, ?_, ?_, ?_, ?_, ?_⟩,
    ⟨fun _ _ h => h, fun _ h => h, fwd, ⟨[], by simp [update]⟩, ⟨[], by simp [update]⟩, fun _ _ h => h, fun _ _ h => h⟩⟩
  · intro n r' h
    obtain ⟨l, h1, h2⟩ := inv.named n r' h
    obtain ⟨l', h3, h4, _⟩ := fwd r' l h1
    exact ⟨l', h3, h4.trans h2⟩
  · intro r' l' h
    obtain ⟨l, h1, h2, _⟩ := bwd r' l' h
    rw [h2]; exact inv.all r' l h1
  · intro h
    apply inv.rooted
    intro h'
    apply h
    simp [update, h']
  · intro r' l' h h'
    obtain ⟨l, h1, h2, h3, _⟩ := bwd r' l' h
    rw [h3]; exact inv.parentRoot r' l h1 (h2 ▸ h')
  · intro r' l' h h'
    obtain ⟨l, h1, h2, h3, _⟩ := bwd r' l' h
    obtain ⟨p, lp, a, b, c, d⟩ := inv.parent r' l h1 (h2 ▸ h')
    obtain ⟨lp', e1, e2, _⟩ := fwd p lp b
    exact ⟨p, lp', h3.trans a, e1, by rw [h2, e2]; exact c, d⟩
  · intro r' l' h
    obtain ⟨l, h1, h2, h3, h4⟩ := bwd r' l' h
    rcases h4 with rfl | ⟨rfl, rfl⟩
    · exact inv.outs r' _ h1
    · exact (ho l h1).1
  · intro r' l' h
    obtain ⟨l, h1, h2, h3, h4⟩ := bwd r' l' h
    rcases h4 with rfl | ⟨rfl, rfl⟩
    · exact inv.flags r' _ h1
    · exact (ho l h1).2.1
  · intro r' l' h
    obtain ⟨l, h1, h2, h3, h4⟩ := bwd r' l' h
    rcases h4 with rfl | ⟨rfl, rfl⟩
    · exact inv.flagFrom r' _ h1
    · exact (ho l h1).2.2

theorem setLevel_inv {w : World} (inv : WInv w) (r : Nat) (lvl : Level) :
    WInv (w.setLevel r lvl) ∧ Ext w (w.setLevel r lvl) :=
  update_inv inv r _ (fun _ => rfl) (fun _ => rfl) fun l h => ⟨inv.outs r l h, inv.flags r l h, inv.flagFrom r l h⟩

theorem setCallerSkip_inv {w : World} (inv : WInv w) (r : Nat) (k : Int) :
    WInv (w.setCallerSkip r k) ∧ Ext w (w.setCallerSkip r k) :=
  update_inv inv r _ (fun _ => rfl) (fun _ => rfl) fun l h => ⟨inv.outs r l h, inv.flags r l h, inv.flagFrom r l h⟩

theorem raiseFlag_ge (m : Manager) (flag : Int) (ops : List Nat) :
    flag ≤ raiseFlag m flag ops ∧ ∀ o ∈ ops, m.outFlag o ≤ raiseFlag m flag ops := by
  induction ops generalizing flag with
  | nil => simp [raiseFlag]
  | cons o os ih =>
    simp only [raiseFlag, List.mem_cons, forall_eq_or_imp]
    split
    · obtain ⟨h1, h2⟩ := ih (m.outFlag o)
      exact ⟨by omega, h1, h2⟩
    · obtain ⟨h1, h2⟩ := ih flag
      exact ⟨h1, by omega, h2⟩

theorem raiseFlag_from (m : Manager) (flag : Int) (ops : List Nat) :
    raiseFlag m flag ops = flag ∨ ∃ o ∈ ops, m.outFlag o = raiseFlag m flag ops := by
  induction ops generalizing flag with
  | nil => simp [raiseFlag]
  | cons o os ih =>
    simp only [raiseFlag, List.mem_cons]
    split
    · rcases ih (m.outFlag o) with h | ⟨o', h, h'⟩
      · exact .inr ⟨o, .inl rfl, h.symm⟩
      · exact .inr ⟨o', .inr h, h'⟩
    · rcases ih flag with h | ⟨o', h, h'⟩
      · exact .inl h
      · exact .inr ⟨o', .inr h, h'⟩

theorem setOutputs_inv {w : World} (inv : WInv w) (r : Nat) (ops : List Nat)
    (h : ∀ o ∈ ops, o < w.mgr.oheap.length) :
    WInv (w.setOutputs r ops) ∧ Ext w (w.setOutputs r ops) :=
  update_inv inv r _ (fun _ => rfl) (fun _ => rfl) fun l hl => ⟨h, (raiseFlag_ge _ _ _).2, by
    rcases raiseFlag_from w.mgr l.callerInfoFlag ops with e | ⟨o, ho, e⟩
    · rcases inv.flagFrom r l hl with h0 | h0
      · exact .inl (e.trans h0)
      · obtain ⟨o, h1, h2⟩ := h0
        exact .inr ⟨o, h1, h2.trans e.symm⟩
    · exact .inr ⟨o, h o ho, e⟩⟩

/-- A manager step keeps the invariant. -/
theorem mgr_inv {w : World} (inv : WInv w) {m : Manager} (im : MgrInv m)
    (ho : ∃ x, m.oheap = w.mgr.oheap ++ x) (hfl : ∀ o, o < w.mgr.oheap.length → m.outFlag o = w.mgr.outFlag o)
    (hf : ∃ x, m.fheap = w.mgr.fheap ++ x)
    (h1 : ∀ k v, Map.get w.mgr.outputs k = some v → Map.get m.outputs k = some v)
    (h2 : ∀ k v, Map.get w.mgr.formats k = some v → Map.get m.formats k = some v) :
    WInv { w with mgr := m } ∧ Ext w { w with mgr := m } := by
  refine ⟨⟨im, inv.nodup, inv.rootIn, inv.named, inv.all, inv.rooted, inv.noempty, inv.parentRoot, inv.parent,
    ?_, ?_, ?_⟩, ⟨fun _ _ h => h, fun _ h => h, fun _ l h => ⟨l, h, rfl, rfl⟩, ho, hf, h1, h2⟩⟩
  · intro r l h o hm
    have := inv.outs r l h o hm
    obtain ⟨x, hx⟩ := ho
    simp [hx]; omega
  · intro r l h o hm
    have := inv.outs r l h o hm
    rw [hfl o this]
    exact inv.flags r l h o hm
  · intro r l h
    rcases inv.flagFrom r l h with h0 | ⟨o, h1, h2⟩
    · exact .inl h0
    · refine .inr ⟨o, ?_, by rw [hfl o h1]; exact h2⟩
      obtain ⟨x, hx⟩ := ho
      simp [hx]; omega

theorem grow_inv {w : World} (inv : WInv w) {m : Manager} (im : MgrInv m) (g : Grow w.mgr m) :
    WInv { w with mgr := m } ∧ Ext w { w with mgr := m } :=
  mgr_inv inv im g.oheap (fun _ h => g.outFlag inv.mgr h) g.fheap g.outputs g.formats

/-- The logger `r` has the level and outputs of the entry `e`. -/
def Configured (w : World) (r : Nat) (e : CfgLogger) : Prop :=
  ∃ l, w.heap[r]? = some l ∧ l.level = Level.levelFrom e.level ∧ Resolved w.mgr e.outputNames l.outputs

/-- What `configure` does. -/
structure ConfigureSpec (w : World) (r : Nat) (name : Str) (w' : World) : Prop where
  inv : WInv w'
  ext : Ext w w'
  grow : Grow w.mgr w'.mgr
  loggers : w'.loggers = w.loggers
  root : w'.root = w.root
  len : w'.heap.length = w.heap.length
  other : ∀ r', r' ≠ r → w'.heap[r']? = w.heap[r']?
  skip : ∀ l l', w.heap[r]? = some l → w'.heap[r]? = some l' → l'.callerSkip = l.callerSkip
  result : (w'.heap[r]? = w.heap[r]? ∧ ∃ e, (w.mgr.getLoggerOutputs name).1 = .error e) ∨
    ∃ e, FirstLogger w.mgr.config name e ∧ (w.heap[r]? ≠ none → Configured w' r e)

theorem configure_spec {w : World} (inv : WInv w) (r : Nat) (name : Str) :
    ConfigureSpec w r name (w.configure r name) := by
  obtain ⟨g, im, hok⟩ := getLoggerOutputs_spec w.mgr inv.mgr name
  unfold configure
  split
  · rename_i e m he
    rw [he] at g im
    obtain ⟨i, x⟩ := grow_inv inv im g
    exact ⟨i, x, g, rfl, rfl, rfl, fun _ _ => rfl, by intro l l' h h'; rw [h] at h'; injection h' with h'; rw [h'],
      .inl ⟨rfl, e, by rw [he]⟩⟩
  · rename_i ops lvl m he
    rw [he] at g im hok
    obtain ⟨lc, hlc, hlvl, hres⟩ := hok ops lvl rfl
    obtain ⟨i, x⟩ := grow_inv inv im g
    obtain ⟨i2, x2⟩ := setLevel_inv i r lvl
    have hb := hres.bound im
    obtain ⟨i3, x3⟩ := setOutputs_inv i2 r ops hb
    refine ⟨i3, x.trans (x2.trans x3), g, rfl, rfl, ?_, ?_, ?_, ?_⟩
    · simp [setOutputs, setLevel, update]
    · intro r' h
      unfold setOutputs setLevel
      rw [update_heap, if_neg (Ne.symm h), update_heap, if_neg (Ne.symm h)]
    · intro l l' h h'
      unfold setOutputs setLevel at h'
      rw [update_heap, if_pos rfl, update_heap, if_pos rfl] at h'
      simp only [h] at h'
      simp at h'; rw [← h']
    · right
      refine ⟨lc, (firstLogger_iff _ _ _).mp hlc, ?_⟩
      intro hne
      cases hl : w.heap[r]? with
      | none => exact absurd hl hne
      | some l =>
        unfold Configured setOutputs setLevel
        rw [update_heap, if_pos rfl, update_heap, if_pos rfl]
        simp only [hl]
        exact ⟨_, rfl, hlvl, hres⟩

/-- With everything the entry needs at hand, `configure` succeeds. -/
theorem configure_ok {w : World} (inv : WInv w) {r : Nat} {name : Str} (hr : w.heap[r]? ≠ none) {e : CfgLogger}
    (he : FirstLogger w.mgr.config name e) (hc : ∀ n ∈ e.outputNames, Creatable w.mgr n) :
    Configured (w.configure r name) r e := by
  rcases (configure_spec inv r name).result with ⟨_, er, h⟩ | ⟨e', he', h⟩
  · obtain ⟨ops, ho⟩ := getLoggerOutputs_ok inv.mgr he hc
    rw [ho] at h; simp at h
  · have : e' = e := by
      have a := (firstLogger_iff _ _ _).mpr he
      have b := (firstLogger_iff _ _ _).mpr he'
      rw [a] at b; injection b with b; exact b.symm
    subst this
    exact h hr

theorem heap_lt {w : World} {r : Nat} {l : Logger} (h : w.heap[r]? = some l) : r < w.heap.length := by
  rcases Nat.lt_or_ge r w.heap.length with h' | h'
  · exact h'
  · rw [List.getElem?_eq_none h'] at h; simp at h

/-- Adding a logger under a free name. -/
theorem create_inv {w : World} (inv : WInv w) {name : Str} {p : Nat} {lp : Logger}
    (hp : w.heap[p]? = some lp) (hpar : ParentOf name lp.name) (hne : name ≠ []) (hnr : name ≠ rootLoggerName) :
    WInv (w.createLogger name (some p)).2 ∧ Ext w (w.createLogger name (some p)).2 ∧
    Map.get (w.createLogger name (some p)).2.loggers name = some (w.createLogger name (some p)).1 ∧
    (w.createLogger name (some p)).2.mgr = w.mgr := by
  unfold createLogger
  split
  · rename_i r hr
    exact ⟨inv, .refl w, hr, rfl⟩
  · rename_i hnone
    have hnr' : name ≠ rootLoggerName := hnr
    have old : ∀ (r : Nat) l, w.heap[r]? = some l → (w.heap ++ [{ newLogger name with parent := some p }])[r]? = some l := by
      intro r l h
      exact (getElem?_concat _ _ _ _).mpr (.inl h)
    refine ⟨?_, ?_, by simp, rfl⟩
    · refine ⟨inv.mgr, Map.nodup_keys_set _ _ _ inv.nodup, ?_, ?_, ?_, ?_, ?_, ?_, ?_, ?_, ?_, ?_⟩
      · intro r; simp only [Map.get_set]; rw [if_neg hnr']; exact inv.rootIn r
      · intro n r h
        simp only [Map.get_set] at h
        split at h
        · rename_i e
          injection h with h; subst h; subst e
          exact ⟨_, (getElem?_concat _ _ _ _).mpr (.inr ⟨rfl, rfl⟩), rfl⟩
        · obtain ⟨l, h1, h2⟩ := inv.named n r h
          exact ⟨l, old r l h1, h2⟩
      · intro r l h
        simp only [Map.get_set]
        rcases (getElem?_concat _ _ _ _).mp h with h | ⟨h2, rfl⟩
        · have := inv.all r l h
          rw [if_neg]
          · exact this
          · intro e; subst e; rw [hnone] at this; simp at this
        · subst h2; simp [newLogger]
      · intro _
        apply inv.rooted
        intro h; rw [h] at hp; simp at hp
      · simp only [Map.get_set]; rw [if_neg hne]; exact inv.noempty
      · intro r l h h'
        rcases (getElem?_concat _ _ _ _).mp h with h | ⟨h, rfl⟩
        · exact inv.parentRoot r l h h'
        · exact absurd h' hnr'
      · intro r l h h'
        rcases (getElem?_concat _ _ _ _).mp h with h | ⟨h2, rfl⟩
        · obtain ⟨p', lp', a, b, c, d⟩ := inv.parent r l h h'
          exact ⟨p', lp', a, old _ _ b, c, d⟩
        · subst h2
          exact ⟨p, lp, rfl, old _ _ hp, hpar, heap_lt hp⟩
      · intro r l h o ho
        rcases (getElem?_concat _ _ _ _).mp h with h | ⟨h, rfl⟩
        · exact inv.outs r l h o ho
        · simp [newLogger] at ho
      · intro r l h o ho
        rcases (getElem?_concat _ _ _ _).mp h with h | ⟨h, rfl⟩
        · exact inv.flags r l h o ho
        · simp [newLogger] at ho
      · intro r l h
        rcases (getElem?_concat _ _ _ _).mp h with h | ⟨h, rfl⟩
        · exact inv.flagFrom r l h
        · exact .inl rfl
    · refine ⟨?_, fun _ h => h, fun r l h => ⟨l, old r l h, rfl, rfl⟩, ⟨[], by simp⟩, ⟨[], by simp⟩, fun _ _ h => h, fun _ _ h => h⟩
      intro n r h
      simp only [Map.get_set]
      rw [if_neg]
      · exact h
      · intro e; subst e; rw [hnone] at h; simp at h

/-- The state of the world just after the root logger is first made. -/
theorem root_create_inv {w : World} (inv : WInv w) (hroot : w.root = none) :
    w.heap = [] ∧ w.loggers = [] := by
  have hh : w.heap = [] := by
    by_cases h : w.heap = []
    · exact h
    · obtain ⟨r, hr⟩ := inv.rooted h
      rw [hroot] at hr; simp at hr
  refine ⟨hh, ?_⟩
  cases hl : w.loggers with
  | nil => rfl
  | cons p m =>
    have : Map.get w.loggers p.1 = some p.2 := by rw [hl]; simp [Map.get]
    obtain ⟨l, h1, _⟩ := inv.named _ _ this
    rw [hh] at h1; simp at h1

/-- One logger, the root, with any level and outputs. -/
theorem root_inv {m : Manager} (im : MgrInv m) (lvl : Level) (ops : List Nat) (flag : Int)
    (ho : ∀ o ∈ ops, o < m.oheap.length) (hfl : ∀ o ∈ ops, m.outFlag o ≤ flag)
    (hfr : flag = 0 ∨ ∃ o ∈ ops, m.outFlag o = flag) :
    WInv { mgr := m, root := some 0, loggers := [(rootLoggerName, 0)],
           heap := [{ newLogger rootLoggerName with level := lvl, outputs := ops, callerInfoFlag := flag }] } := by
  have h0 : ∀ (r : Nat) (l x : Logger), [x][r]? = some l ↔ (r = 0 ∧ l = x) := by
    intro r l x
    cases r with
    | zero => simp [eq_comm]
    | succ r => simp
  refine ⟨im, by simp [Map.keys], ?_, ?_, ?_, ?_, ?_, ?_, ?_, ?_, ?_, ?_⟩
  · intro r; simp [Map.get]
  · intro n r h
    simp only [Map.get] at h
    split at h
    · rename_i e; injection h with h; subst h; subst e
      exact ⟨_, rfl, rfl⟩
    · simp at h
  · intro r l h
    obtain ⟨rfl, rfl⟩ := (h0 _ _ _).mp h
    simp [Map.get, newLogger]
  · intro _; exact ⟨0, rfl⟩
  · simp [Map.get, rootLoggerName]
  · intro r l h _
    obtain ⟨rfl, rfl⟩ := (h0 _ _ _).mp h; rfl
  · intro r l h h'
    obtain ⟨rfl, rfl⟩ := (h0 _ _ _).mp h; exact absurd rfl h'
  · intro r l h
    obtain ⟨rfl, rfl⟩ := (h0 _ _ _).mp h; exact ho
  · intro r l h
    obtain ⟨rfl, rfl⟩ := (h0 _ _ _).mp h; exact hfl
  · intro r l h
    obtain ⟨rfl, rfl⟩ := (h0 _ _ _).mp h
    rcases hfr with h | ⟨o, h, h'⟩
    · exact .inl h
    · exact .inr ⟨o, ho o h, h'⟩

/-- The manager after a fallback console was made. -/
theorem console_inv {m : Manager} (im : MgrInv m) :
    MgrInv { m with oheap := m.oheap ++ [{ origin := .console, fmt := none }] } := by
  refine ⟨im.fmtOk, ?_, ?_, ?_, im.nodup⟩
  · intro k o h
    obtain ⟨cfg, f, h1, h2⟩ := im.outOk k o h
    exact ⟨cfg, f, (getElem?_concat _ _ _ _).mpr (.inl h1), h2⟩
  · intro o cfg f h
    rcases (getElem?_concat _ _ _ _).mp h with h | ⟨_, h⟩
    · exact im.managed o cfg f h
    · simp at h
  · intro o ob g h hg
    rcases (getElem?_concat _ _ _ _).mp h with h | ⟨_, h⟩
    · exact im.fmtRef o ob g h hg
    · subst h; simp at hg

/-- What `getRootLogger` does. -/
structure RootSpec (w w' : World) (r : Nat) : Prop where
  inv : WInv w'
  ext : Ext w w'
  root : w'.root = some r
  get : Map.get w'.loggers rootLoggerName = some r
  config : w'.mgr.config = w.mgr.config
  fmtCreators : w'.mgr.fmtCreators = w.mgr.fmtCreators
  outCreators : w'.mgr.outCreators = w.mgr.outCreators
  same : w.root ≠ none → w' = w

/-- What the first `getRootLogger` makes of the root logger. -/
inductive FirstRoot (w w' : World) : Prop
  | fallback (l : Logger) (o : Nat) (e : MgrErr) : (w.mgr.getLoggerOutputs rootLoggerName).1 = .error e →
      w'.heap = [l] → l.level = Level.Debug → l.outputs = [o] →
      w'.mgr.oheap[o]? = some { origin := .console, fmt := none } → FirstRoot w w'
  | entry (l : Logger) (e : CfgLogger) (x : List Nat × Level) : (w.mgr.getLoggerOutputs rootLoggerName).1 = .ok x →
      FirstLogger w.mgr.config rootLoggerName e → w'.heap = [l] →
      l.level = Level.levelFrom e.level → Resolved w'.mgr e.outputNames l.outputs → FirstRoot w w'

theorem getRootLogger_spec {w : World} (inv : WInv w) :
    RootSpec w w.getRootLogger.2 w.getRootLogger.1 ∧ (w.root = none → FirstRoot w w.getRootLogger.2) := by
  unfold getRootLogger
  cases hr : w.root with
  | some r =>
    simp only
    exact ⟨⟨inv, .refl w, hr, (inv.rootIn r).mp hr, rfl, rfl, rfl, fun _ => rfl⟩, by simp⟩
  | none =>
    obtain ⟨hh, hl⟩ := root_create_inv inv hr
    obtain ⟨g, im, hok⟩ := getLoggerOutputs_spec w.mgr inv.mgr rootLoggerName
    have hset : Map.set ([] : Map Str Nat) rootLoggerName 0 = [(rootLoggerName, 0)] := rfl
    simp only [hh, hl, List.length_nil, List.nil_append]
    rcases he : w.mgr.getLoggerOutputs rootLoggerName with ⟨e | ⟨ops, lvl⟩, m⟩
    · rw [he] at g im
      simp only [setLevel, setOutputs, update, List.modify_zero_cons, raiseFlag]
      have ic := console_inv im
      have hflag : Manager.outFlag { m with oheap := m.oheap ++ [{ origin := .console, fmt := none }] } m.oheap.length = 0 := by
        simp [Manager.outFlag]
      have hri := root_inv ic Level.Debug [m.oheap.length] 0 (by simp) (by simp [hflag]) (.inl rfl)
      simp only [hset]
      refine ⟨⟨?_, ?_, rfl, by simp [Map.get], g.config, g.fmtCreators, g.outCreators, by simp [hr]⟩, ?_⟩
      · simp only [newLogger, hflag] at hri ⊢
        simpa using hri
      · refine ⟨by rw [hl]; simp, by rw [hr]; simp, by rw [hh]; simp, ?_, g.fheap, g.outputs, g.formats⟩
        obtain ⟨x, hx⟩ := g.oheap
        exact ⟨x ++ [{ origin := .console, fmt := none }], by simp only at hx; rw [← List.append_assoc, ← hx]⟩
      · intro _
        exact .fallback _ m.oheap.length e (by rw [he]) rfl rfl rfl (by simp)
    · rw [he] at g im hok
      obtain ⟨lc, hlc, hlvl, hres⟩ := hok ops lvl rfl
      simp only [setLevel, setOutputs, update, List.modify_zero_cons]
      have hri := root_inv im lvl ops (raiseFlag m 0 ops) (hres.bound im) (raiseFlag_ge _ _ _).2 (raiseFlag_from _ _ _)
      simp only [hset]
      refine ⟨⟨?_, ?_, rfl, by simp [Map.get], g.config, g.fmtCreators, g.outCreators, by simp [hr]⟩, ?_⟩
      · simpa only [newLogger] using hri
      · exact ⟨by rw [hl]; simp, by rw [hr]; simp, by rw [hh]; simp, g.oheap, g.fheap, g.outputs, g.formats⟩
      · intro _
        exact .entry _ lc (ops, lvl) (by rw [he]) ((firstLogger_iff _ _ _).mp hlc) rfl hlvl hres

/-- What the loop of `getParent` does. -/
theorem parentLoop_spec {w : World} (inv : WInv w) {p : Nat} {lp : Logger} (hp : w.heap[p]? = some lp)
    (before rest : Str) (hpar : ParentOf before lp.name) :
    WInv (w.parentLoop p before rest).2 ∧ Ext w (w.parentLoop p before rest).2 ∧
    (∃ lq, (w.parentLoop p before rest).2.heap[(w.parentLoop p before rest).1]? = some lq ∧
      ParentOf (before ++ rest) lq.name) ∧
    (w.parentLoop p before rest).2.mgr = w.mgr := by
  induction rest generalizing w p lp before with
  | nil =>
    rw [List.append_nil]
    exact ⟨inv, .refl w, ⟨lp, hp, hpar⟩, rfl⟩
  | cons c rest ih =>
    have e : before ++ c :: rest = (before ++ [c]) ++ rest := by simp
    simp only [parentLoop]
    split
    · rename_i h
      have hc := (sep_iff c).mp h.1
      by_cases hroot : before = rootLoggerName
      · -- the name starts with "root" and a separator: the root logger itself
        have hne : w.heap ≠ [] := by intro h; rw [h] at hp; simp at hp
        obtain ⟨r, hr⟩ := inv.rooted hne
        have hg := (inv.rootIn r).mp hr
        rw [← hroot] at hg
        obtain ⟨l, h1, h2⟩ := inv.named _ _ hg
        have hcr : w.createLogger before (some p) = (r, w) := by simp [createLogger, hg]
        rw [hcr]
        simp only
        have := ih inv h1 (before ++ [c]) (by rw [h2]; exact parentOf_snoc_sep hc h.2)
        rw [e]; exact this
      · obtain ⟨i, x, hg, hm⟩ := create_inv inv hp hpar h.2 hroot
        obtain ⟨l, h1, h2⟩ := i.named _ _ hg
        have := ih i h1 (before ++ [c]) (by rw [h2]; exact parentOf_snoc_sep hc h.2)
        obtain ⟨a, b, d, f⟩ := this
        rw [e]
        exact ⟨a, x.trans b, d, f.trans hm⟩
    · rename_i h
      have := ih inv hp (before ++ [c]) (parentOf_snoc_other hpar (by
        rintro ⟨h1, h2⟩; exact h ⟨(sep_iff c).mpr h1, h2⟩))
      rw [e]; exact this

/-- What `GetLogger` does. -/
structure GetSpec (w : World) (name : Str) (w' : World) (r : Nat) : Prop where
  inv : WInv w'
  ext : Ext w w'
  get : Map.get w'.loggers (if name = [] then rootLoggerName else name) = some r
  config : w'.mgr.config = w.mgr.config
  fmtCreators : w'.mgr.fmtCreators = w.mgr.fmtCreators
  outCreators : w'.mgr.outCreators = w.mgr.outCreators
  old : ∀ r', Map.get w.loggers (if name = [] then rootLoggerName else name) = some r' → w' = w
  fresh : name ≠ [] → name ≠ rootLoggerName → Map.get w.loggers name = none → ∀ e, FirstLogger w.mgr.config name e →
    (∀ n ∈ e.outputNames, Creatable w.mgr n) → Configured w' r e

theorem getLogger_spec {w : World} (inv : WInv w) (name : Str) :
    GetSpec w name (w.getLogger name).2 (w.getLogger name).1 := by
  unfold getLogger
  by_cases hn : name = [] ∨ name = rootLoggerName
  · rw [if_pos hn]
    obtain ⟨s, _⟩ := getRootLogger_spec inv
    have e : (if name = [] then rootLoggerName else name) = rootLoggerName := by
      rcases hn with h | h <;> simp [h]
    refine ⟨s.inv, s.ext, by rw [e]; exact s.get, s.config, s.fmtCreators, s.outCreators, ?_, ?_⟩
    · intro r' h
      rw [e] at h
      exact s.same (by rw [(inv.rootIn r').mpr h]; simp)
    · intro h1 h2; rcases hn with h | h
      · exact absurd h h1
      · exact absurd h h2
  · rw [if_neg hn]
    simp only [not_or] at hn
    have e : (if name = [] then rootLoggerName else name) = name := if_neg hn.1
    cases hg : Map.get w.loggers name with
    | some r =>
      simp only
      exact ⟨inv, .refl w, by rw [e]; exact hg, rfl, rfl, rfl, fun _ _ => rfl, by intro _ _ h; rw [hg] at h; simp at h⟩
    | none =>
      obtain ⟨s, _⟩ := getRootLogger_spec inv
      obtain ⟨lr, h1, h2⟩ := s.inv.named _ _ s.get
      obtain ⟨i, x, ⟨lq, h3, h4⟩, hm⟩ := parentLoop_spec s.inv h1 [] name (by rw [h2]; exact parentOf_nil)
      simp only [List.nil_append] at h4
      simp only [getParent]
      generalize hw1 : w.getRootLogger.2.parentLoop w.getRootLogger.1 [] name = pw at i x h3 hm
      obtain ⟨p, w1⟩ := pw
      simp only at i x h3 hm ⊢
      obtain ⟨i2, x2, hget, hm2⟩ := create_inv i h3 h4 hn.1 hn.2
      generalize hw2 : w1.createLogger name (some p) = rw2 at i2 x2 hget hm2
      obtain ⟨r, w2⟩ := rw2
      simp only at i2 x2 hget hm2 ⊢
      have cs := configure_spec i2 r name
      obtain ⟨l, hl, hlname⟩ := i2.named _ _ hget
      have c1 : w2.mgr.config = w.mgr.config := by rw [hm2, hm]; exact s.config
      have c2 : w2.mgr.fmtCreators = w.mgr.fmtCreators := by rw [hm2, hm]; exact s.fmtCreators
      have c3 : w2.mgr.outCreators = w.mgr.outCreators := by rw [hm2, hm]; exact s.outCreators
      refine ⟨cs.inv, s.ext.trans (x.trans (x2.trans cs.ext)), ?_, ?_, ?_, ?_, ?_, ?_⟩
      · rw [e, cs.loggers]; exact hget
      · rw [cs.grow.config]; exact c1
      · rw [cs.grow.fmtCreators]; exact c2
      · rw [cs.grow.outCreators]; exact c3
      · intro r' h; rw [e, hg] at h; simp at h
      · intro _ _ _ en hen hc
        refine configure_ok i2 (by rw [hl]; simp) (by rw [c1]; exact hen) ?_
        intro n hn
        exact creatable_congr c1 c2 c3 (hc n hn)

/-- What `notify` does. -/
theorem notify_spec {w : World} (inv : WInv w) (order : List Nat) :
    WInv (w.notify order) ∧ Ext w (w.notify order) ∧ Grow w.mgr (w.notify order).mgr ∧
    (w.notify order).loggers = w.loggers ∧ (w.notify order).root = w.root ∧
    (w.notify order).heap.length = w.heap.length := by
  induction order generalizing w with
  | nil => exact ⟨inv, .refl w, .refl _, rfl, rfl, rfl⟩
  | cons r rs ih =>
    simp only [notify]
    split
    · exact ih inv
    · rename_i l hl
      have cs := configure_spec inv r l.name
      obtain ⟨a, b, c, d, e, f⟩ := ih cs.inv
      exact ⟨a, cs.ext.trans b, cs.grow.trans c, d.trans cs.loggers, e.trans cs.root, f.trans cs.len⟩

/-- Being configured survives the configuration of other loggers, and of the same logger again. -/
theorem Configured.configure {w : World} (inv : WInv w) {r : Nat} {e : CfgLogger} (h : Configured w r e)
    {l : Logger} (hl : w.heap[r]? = some l) (he : FirstLogger w.mgr.config l.name e) {r' : Nat} {l' : Logger}
    (hl' : w.heap[r']? = some l') :
    Configured (w.configure r' l'.name) r e := by
  have cs := configure_spec inv r' l'.name
  by_cases hr : r' = r
  · subst hr
    rw [hl] at hl'; injection hl' with hl'; subst hl'
    rcases cs.result with ⟨h1, _⟩ | ⟨e', he', h1⟩
    · obtain ⟨l2, a, b, c⟩ := h
      rw [← h1] at a
      exact ⟨l2, a, b, c.grow cs.grow⟩
    · have : e' = e := by
        have a := (firstLogger_iff _ _ _).mpr he
        have b := (firstLogger_iff _ _ _).mpr he'
        rw [a] at b; injection b with b; exact b.symm
      subst this
      exact h1 (by rw [hl]; simp)
  · obtain ⟨l2, a, b, c⟩ := h
    refine ⟨l2, ?_, b, c.grow cs.grow⟩
    rw [cs.other r (Ne.symm hr)]; exact a

theorem Configured.notify {w : World} (inv : WInv w) {r : Nat} {e : CfgLogger} (h : Configured w r e)
    {l : Logger} (hl : w.heap[r]? = some l) (he : FirstLogger w.mgr.config l.name e) (order : List Nat) :
    Configured (w.notify order) r e := by
  induction order generalizing w l with
  | nil => exact h
  | cons r' rs ih =>
    simp only [World.notify]
    split
    · exact ih inv h hl he
    · rename_i l' hl'
      have cs := configure_spec inv r' l'.name
      obtain ⟨l2, a, b, _⟩ := cs.ext.heap r l hl
      refine ih cs.inv (h.configure inv hl he hl') a ?_
      rw [cs.grow.config, b]; exact he

/-- Every notified logger whose entry can be built gets its entry. -/
theorem notify_configured {w : World} (inv : WInv w) (order : List Nat) {r : Nat} (hr : r ∈ order) {l : Logger}
    (hl : w.heap[r]? = some l) {e : CfgLogger} (he : FirstLogger w.mgr.config l.name e)
    (hc : ∀ n ∈ e.outputNames, Creatable w.mgr n) : Configured (w.notify order) r e := by
  induction order generalizing w l with
  | nil => simp at hr
  | cons r' rs ih =>
    simp only [World.notify]
    rcases List.mem_cons.mp hr with hr | hr
    · subst hr
      simp only [hl]
      have cs := configure_spec inv r l.name
      obtain ⟨l2, a, b, _⟩ := cs.ext.heap r l hl
      refine Configured.notify cs.inv (configure_ok inv (by rw [hl]; simp) he hc) a ?_ rs
      rw [cs.grow.config, b]; exact he
    · split
      · exact ih inv hr hl he hc
      · rename_i l' hl'
        have cs := configure_spec inv r' l'.name
        obtain ⟨l2, a, b, _⟩ := cs.ext.heap r l hl
        refine ih cs.inv hr a (by rw [cs.grow.config, b]; exact he) ?_
        intro n hn
        exact creatable_congr cs.grow.config cs.grow.fmtCreators cs.grow.outCreators (hc n hn)

/-- A logger without entry is not touched by `notify`. -/
theorem notify_untouched {w : World} (inv : WInv w) (order : List Nat) {r : Nat} {l : Logger}
    (hl : w.heap[r]? = some l) (hno : NoLogger w.mgr.config l.name) : (w.notify order).heap[r]? = some l := by
  induction order generalizing w with
  | nil => exact hl
  | cons r' rs ih =>
    simp only [notify]
    split
    · exact ih inv hl hno
    · rename_i l' hl'
      have cs := configure_spec inv r' l'.name
      have hsame : (w.configure r' l'.name).heap[r]? = some l := by
        by_cases hr : r' = r
        · subst hr
          rw [hl] at hl'; injection hl' with hl'; subst hl'
          rcases cs.result with ⟨h1, _⟩ | ⟨e', he', _⟩
          · rw [h1]; exact hl
          · exfalso
            obtain ⟨pre, post, h1, h2, _⟩ := he'
            exact hno e' (by rw [h1]; simp) h2
        · rw [cs.other r (Ne.symm hr)]; exact hl
      exact ih cs.inv hsame (by rw [cs.grow.config]; exact hno)

theorem withConfig_inv {w : World} (inv : WInv w) (cfg : Config) :
    WInv { w with mgr := { w.mgr with config := cfg } } ∧ Ext w { w with mgr := { w.mgr with config := cfg } } := by
  refine mgr_inv inv ⟨inv.mgr.fmtOk, inv.mgr.outOk, inv.mgr.managed, inv.mgr.fmtRef, inv.mgr.nodup⟩ ⟨[], by simp⟩ (fun _ _ => rfl) ⟨[], by simp⟩ (fun _ _ h => h) (fun _ _ h => h)

theorem setConfig_inv {w : World} (inv : WInv w) (cfg : Config) (order : List Nat) :
    WInv (w.setConfig cfg order).2 ∧ Ext w (w.setConfig cfg order).2 := by
  unfold setConfig
  split
  · exact ⟨inv, .refl w⟩
  · obtain ⟨i, x⟩ := withConfig_inv inv cfg
    obtain ⟨a, b, _⟩ := notify_spec i order
    exact ⟨a, x.trans b⟩

theorem user_inv {m : Manager} (im : MgrInv m) (flag : Int) :
    MgrInv { m with oheap := m.oheap ++ [{ origin := .user flag, fmt := none }] } := by
  refine ⟨im.fmtOk, ?_, ?_, ?_, im.nodup⟩
  · intro k o h
    obtain ⟨cfg, f, h1, h2⟩ := im.outOk k o h
    exact ⟨cfg, f, (getElem?_concat _ _ _ _).mpr (.inl h1), h2⟩
  · intro o cfg f h
    rcases (getElem?_concat _ _ _ _).mp h with h | ⟨_, h⟩
    · exact im.managed o cfg f h
    · simp at h
  · intro o ob g h hg
    rcases (getElem?_concat _ _ _ _).mp h with h | ⟨_, h⟩
    · exact im.fmtRef o ob g h hg
    · subst h; simp at hg

end World

open World in
/-- Every API call keeps the invariant and removes nothing. -/
theorem step_inv {w : World} (inv : WInv w) (a : Act) (ok : a.ok w) : WInv (a.run w) ∧ Ext w (a.run w) := by
  cases a with
  | registerFormatter t f =>
    exact mgr_inv inv ⟨inv.mgr.fmtOk, inv.mgr.outOk, inv.mgr.managed, inv.mgr.fmtRef, inv.mgr.nodup⟩ ⟨[], by simp⟩ (fun _ _ => rfl) ⟨[], by simp⟩ (fun _ _ h => h) (fun _ _ h => h)
  | registerOutput t f =>
    exact mgr_inv inv ⟨inv.mgr.fmtOk, inv.mgr.outOk, inv.mgr.managed, inv.mgr.fmtRef, inv.mgr.nodup⟩ ⟨[], by simp⟩ (fun _ _ => rfl) ⟨[], by simp⟩ (fun _ _ h => h) (fun _ _ h => h)
  | setConfig cfg order => exact setConfig_inv inv cfg order
  | loadConfig d bs ext order => exact setConfig_inv inv _ order
  | loadConfigFile d file read order =>
    simp only [Act.run]
    unfold loadConfigFile
    split
    · exact ⟨inv, .refl w⟩
    · split
      · exact ⟨inv, .refl w⟩
      · exact setConfig_inv inv _ order
  | getLogger name => exact ⟨(getLogger_spec inv name).inv, (getLogger_spec inv name).ext⟩
  | queryOutputs name =>
    obtain ⟨g, im, _⟩ := getLoggerOutputs_spec w.mgr inv.mgr name
    exact grow_inv inv im g
  | userOutput flag =>
    refine mgr_inv inv (user_inv inv.mgr flag) ⟨_, rfl⟩ ?_ ⟨[], by simp⟩ (fun _ _ h => h) (fun _ _ h => h)
    intro o ho
    simp only [Manager.outFlag, List.getElem?_append_left ho]
  | setLevel r lvl => exact setLevel_inv inv r lvl
  | setCallerSkip r k => exact setCallerSkip_inv inv r k
  | setOutputs r ops => exact setOutputs_inv inv r ops ok.2

theorem steps_inv {w w' : World} {as : List Act} (inv : WInv w) (h : Steps w as w') : WInv w' ∧ Ext w w' := by
  induction h with
  | refl => exact ⟨inv, .refl _⟩
  | tail _ ok ih =>
    obtain ⟨i, x⟩ := step_inv ih.1 _ ok
    exact ⟨i, ih.2.trans x⟩

theorem reach_inv {w : World} (h : Reach w) : WInv w := (steps_inv WInv.empty h.choose_spec).1

theorem Steps.trans {a b c : World} {as bs : List Act} (h : Steps a as b) (h' : Steps b bs c) :
    Steps a (as ++ bs) c := by
  induction h' with
  | refl => simpa using h
  | tail _ ok ih => rw [← List.append_assoc]; exact .tail ih ok

theorem Reach.steps {w w' : World} {as : List Act} (h : Reach w) (h' : Steps w as w') : Reach w' := by
  obtain ⟨bs, h⟩ := h
  exact ⟨_, h.trans h'⟩

theorem Reach.act {w : World} (h : Reach w) {a : Act} (ok : a.ok w) : Reach (a.run w) :=
  h.steps (Steps.tail (.refl w) ok)

end Log4g
