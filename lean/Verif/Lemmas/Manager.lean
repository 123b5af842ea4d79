import Verif.Model.Manager
import Verif.Lemmas.Map

namespace Log4g

/-- What a manager call can change: instances are added, nothing is removed or rebound. -/
structure Grow (m m' : Manager) : Prop where
  config : m'.config = m.config
  fmtCreators : m'.fmtCreators = m.fmtCreators
  outCreators : m'.outCreators = m.outCreators
  formats : ∀ k v, Map.get m.formats k = some v → Map.get m'.formats k = some v
  outputs : ∀ k v, Map.get m.outputs k = some v → Map.get m'.outputs k = some v
  fheap : ∃ x, m'.fheap = m.fheap ++ x
  oheap : ∃ x, m'.oheap = m.oheap ++ x

namespace Grow

theorem refl (m : Manager) : Grow m m :=
  ⟨rfl, rfl, rfl, fun _ _ h => h, fun _ _ h => h, ⟨[], by simp⟩, ⟨[], by simp⟩⟩

theorem trans {a b c : Manager} (h : Grow a b) (h' : Grow b c) : Grow a c where
  config := h'.config.trans h.config
  fmtCreators := h'.fmtCreators.trans h.fmtCreators
  outCreators := h'.outCreators.trans h.outCreators
  formats := fun k v e => h'.formats k v (h.formats k v e)
  outputs := fun k v e => h'.outputs k v (h.outputs k v e)
  fheap := by
    obtain ⟨x, hx⟩ := h.fheap; obtain ⟨y, hy⟩ := h'.fheap
    exact ⟨x ++ y, by rw [hy, hx, List.append_assoc]⟩
  oheap := by
    obtain ⟨x, hx⟩ := h.oheap; obtain ⟨y, hy⟩ := h'.oheap
    exact ⟨x ++ y, by rw [hy, hx, List.append_assoc]⟩

theorem fheap_get {m m' : Manager} (h : Grow m m') {i : Nat} {x : FmtObj} (e : m.fheap[i]? = some x) :
    m'.fheap[i]? = some x := by
  obtain ⟨y, hy⟩ := h.fheap
  have hi : i < m.fheap.length := by
    rcases Nat.lt_or_ge i m.fheap.length with h | h
    · exact h
    · rw [List.getElem?_eq_none h] at e; simp at e
  rw [hy, List.getElem?_append_left hi]; exact e

theorem oheap_get {m m' : Manager} (h : Grow m m') {i : Nat} {x : OutObj} (e : m.oheap[i]? = some x) :
    m'.oheap[i]? = some x := by
  obtain ⟨y, hy⟩ := h.oheap
  have hi : i < m.oheap.length := by
    rcases Nat.lt_or_ge i m.oheap.length with h | h
    · exact h
    · rw [List.getElem?_eq_none h] at e; simp at e
  rw [hy, List.getElem?_append_left hi]; exact e

theorem oheap_len {m m' : Manager} (h : Grow m m') : m.oheap.length ≤ m'.oheap.length := by
  obtain ⟨y, hy⟩ := h.oheap; rw [hy]; simp

end Grow

/-- The manager's invariant: the caches and the instances agree. -/
structure MgrInv (m : Manager) : Prop where
  fmtOk : ∀ k f, Map.get m.formats k = some f → ∃ fo, m.fheap[f]? = some fo ∧ fo.cfg.name = k
  outOk : ∀ k o, Map.get m.outputs k = some o →
    ∃ cfg f, m.oheap[o]? = some ⟨.managed cfg, f⟩ ∧ cfg.name = k
  managed : ∀ (o : Nat) cfg f, m.oheap[o]? = some ⟨.managed cfg, f⟩ → Map.get m.outputs cfg.name = some o ∧
    ∃ g fo, f = some g ∧ m.fheap[g]? = some fo ∧ fo.cfg.name = cfg.formatName
  fmtRef : ∀ (o : Nat) ob g, m.oheap[o]? = some ob → ob.fmt = some g → ∃ fo, m.fheap[g]? = some fo
  nodup : (Map.keys m.outputs).Nodup

theorem MgrInv.empty : MgrInv {} := by
  refine ⟨?_, ?_, ?_, ?_, List.nodup_nil⟩ <;> intros <;> simp_all [Map.get]

theorem getElem?_concat {α : Type} (l : List α) (x : α) (i : Nat) (y : α) :
    (l ++ [x])[i]? = some y ↔ (l[i]? = some y ∨ (i = l.length ∧ x = y)) := by
  rcases Nat.lt_trichotomy i l.length with h | h | h
  · rw [List.getElem?_append_left h]
    constructor
    · exact .inl
    · rintro (h' | ⟨h', _⟩)
      · exact h'
      · omega
  · subst h; simp
  · rw [List.getElem?_append_right (by omega), List.getElem?_eq_none (by simp; omega)]
    constructor
    · intro h; simp at h
    · rintro (h' | ⟨h', _⟩)
      · rw [List.getElem?_eq_none (by omega)] at h'; simp at h'
      · omega

/-- Flags of existing outputs do not change. -/
theorem Grow.outFlag {m m' : Manager} (h : Grow m m') (inv : MgrInv m) {o : Nat} (ho : o < m.oheap.length) :
    m'.outFlag o = m.outFlag o := by
  obtain ⟨ob, hob⟩ : ∃ ob, m.oheap[o]? = some ob := ⟨_, List.getElem?_eq_getElem ho⟩
  simp only [Manager.outFlag, h.oheap_get hob, hob]
  cases ob.origin with
  | user f => rfl
  | console =>
    cases hf : ob.fmt with
    | none => rfl
    | some g =>
      obtain ⟨fo, hfo⟩ := inv.fmtRef o ob g hob hf
      simp only [h.fheap_get hfo, hfo]
  | managed c =>
    cases hf : ob.fmt with
    | none => rfl
    | some g =>
      obtain ⟨fo, hfo⟩ := inv.fmtRef o ob g hob hf
      simp only [h.fheap_get hfo, hfo]

theorem getFormat_spec (m : Manager) (inv : MgrInv m) (fc : CfgMap) :
    Grow m (m.getFormat fc).2 ∧ MgrInv (m.getFormat fc).2 ∧
    (∀ f, (m.getFormat fc).1 = .ok f → Map.get (m.getFormat fc).2.formats fc.name = some f) ∧
    (m.getFormat fc).2.oheap = m.oheap := by
  unfold Manager.getFormat
  split
  · exact ⟨.refl m, inv, by simp, rfl⟩
  · split
    · rename_i f hf
      exact ⟨.refl m, inv, by rintro f' h; injection h with h; subst h; exact hf, rfl⟩
    · rename_i hnone
      split
      · refine ⟨⟨rfl, rfl, rfl, fun _ _ h => h, fun _ _ h => h, ⟨[], by simp⟩, ⟨[], by simp⟩⟩, ?_, by simp, rfl⟩
        exact ⟨inv.fmtOk, inv.outOk, inv.managed, inv.fmtRef, inv.nodup⟩
      · rename_i flag _
        have g : Grow m { m with calls := m.calls + 1, fheap := m.fheap ++ [⟨fc, flag⟩], formats := Map.set m.formats fc.name m.fheap.length } := by
          refine ⟨rfl, rfl, rfl, ?_, fun _ _ h => h, ⟨_, rfl⟩, ⟨[], by simp⟩⟩
          intro k v hv
          rw [Map.get_set]
          split
          · rename_i e; subst e; rw [hnone] at hv; simp at hv
          · exact hv
        refine ⟨g, ⟨?_, inv.outOk, ?_, ?_, inv.nodup⟩, ?_, rfl⟩
        · intro k f hf
          simp only [Map.get_set] at hf
          split at hf
          · rename_i e
            injection hf with hf; subst hf
            exact ⟨⟨fc, flag⟩, by simp, e⟩
          · obtain ⟨fo, h1, h2⟩ := inv.fmtOk k f hf
            exact ⟨fo, g.fheap_get h1, h2⟩
        · intro o cfg f ho
          obtain ⟨h1, gg, fo, h2, h3, h4⟩ := inv.managed o cfg f ho
          exact ⟨h1, gg, fo, h2, g.fheap_get h3, h4⟩
        · intro o ob gg ho hf
          obtain ⟨fo, h⟩ := inv.fmtRef o ob gg ho hf
          exact ⟨fo, g.fheap_get h⟩
        · rintro f h
          injection h with h; subst h
          simp

theorem getOutput_spec (m : Manager) (inv : MgrInv m) (oc : CfgMap) (f : Nat)
    (hf : Map.get m.formats oc.formatName = some f) :
    Grow m (m.getOutput oc f).2 ∧ MgrInv (m.getOutput oc f).2 ∧
    (∀ o, (m.getOutput oc f).1 = .ok o → Map.get (m.getOutput oc f).2.outputs oc.name = some o) := by
  unfold Manager.getOutput
  split
  · exact ⟨.refl m, inv, by simp⟩
  · split
    · rename_i o ho
      exact ⟨.refl m, inv, by rintro o' h; injection h with h; subst h; exact ho⟩
    · rename_i hnone
      split
      · refine ⟨⟨rfl, rfl, rfl, fun _ _ h => h, fun _ _ h => h, ⟨[], by simp⟩, ⟨[], by simp⟩⟩, ?_, by simp⟩
        exact ⟨inv.fmtOk, inv.outOk, inv.managed, inv.fmtRef, inv.nodup⟩
      · have g : Grow m { m with calls := m.calls + 1, oheap := m.oheap ++ [⟨.managed oc, some f⟩], outputs := Map.set m.outputs oc.name m.oheap.length } := by
          refine ⟨rfl, rfl, rfl, fun _ _ h => h, ?_, ⟨[], by simp⟩, ⟨_, rfl⟩⟩
          intro k v hv
          rw [Map.get_set]
          split
          · rename_i e; subst e; rw [hnone] at hv; simp at hv
          · exact hv
        obtain ⟨fo, hfo, hfn⟩ := inv.fmtOk _ _ hf
        refine ⟨g, ⟨inv.fmtOk, ?_, ?_, ?_, Map.nodup_keys_set _ _ _ inv.nodup⟩, ?_⟩
        · intro k o ho
          simp only [Map.get_set] at ho
          split at ho
          · rename_i e
            injection ho with ho; subst ho
            exact ⟨oc, some f, by simp, e⟩
          · obtain ⟨cfg, f, h1, h2⟩ := inv.outOk k o ho
            exact ⟨cfg, f, g.oheap_get h1, h2⟩
        · intro o cfg f' ho
          rcases (getElem?_concat _ _ _ _).mp ho with h | ⟨h, h'⟩
          · obtain ⟨h1, h2⟩ := inv.managed o cfg f' h
            exact ⟨g.outputs _ _ h1, h2⟩
          · injection h' with h1 h2
            injection h1 with h1
            subst h1; subst h2; subst h
            exact ⟨by simp, f, fo, rfl, hfo, hfn⟩
        · intro o ob gg ho hg
          rcases (getElem?_concat _ _ _ _).mp ho with h | ⟨h, h'⟩
          · exact inv.fmtRef o ob gg h hg
          · subst h'; simp at hg; subst hg; exact ⟨fo, hfo⟩
        · rintro o h
          injection h with h; subst h
          simp

theorem getD_find_name (l : List CfgMap) (n : Str) (h : (l.find? (fun c => CfgMap.name c = n)).getD none ≠ none) :
    CfgMap.name ((l.find? (fun c => CfgMap.name c = n)).getD none) = n := by
  cases hf : l.find? (fun c => CfgMap.name c = n) with
  | none => rw [hf] at h; simp at h
  | some c =>
    have := List.find?_some hf
    simpa using this

theorem one_spec (m : Manager) (inv : MgrInv m) (opid : Str) :
    Grow m (m.one opid).2 ∧ MgrInv (m.one opid).2 ∧
    (∀ o, (m.one opid).1 = .ok o → Map.get (m.one opid).2.outputs opid = some o) := by
  unfold Manager.one
  simp only
  split
  · exact ⟨.refl m, inv, by simp⟩
  · rename_i ho
    split
    · exact ⟨.refl m, inv, by simp⟩
    · rename_i hfc
      obtain ⟨g, i, hok, _⟩ := getFormat_spec m inv (m.config.getCfgFormat (m.config.getCfgOutput opid).formatName)
      split
      · rename_i e m1 he
        rw [he] at g i
        exact ⟨g, i, by simp⟩
      · rename_i f m1 he
        rw [he] at g i hok
        have hname : (m.config.getCfgFormat (m.config.getCfgOutput opid).formatName).name =
            (m.config.getCfgOutput opid).formatName := getD_find_name _ _ hfc
        have hf := hok f rfl
        rw [hname] at hf
        obtain ⟨g2, i2, hok2⟩ := getOutput_spec m1 i (m.config.getCfgOutput opid) f hf
        refine ⟨g.trans g2, i2, ?_⟩
        intro o h
        have := hok2 o h
        rwa [show (m.config.getCfgOutput opid).name = opid from getD_find_name _ _ ho] at this

/-- The outputs `ops` are the instances cached under `names`, in order. -/
def Resolved (m : Manager) (names : List Str) (ops : List Nat) : Prop :=
  names.map (Map.get m.outputs) = ops.map some

theorem Resolved.grow {m m' : Manager} (g : Grow m m') {names : List Str} {ops : List Nat}
    (h : Resolved m names ops) : Resolved m' names ops := by
  unfold Resolved at *
  induction names generalizing ops with
  | nil => simpa using h
  | cons n ns ih =>
    cases ops with
    | nil => simp at h
    | cons o os =>
      simp only [List.map_cons, List.cons.injEq] at h ⊢
      exact ⟨g.outputs _ _ h.1, ih h.2⟩

theorem Resolved.unique {m : Manager} {names : List Str} {ops ops' : List Nat}
    (h : Resolved m names ops) (h' : Resolved m names ops') : ops = ops' := by
  unfold Resolved at *
  rw [h] at h'
  exact (List.map_inj_right (by simp)).mp h'

theorem loop_spec (m : Manager) (inv : MgrInv m) (names : List Str) :
    Grow m (m.loop names).2 ∧ MgrInv (m.loop names).2 ∧
    (∀ ops, (m.loop names).1 = .ok ops → Resolved (m.loop names).2 names ops) := by
  induction names generalizing m with
  | nil =>
    refine ⟨.refl m, inv, ?_⟩
    intro ops h
    simp only [Manager.loop] at h
    injection h with h; subst h; simp [Resolved]
  | cons n ns ih =>
    obtain ⟨g, i, hok⟩ := one_spec m inv n
    simp only [Manager.loop]
    split
    · rename_i e m1 he
      rw [he] at g i
      exact ⟨g, i, by simp⟩
    · rename_i o m1 he
      rw [he] at g i hok
      obtain ⟨g2, i2, hok2⟩ := ih m1 i
      split
      · rename_i e m2 he2
        rw [he2] at g2 i2
        exact ⟨g.trans g2, i2, by simp⟩
      · rename_i os m2 he2
        rw [he2] at g2 i2 hok2
        refine ⟨g.trans g2, i2, ?_⟩
        intro ops h
        injection h with h; subst h
        have := hok2 os rfl
        have h1 := g2.outputs _ _ (hok o rfl)
        unfold Resolved at this ⊢
        simp only [List.map_cons, List.cons.injEq]
        exact ⟨h1, this⟩

theorem getLoggerOutputs_spec (m : Manager) (inv : MgrInv m) (name : Str) :
    Grow m (m.getLoggerOutputs name).2 ∧ MgrInv (m.getLoggerOutputs name).2 ∧
    (∀ ops lvl, (m.getLoggerOutputs name).1 = .ok (ops, lvl) → ∃ lc, m.config.getCfgLogger name = some lc ∧
      lvl = Level.levelFrom lc.level ∧ Resolved (m.getLoggerOutputs name).2 lc.outputNames ops) := by
  unfold Manager.getLoggerOutputs
  split
  · exact ⟨.refl m, inv, by simp⟩
  · rename_i lc hlc
    obtain ⟨g, i, hok⟩ := loop_spec m inv lc.outputNames
    split
    · rename_i e m1 he
      rw [he] at g i
      exact ⟨g, i, by simp⟩
    · rename_i ops m1 he
      rw [he] at g i hok
      refine ⟨g, i, ?_⟩
      intro ops' lvl h
      injection h with h
      injection h with h1 h2
      subst h1; subst h2
      exact ⟨lc, hlc, rfl, hok _ rfl⟩

theorem Resolved.bound {m : Manager} (inv : MgrInv m) {names : List Str} {ops : List Nat}
    (h : Resolved m names ops) : ∀ o ∈ ops, o < m.oheap.length := by
  intro o ho
  unfold Resolved at h
  have : some o ∈ names.map (Map.get m.outputs) := by rw [h]; simp [ho]
  obtain ⟨n, _, hn⟩ := List.mem_map.mp this
  obtain ⟨cfg, f, h1, _⟩ := inv.outOk _ _ hn
  rcases Nat.lt_or_ge o m.oheap.length with h | h
  · exact h
  · rw [List.getElem?_eq_none h] at h1; simp at h1

end Log4g
