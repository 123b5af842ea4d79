import Verif.Spec.AnyOrder
import Verif.Lemmas.Again

/-! # Helpers for C134 -/

namespace Log4g
open Spec World

/-- What has been made since `m` was made from the definitions of its configuration, by creators that accept them. -/
structure Since (m a : Manager) : Prop where
  grow : Grow m a
  inv : MgrInv a
  newF : ∀ n f, Map.get a.formats n = some f → Map.get m.formats n = none → m.fheap.length ≤ f ∧
    ∃ cr k flag, Map.get m.fmtCreators (m.config.getCfgFormat n).type = some cr ∧ cr k (m.config.getCfgFormat n) = .ok flag ∧ a.fheap[f]? = some ⟨m.config.getCfgFormat n, flag⟩
  newO : ∀ n o, Map.get a.outputs n = some o → Map.get m.outputs n = none → m.oheap.length ≤ o ∧
    ∃ cr k g, Map.get m.outCreators (m.config.getCfgOutput n).type = some cr ∧ cr k (m.config.getCfgOutput n) = .ok () ∧
      a.oheap[o]? = some ⟨.managed (m.config.getCfgOutput n), some g⟩ ∧ Map.get a.formats (m.config.getCfgOutput n).formatName = some g

theorem Since.refl {m : Manager} (inv : MgrInv m) : Since m m :=
  ⟨.refl m, inv, fun n f h h' => (nomatch h.symm.trans h'), fun n o h h' => (nomatch h.symm.trans h')⟩

/-- The format `n` is there or can be made. -/
def FmtGood (m : Manager) (n : Str) : Prop :=
  ∃ cr, Map.get m.fmtCreators (m.config.getCfgFormat n).type = some cr ∧ (Map.get m.formats n ≠ none ∨ ∃ k flag, cr k (m.config.getCfgFormat n) = .ok flag)

/-- The output `n`, apart from its format, is there or can be made. -/
def OutGood (m : Manager) (n : Str) : Prop :=
  ∃ cr, Map.get m.outCreators (m.config.getCfgOutput n).type = some cr ∧ (Map.get m.outputs n ≠ none ∨ ∃ k, cr k (m.config.getCfgOutput n) = .ok ())

theorem getFormat_since {m a : Manager} (st : Steady m) (s : Since m a) (n : Str) (hn : (m.config.getCfgFormat n).name = n) :
    Since m (a.getFormat (m.config.getCfgFormat n)).2 ∧ ((∃ f, (a.getFormat (m.config.getCfgFormat n)).1 = .ok f) ↔ FmtGood m n) := by
  obtain ⟨g, i, _, _⟩ := getFormat_spec a s.inv (m.config.getCfgFormat n)
  have hg := s.grow.trans g
  have hout : (a.getFormat (m.config.getCfgFormat n)).2.outputs = a.outputs := by
    unfold Manager.getFormat
    repeat' split
    all_goals rfl
  refine ⟨⟨hg, i, fun k f h h' => ?_, fun k o h h' => ?_⟩, ?_⟩
  · cases hb : Map.get a.formats k with
    | some x =>
      have := g.formats k x hb
      rw [h] at this
      cases this
      obtain ⟨h1, cr, q, flag, h2, h3, h4⟩ := s.newF k f hb h'
      exact ⟨h1, cr, q, flag, h2, h3, g.fheap_get h4⟩
    | none =>
      revert h
      unfold Manager.getFormat
      split
      · intro h; rw [hb] at h; cases h
      · rename_i cr hcr
        split
        · intro h; rw [hb] at h; cases h
        · split
          · intro h; rw [hb] at h; cases h
          · rename_i flag hfl
            simp only [Map.get_set]
            split
            · rename_i e
              intro h
              rw [hn] at e
              subst e
              cases h
              obtain ⟨x, hx⟩ := s.grow.fheap
              exact ⟨by rw [hx]; simp, cr, _, flag, by rw [← s.grow.fmtCreators]; exact hcr, hfl, by simp⟩
            · intro h; rw [hb] at h; cases h
  · rw [hout] at h
    obtain ⟨h1, cr, q, x, h2, h3, h4, h5⟩ := s.newO k o h h'
    exact ⟨h1, cr, q, x, h2, h3, g.oheap_get h4, g.formats _ _ h5⟩
  · unfold FmtGood Manager.getFormat
    rw [s.grow.fmtCreators]
    split
    · rename_i h
      constructor
      · rintro ⟨f, h⟩; cases h
      · rintro ⟨cr, h1, _⟩; rw [h] at h1; cases h1
    · rename_i cr hcr
      rw [hn]
      split
      · rename_i f hf
        refine ⟨fun _ => ⟨cr, hcr, ?_⟩, fun _ => ⟨f, rfl⟩⟩
        cases hm : Map.get m.formats n with
        | some x => exact .inl (by simp)
        | none =>
          obtain ⟨_, cr', k, flag, h2, h3, _⟩ := s.newF n f hf hm
          rw [hcr] at h2; cases h2
          exact .inr ⟨k, flag, h3⟩
      · rename_i hnone
        have hm : Map.get m.formats n = none := by
          cases hm : Map.get m.formats n with
          | none => rfl
          | some x => rw [s.grow.formats _ _ hm] at hnone; cases hnone
        split
        · rename_i e he
          constructor
          · rintro ⟨f, h⟩; cases h
          · rintro ⟨cr', h1, h2 | ⟨k, flag, h2⟩⟩
            · exact absurd hm h2
            · rw [hcr] at h1; cases h1
              rw [st.1 _ _ hcr k a.calls, he] at h2; cases h2
        · rename_i flag hfl
          exact ⟨fun _ => ⟨cr, hcr, .inr ⟨_, flag, hfl⟩⟩, fun _ => ⟨_, rfl⟩⟩

theorem getOutput_since {m a : Manager} (st : Steady m) (s : Since m a) (n : Str) (hn : (m.config.getCfgOutput n).name = n) (f : Nat)
    (hf : Map.get a.formats (m.config.getCfgOutput n).formatName = some f) :
    Since m (a.getOutput (m.config.getCfgOutput n) f).2 ∧ ((∃ o, (a.getOutput (m.config.getCfgOutput n) f).1 = .ok o) ↔ OutGood m n) := by
  obtain ⟨g, i, _⟩ := getOutput_spec a s.inv (m.config.getCfgOutput n) f hf
  have hg := s.grow.trans g
  have hout : (a.getOutput (m.config.getCfgOutput n) f).2.formats = a.formats := by
    unfold Manager.getOutput
    repeat' split
    all_goals rfl
  refine ⟨⟨hg, i, fun k f' h h' => ?_, fun k o h h' => ?_⟩, ?_⟩
  · rw [hout] at h
    obtain ⟨h1, cr, q, flag, h2, h3, h4⟩ := s.newF k f' h h'
    exact ⟨h1, cr, q, flag, h2, h3, g.fheap_get h4⟩
  · cases hb : Map.get a.outputs k with
    | some x =>
      have := g.outputs k x hb
      rw [h] at this
      cases this
      obtain ⟨h1, cr, q, x, h2, h3, h4, h5⟩ := s.newO k o hb h'
      exact ⟨h1, cr, q, x, h2, h3, g.oheap_get h4, g.formats _ _ h5⟩
    | none =>
      rw [hout]
      revert h
      unfold Manager.getOutput
      split
      · intro h; rw [hb] at h; cases h
      · rename_i cr hcr
        split
        · intro h; rw [hb] at h; cases h
        · split
          · intro h; rw [hb] at h; cases h
          · rename_i hfl
            simp only [Map.get_set]
            split
            · rename_i e
              intro h
              rw [hn] at e
              subst e
              cases h
              exact ⟨s.grow.oheap_len, cr, _, f, by rw [← s.grow.outCreators]; exact hcr, hfl, by simp, hf⟩
            · intro h; rw [hb] at h; cases h
  · unfold OutGood Manager.getOutput
    rw [s.grow.outCreators]
    split
    · rename_i h
      constructor
      · rintro ⟨f, h⟩; cases h
      · rintro ⟨cr, h1, _⟩; rw [h] at h1; cases h1
    · rename_i cr hcr
      rw [hn]
      split
      · rename_i o ho
        refine ⟨fun _ => ⟨cr, hcr, ?_⟩, fun _ => ⟨o, rfl⟩⟩
        cases hm : Map.get m.outputs n with
        | some x => exact .inl (by simp)
        | none =>
          obtain ⟨_, cr', k, x, h2, h3, _⟩ := s.newO n o ho hm
          rw [hcr] at h2; cases h2
          exact .inr ⟨k, h3⟩
      · rename_i hnone
        have hm : Map.get m.outputs n = none := by
          cases hm : Map.get m.outputs n with
          | none => rfl
          | some x => rw [s.grow.outputs _ _ hm] at hnone; cases hnone
        split
        · rename_i e he
          constructor
          · rintro ⟨f, h⟩; cases h
          · rintro ⟨cr', h1, h2 | ⟨k, h2⟩⟩
            · exact absurd hm h2
            · rw [hcr] at h1; cases h1
              rw [st.2 _ _ hcr k a.calls, he] at h2; cases h2
        · rename_i hfl
          exact ⟨fun _ => ⟨cr, hcr, .inr ⟨_, hfl⟩⟩, fun _ => ⟨_, rfl⟩⟩

/-- The output `n` is there or can be made. -/
def OneGood (m : Manager) (n : Str) : Prop :=
  m.config.getCfgOutput n ≠ none ∧ m.config.getCfgFormat (m.config.getCfgOutput n).formatName ≠ none ∧ FmtGood m (m.config.getCfgOutput n).formatName ∧ OutGood m n

theorem one_since {m a : Manager} (st : Steady m) (s : Since m a) (n : Str) : Since m (a.one n).2 ∧ ((∃ o, (a.one n).1 = .ok o) ↔ OneGood m n) := by
  unfold Manager.one OneGood
  rw [s.grow.config]
  simp only
  split
  · rename_i h0
    exact ⟨s, ⟨(by rintro ⟨o, h⟩; cases h), fun h => absurd h0 h.1⟩⟩
  · rename_i ho
    split
    · rename_i h0
      exact ⟨s, ⟨(by rintro ⟨o, h⟩; cases h), fun h => absurd h0 h.2.1⟩⟩
    · rename_i hfc
      have hnf : (m.config.getCfgFormat (m.config.getCfgOutput n).formatName).name = (m.config.getCfgOutput n).formatName := getD_find_name _ _ hfc
      have hno : (m.config.getCfgOutput n).name = n := getD_find_name _ _ ho
      obtain ⟨s1, e1⟩ := getFormat_since st s _ hnf
      obtain ⟨_, _, hok, _⟩ := getFormat_spec a s.inv (m.config.getCfgFormat (m.config.getCfgOutput n).formatName)
      cases he : a.getFormat (m.config.getCfgFormat (m.config.getCfgOutput n).formatName) with
      | mk r m1 =>
        rw [he] at s1 e1 hok
        cases r with
        | error e =>
          refine ⟨s1, ⟨(by rintro ⟨o, h⟩; cases h), fun h => ?_⟩⟩
          obtain ⟨f, hf⟩ := e1.mpr h.2.2.1
          cases hf
        | ok f =>
          have hf : Map.get m1.formats (m.config.getCfgOutput n).formatName = some f := by rw [← hnf]; exact hok f rfl
          obtain ⟨s2, e2⟩ := getOutput_since st s1 n hno f hf
          exact ⟨s2, ⟨fun h => ⟨ho, hfc, e1.mp ⟨f, rfl⟩, e2.mp h⟩, fun h => e2.mpr h.2.2.2⟩⟩

theorem loop_since {m a : Manager} (st : Steady m) (s : Since m a) (ns : List Str) : Since m (a.loop ns).2 ∧ ((∃ os, (a.loop ns).1 = .ok os) ↔ ∀ n ∈ ns, OneGood m n) := by
  induction ns generalizing a with
  | nil => exact ⟨s, ⟨fun _ n hn => (by cases hn), fun _ => ⟨[], rfl⟩⟩⟩
  | cons n ns ih =>
    obtain ⟨s1, e1⟩ := one_since st s n
    simp only [Manager.loop]
    cases he : a.one n with
    | mk r m1 =>
      rw [he] at s1 e1
      cases r with
      | error e =>
        refine ⟨s1, ⟨(by rintro ⟨o, h⟩; cases h), fun h => ?_⟩⟩
        obtain ⟨o, ho⟩ := e1.mpr (h n (.head _))
        cases ho
      | ok o =>
        obtain ⟨s2, e2⟩ := ih s1
        simp only at s2 e2 ⊢
        cases he2 : m1.loop ns with
        | mk r2 m3 =>
          rw [he2] at s2 e2
          cases r2 with
          | error e =>
            refine ⟨s2, ⟨(by rintro ⟨o, h⟩; cases h), fun h => ?_⟩⟩
            obtain ⟨o, ho⟩ := e2.mpr fun k hk => h k (.tail _ hk)
            cases ho
          | ok os =>
            refine ⟨s2, ⟨fun _ k hk => ?_, fun _ => ⟨_, rfl⟩⟩⟩
            rcases List.mem_cons.mp hk with rfl | hk
            · exact e1.mp ⟨o, rfl⟩
            · exact e2.mp ⟨os, rfl⟩ k hk

/-- All outputs of the entry `lc` of the logger are there or can be made. -/
def EntryGood (m : Manager) (name : Str) (lc : CfgLogger) : Prop := m.config.getCfgLogger name = some lc ∧ ∀ n ∈ lc.outputNames, OneGood m n

theorem getLoggerOutputs_since {m a : Manager} (st : Steady m) (s : Since m a) (name : Str) :
    Since m (a.getLoggerOutputs name).2 ∧
    ((∃ e, (a.getLoggerOutputs name).1 = .error e) ∧ (∀ lc, ¬ EntryGood m name lc) ∨
     ∃ ops lc, (a.getLoggerOutputs name).1 = .ok (ops, Level.levelFrom lc.level) ∧ EntryGood m name lc ∧ Resolved (a.getLoggerOutputs name).2 lc.outputNames ops) := by
  obtain ⟨_, _, hok⟩ := getLoggerOutputs_spec a s.inv name
  revert hok
  unfold Manager.getLoggerOutputs EntryGood
  rw [s.grow.config]
  cases hl : m.config.getCfgLogger name with
  | none => exact fun _ => ⟨s, .inl ⟨⟨_, rfl⟩, fun lc h => nomatch h.1⟩⟩
  | some lc =>
    obtain ⟨s1, e1⟩ := loop_since st s lc.outputNames
    simp only
    cases he : a.loop lc.outputNames with
    | mk r m1 =>
      rw [he] at s1 e1
      cases r with
      | error e =>
        refine fun _ => ⟨s1, .inl ⟨⟨_, rfl⟩, fun lc' h => ?_⟩⟩
        obtain ⟨h1, h2⟩ := h
        cases h1
        obtain ⟨o, ho⟩ := e1.mpr h2
        cases ho
      | ok os =>
        intro hok
        obtain ⟨lc', h1, h2, h3⟩ := hok os _ rfl
        cases h1
        exact ⟨s1, .inr ⟨os, lc, rfl, ⟨rfl, e1.mp ⟨os, rfl⟩⟩, h3⟩⟩

/-- What becomes of the logger `l`: if its entry is good, it gets the level and the outputs of the entry, otherwise nothing changes. -/
def Becomes (m fin : Manager) (l l' : Logger) : Prop :=
  (∀ lc, ¬ EntryGood m l.name lc) ∧ l' = l ∨
  ∃ lc, EntryGood m l.name lc ∧ Resolved fin lc.outputNames l'.outputs ∧
    l' = { l with level := Level.levelFrom lc.level, outputs := l'.outputs, callerInfoFlag := raiseFlag fin l.callerInfoFlag l'.outputs }

theorem raiseFlag_grow {m m' : Manager} (g : Grow m m') (inv : MgrInv m) (flag : Int) (ops : List Nat) (h : ∀ o ∈ ops, o < m.oheap.length) :
    raiseFlag m' flag ops = raiseFlag m flag ops := by
  induction ops generalizing flag with
  | nil => rfl
  | cons o os ih =>
    simp only [raiseFlag]
    rw [g.outFlag inv (h o (.head _))]
    exact ih _ fun o ho => h o (.tail _ ho)

theorem Becomes.grow {m a b : Manager} {l l' : Logger} (h : Becomes m a l l') (g : Grow a b) (inv : MgrInv a) : Becomes m b l l' := by
  rcases h with h | ⟨lc, h1, h2, h3⟩
  · exact .inl h
  · refine .inr ⟨lc, h1, h2.grow g, ?_⟩
    rw [raiseFlag_grow g inv _ _ (h2.bound inv)]
    exact h3

theorem configure_since {m : Manager} {w : World} (st : Steady m) (s : Since m w.mgr) (r : Nat) {l : Logger} (hl : w.heap[r]? = some l) :
    Since m (w.configure r l.name).mgr ∧ ∃ l', (w.configure r l.name).heap[r]? = some l' ∧ Becomes m (w.configure r l.name).mgr l l' := by
  obtain ⟨s1, e1⟩ := getLoggerOutputs_since st s l.name
  unfold configure
  cases he : w.mgr.getLoggerOutputs l.name with
  | mk res m1 =>
    rw [he] at s1 e1
    rcases e1 with ⟨⟨e, h⟩, h2⟩ | ⟨ops, lc, h, h2, h3⟩
    · simp only at h
      subst h
      exact ⟨s1, l, hl, .inl ⟨h2, rfl⟩⟩
    · simp only at h
      subst h
      refine ⟨s1, { l with level := Level.levelFrom lc.level, outputs := ops, callerInfoFlag := raiseFlag m1 l.callerInfoFlag ops }, ?_, .inr ⟨lc, h2, h3, rfl⟩⟩
      simp only [setOutputs, setLevel, update_heap, if_true, hl, Option.map_some]
      rfl

theorem notify_since {m : Manager} {w : World} (st : Steady m) (s : Since m w.mgr) (inv : WInv w) (order : List Nat) : Since m (w.notify order).mgr ∧
    (∀ r, r ∉ order → (w.notify order).heap[r]? = w.heap[r]?) ∧
    (order.Nodup → ∀ r ∈ order, ∀ l, w.heap[r]? = some l → ∃ l', (w.notify order).heap[r]? = some l' ∧ Becomes m (w.notify order).mgr l l') := by
  induction order generalizing w with
  | nil => exact ⟨s, fun _ _ => rfl, fun _ r hr => by cases hr⟩
  | cons r rs ih =>
    simp only [notify]
    cases hl : w.heap[r]? with
    | none =>
      obtain ⟨a, b, c⟩ := ih s inv
      refine ⟨a, fun r' h => b r' fun hm => h (.tail _ hm), fun hn r' hr' l' hl' => ?_⟩
      rcases List.mem_cons.mp hr' with rfl | hr'
      · rw [hl] at hl'; cases hl'
      · exact c (List.nodup_cons.mp hn).2 r' hr' l' hl'
    | some l =>
      simp only
      have cs := configure_spec inv r l.name
      obtain ⟨s1, l1, h1, b1⟩ := configure_since st s r hl
      obtain ⟨a, b, c⟩ := ih s1 cs.inv
      have gr : Grow (w.configure r l.name).mgr ((w.configure r l.name).notify rs).mgr := (notify_spec cs.inv rs).2.2.1
      refine ⟨a, fun r' h => ?_, fun hn r' hr' l' hl' => ?_⟩
      · rw [b r' fun hm => h (.tail _ hm)]
        exact cs.other r' fun e => h (e ▸ .head _)
      · rcases List.mem_cons.mp hr' with rfl | hr'
        · rw [hl] at hl'
          cases hl'
          exact ⟨l1, by rw [b r' (List.nodup_cons.mp hn).1]; exact h1, b1.grow gr cs.inv.mgr⟩
        · exact c (List.nodup_cons.mp hn).2 r' hr' l' (by
            rw [cs.other r' fun e => (List.nodup_cons.mp hn).1 (e ▸ hr')]; exact hl')

/-- The same name stands for the same output, in whichever order things are made. -/
theorem same_out {m a b : Manager} (inv : MgrInv m) (st : Steady m) (sa : Since m a) (sb : Since m b) {n : Str} {o o' : Nat} (h : Map.get a.outputs n = some o)
    (h' : Map.get b.outputs n = some o') : SameOut m a b o o' := by
  cases hm : Map.get m.outputs n with
  | some x =>
    have h1 := sa.grow.outputs _ _ hm
    have h2 := sb.grow.outputs _ _ hm
    rw [h] at h1; rw [h'] at h2
    cases h1; cases h2
    obtain ⟨c, f, h3, _⟩ := inv.outOk _ _ hm
    exact .inl ⟨(List.getElem?_eq_some_iff.mp h3).1, rfl⟩
  | none =>
    obtain ⟨h1, _, _, g, _, _, h2, h3⟩ := sa.newO n o h hm
    obtain ⟨k1, _, _, g', _, _, k2, k3⟩ := sb.newO n o' h' hm
    refine .inr ⟨h1, k1, _, g, g', h2, k2, ?_⟩
    cases hf : Map.get m.formats (m.config.getCfgOutput n).formatName with
    | some x =>
      have e1 := sa.grow.formats _ _ hf
      have e2 := sb.grow.formats _ _ hf
      rw [h3] at e1; rw [k3] at e2
      cases e1; cases e2
      obtain ⟨fo, h4, _⟩ := inv.fmtOk _ _ hf
      exact .inl ⟨(List.getElem?_eq_some_iff.mp h4).1, rfl⟩
    | none =>
      obtain ⟨p1, cr, k, flag, p2, p3, p4⟩ := sa.newF _ _ h3 hf
      obtain ⟨q1, cr', k', flag', q2, q3, q4⟩ := sb.newF _ _ k3 hf
      rw [p2] at q2
      cases q2
      rw [st.1 _ _ p2 k k', q3] at p3
      cases p3
      exact .inr ⟨p1, q1, _, p4, q4⟩

theorem same_flag {m a b : Manager} (inv : MgrInv m) (ga : Grow m a) (gb : Grow m b) {o o' : Nat} (h : SameOut m a b o o') : b.outFlag o' = a.outFlag o := by
  rcases h with ⟨h, rfl⟩ | ⟨_, _, d, f, f', h1, h2, h3⟩
  · rw [ga.outFlag inv h, gb.outFlag inv h]
  · simp only [Manager.outFlag, h1, h2]
    rcases h3 with ⟨h3, rfl⟩ | ⟨_, _, fo, h4, h5⟩
    · have e : m.fheap[f]? = some m.fheap[f] := List.getElem?_eq_getElem h3
      rw [ga.fheap_get e, gb.fheap_get e]
    · rw [h4, h5]

theorem same_resolved {m a b : Manager} (inv : MgrInv m) (st : Steady m) (sa : Since m a) (sb : Since m b) {ns : List Str} {os os' : List Nat} (h : Resolved a ns os) (h' : Resolved b ns os') :
    os'.length = os.length ∧ (∀ flag, raiseFlag b flag os' = raiseFlag a flag os) ∧ ∀ (i : Nat) o o', os[i]? = some o → os'[i]? = some o' → SameOut m a b o o' := by
  unfold Resolved at h h'
  induction ns generalizing os os' with
  | nil =>
    cases os with
    | cons => cases h
    | nil =>
      cases os' with
      | cons => cases h'
      | nil => exact ⟨rfl, fun _ => rfl, fun i o o' h => by simp at h⟩
  | cons n ns ih =>
    cases os with
    | nil => cases h
    | cons x xs =>
      cases os' with
      | nil => cases h'
      | cons y ys =>
        simp only [List.map_cons, List.cons.injEq] at h h'
        have e := same_out inv st sa sb h.1 h'.1
        obtain ⟨i1, i2, i3⟩ := ih h.2 h'.2
        refine ⟨by simp [i1], fun flag => ?_, fun i o o' => ?_⟩
        · simp only [raiseFlag]
          rw [same_flag inv sa.grow sb.grow e]
          exact i2 _
        · cases i with
          | zero =>
            simp only [List.getElem?_cons_zero, Option.some.injEq]
            rintro rfl rfl
            exact e
          | succ i =>
            simp only [List.getElem?_cons_succ]
            exact i3 i o o'

end Log4g
