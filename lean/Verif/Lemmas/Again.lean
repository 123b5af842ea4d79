import Verif.Spec.Again
import Verif.Lemmas.World

/-! # Setting a configuration again -/

namespace Log4g
open Spec World

/-- The manager later on: what is new was made by creators that accept it. -/
structure Later (m m' : Manager) : Prop where
  grow : Grow m m'
  newF : ∀ n f, Map.get m'.formats n = some f → Map.get m.formats n = none →
    ∃ cr, Map.get m.fmtCreators (m.config.getCfgFormat n).type = some cr ∧ ∃ k flag, cr k (m.config.getCfgFormat n) = .ok flag
  newO : ∀ n o, Map.get m'.outputs n = some o → Map.get m.outputs n = none →
    ∃ cr, Map.get m.outCreators (m.config.getCfgOutput n).type = some cr ∧ ∃ k, cr k (m.config.getCfgOutput n) = .ok ()

theorem Later.refl (m : Manager) : Later m m :=
  ⟨.refl m, fun n f h h' => (nomatch h.symm.trans h'), fun n o h h' => (nomatch h.symm.trans h')⟩

theorem Later.trans {a b c : Manager} (h : Later a b) (h' : Later b c) : Later a c where
  grow := h.grow.trans h'.grow
  newF n f h1 h2 := by
    cases hb : Map.get b.formats n with
    | some x => exact h.newF n x hb h2
    | none => rw [← h.grow.fmtCreators, ← h.grow.config]; exact h'.newF n f h1 hb
  newO n f h1 h2 := by
    cases hb : Map.get b.outputs n with
    | some x => exact h.newO n x hb h2
    | none => rw [← h.grow.outCreators, ← h.grow.config]; exact h'.newO n f h1 hb

/-- The same manager but for the number of calls of creators. -/
def recount (m : Manager) (n : Nat) : Manager := { m with calls := n }

theorem Later.recount {a b : Manager} (h : Later a b) (n : Nat) : Later a (recount b n) :=
  ⟨⟨h.grow.config, h.grow.fmtCreators, h.grow.outCreators, h.grow.formats, h.grow.outputs, h.grow.fheap, h.grow.oheap⟩, h.newF, h.newO⟩

theorem steady_grow {m m' : Manager} (h : Steady m) (g : Grow m m') : Steady m' := by
  unfold Steady
  rw [g.fmtCreators, g.outCreators]
  exact h

theorem getFormat_later (m : Manager) (inv : MgrInv m) (n : Str) (hn : (m.config.getCfgFormat n).name = n) : Later m (m.getFormat (m.config.getCfgFormat n)).2 := by
  refine ⟨(getFormat_spec m inv _).1, fun k f h h' => ?_, fun k o h h' => ?_⟩
  · unfold Manager.getFormat at h
    split at h
    · rw [h'] at h; cases h
    · rename_i cr hcr
      split at h
      · rw [h'] at h; cases h
      · split at h
        · rw [h'] at h; cases h
        · rename_i flag hfl
          simp only [Map.get_set] at h
          split at h
          · rename_i e
            rw [hn] at e
            subst e
            exact ⟨cr, hcr, _, flag, hfl⟩
          · rw [h'] at h; cases h
  · have : (m.getFormat (m.config.getCfgFormat n)).2.outputs = m.outputs := by
      unfold Manager.getFormat
      repeat' split
      all_goals rfl
    rw [this, h'] at h; cases h

theorem getOutput_later (m : Manager) (inv : MgrInv m) (n : Str) (hn : (m.config.getCfgOutput n).name = n) (f : Nat)
    (hf : Map.get m.formats (m.config.getCfgOutput n).formatName = some f) : Later m (m.getOutput (m.config.getCfgOutput n) f).2 := by
  refine ⟨(getOutput_spec m inv _ f hf).1, fun k f' h h' => ?_, fun k o h h' => ?_⟩
  · have : (m.getOutput (m.config.getCfgOutput n) f).2.formats = m.formats := by
      unfold Manager.getOutput
      repeat' split
      all_goals rfl
    rw [this, h'] at h; cases h
  · unfold Manager.getOutput at h
    split at h
    · rw [h'] at h; cases h
    · rename_i cr hcr
      split at h
      · rw [h'] at h; cases h
      · split at h
        · rw [h'] at h; cases h
        · rename_i hfl
          simp only [Map.get_set] at h
          split at h
          · rename_i e
            rw [hn] at e
            subst e
            exact ⟨cr, hcr, _, hfl⟩
          · rw [h'] at h; cases h

/-- Asking for a format again. -/
theorem getFormat_again {m m2 : Manager} (st : Steady m) (n : Str) (hn : (m.config.getCfgFormat n).name = n)
    (h : Later (m.getFormat (m.config.getCfgFormat n)).2 m2) (inv : MgrInv m) :
    ∃ k, m2.getFormat (m.config.getCfgFormat n) = ((m.getFormat (m.config.getCfgFormat n)).1, recount m2 k) := by
  have g := (getFormat_spec m inv (m.config.getCfgFormat n)).1.trans h.grow
  have hok := (getFormat_spec m inv (m.config.getCfgFormat n)).2.2.1
  have hcr := g.fmtCreators
  revert h hok
  unfold Manager.getFormat
  rw [hcr]
  split
  · intro _ _; exact ⟨_, rfl⟩
  · rename_i cr hc
    split
    · rename_i f hf
      intro _ _
      rw [g.formats _ _ hf]
      exact ⟨_, rfl⟩
    · rename_i hnone
      split
      · rename_i e he
        intro h _
        have : Map.get m2.formats (m.config.getCfgFormat n).name = none := by
          cases h2 : Map.get m2.formats (m.config.getCfgFormat n).name with
          | none => rfl
          | some x =>
            exfalso
            obtain ⟨cr', h3, k, flag, h4⟩ := h.newF _ _ h2 hnone
            simp only [hn] at h3 h4
            rw [hc] at h3; cases h3
            rw [st.1 _ _ hc k m.calls] at h4
            rw [h4] at he; cases he
        rw [this]
        simp only
        rw [st.1 _ _ hc m2.calls m.calls, he]
        exact ⟨m2.calls + 1, by rw [← hcr]; rfl⟩
      · rename_i flag hfl
        intro h hok
        rw [h.grow.formats _ _ (hok _ rfl)]
        exact ⟨_, rfl⟩

theorem getOutput_again {m m2 : Manager} (st : Steady m) (n : Str) (hn : (m.config.getCfgOutput n).name = n) (f : Nat)
    (hf : Map.get m.formats (m.config.getCfgOutput n).formatName = some f)
    (h : Later (m.getOutput (m.config.getCfgOutput n) f).2 m2) (inv : MgrInv m) :
    ∃ k, m2.getOutput (m.config.getCfgOutput n) f = ((m.getOutput (m.config.getCfgOutput n) f).1, recount m2 k) := by
  have g := (getOutput_spec m inv _ f hf).1.trans h.grow
  have hok := (getOutput_spec m inv _ f hf).2.2
  have hcr := g.outCreators
  revert h hok
  unfold Manager.getOutput
  rw [hcr]
  split
  · intro _ _; exact ⟨_, rfl⟩
  · rename_i cr hc
    split
    · rename_i o ho
      intro _ _
      rw [g.outputs _ _ ho]
      exact ⟨_, rfl⟩
    · rename_i hnone
      split
      · rename_i e he
        intro h _
        have : Map.get m2.outputs (m.config.getCfgOutput n).name = none := by
          cases h2 : Map.get m2.outputs (m.config.getCfgOutput n).name with
          | none => rfl
          | some x =>
            exfalso
            obtain ⟨cr', h3, k, h4⟩ := h.newO _ _ h2 hnone
            simp only [hn] at h3 h4
            rw [hc] at h3; cases h3
            rw [st.2 _ _ hc k m.calls] at h4
            rw [h4] at he; cases he
        rw [this]
        simp only
        rw [st.2 _ _ hc m2.calls m.calls, he]
        exact ⟨m2.calls + 1, by rw [← hcr]; rfl⟩
      · rename_i hfl
        intro h hok
        rw [h.grow.outputs _ _ (hok _ rfl)]
        exact ⟨_, rfl⟩

/-- One round of the loop, and the same round later. -/
theorem one_again {m : Manager} (st : Steady m) (inv : MgrInv m) (n : Str) : Later m (m.one n).2 ∧
    ∀ m2, Later (m.one n).2 m2 → ∃ k, m2.one n = ((m.one n).1, recount m2 k) := by
  have key : ∀ m2, Later (m.one n).2 m2 → m2.config = m.config := fun m2 h => (h.grow.config).trans (one_spec m inv n).1.config
  revert key
  unfold Manager.one
  simp only
  split
  · rename_i h0
    intro key
    refine ⟨.refl m, fun m2 h => ?_⟩
    rw [key m2 h, if_pos h0]
    exact ⟨_, rfl⟩
  · rename_i ho
    split
    · rename_i h0
      intro key
      refine ⟨.refl m, fun m2 h => ?_⟩
      rw [key m2 h, if_neg ho, if_pos h0]
      exact ⟨_, rfl⟩
    · rename_i hfc
      have hnf : (m.config.getCfgFormat (m.config.getCfgOutput n).formatName).name = (m.config.getCfgOutput n).formatName := getD_find_name _ _ hfc
      have hno : (m.config.getCfgOutput n).name = n := getD_find_name _ _ ho
      have l1 := getFormat_later m inv _ hnf
      have ag := @getFormat_again m
      obtain ⟨g, i, hok, _⟩ := getFormat_spec m inv (m.config.getCfgFormat (m.config.getCfgOutput n).formatName)
      cases he : m.getFormat (m.config.getCfgFormat (m.config.getCfgOutput n).formatName) with
      | mk r m1 =>
        rw [he] at l1 g i hok
        cases r with
        | error e =>
          intro key
          refine ⟨l1, fun m2 h => ?_⟩
          obtain ⟨k, hk⟩ := ag (m2 := m2) st _ hnf (by rw [he]; exact h) inv
          rw [key m2 h, if_neg ho, if_neg hfc, hk, he]
          exact ⟨_, rfl⟩
        | ok f =>
          intro key
          have hf : Map.get m1.formats (m1.config.getCfgOutput n).formatName = some f := by
            rw [g.config, ← hnf]; exact hok f rfl
          have l2 := getOutput_later m1 i n (by rw [g.config]; exact hno) f hf
          have ag2 := fun m2 h => @getOutput_again m1 m2 (steady_grow st g) n (by rw [g.config]; exact hno) f hf h i
          rw [g.config] at l2 ag2
          refine ⟨l1.trans l2, fun m2 h => ?_⟩
          obtain ⟨k, hk⟩ := ag (m2 := m2) st _ hnf (by rw [he]; exact l2.trans h) inv
          rw [key m2 h, if_neg ho, if_neg hfc, hk, he]
          obtain ⟨k', hk'⟩ := ag2 (recount m2 k) (h.recount k)
          exact ⟨k', hk'⟩

theorem loop_again {m : Manager} (st : Steady m) (inv : MgrInv m) (ns : List Str) : Later m (m.loop ns).2 ∧
    ∀ m2, Later (m.loop ns).2 m2 → ∃ k, m2.loop ns = ((m.loop ns).1, recount m2 k) := by
  induction ns generalizing m with
  | nil => exact ⟨.refl m, fun m2 _ => ⟨m2.calls, rfl⟩⟩
  | cons n ns ih =>
    obtain ⟨l1, a1⟩ := one_again st inv n
    obtain ⟨g, i, _⟩ := one_spec m inv n
    simp only [Manager.loop]
    cases he : m.one n with
    | mk r m1 =>
      rw [he] at l1 a1 g i
      cases r with
      | error e =>
        refine ⟨l1, fun m2 h => ?_⟩
        obtain ⟨k, hk⟩ := a1 m2 h
        rw [hk]
        exact ⟨k, rfl⟩
      | ok o =>
        obtain ⟨l2, a2⟩ := ih (steady_grow st g) i
        simp only at l1 a1 l2 a2 ⊢
        cases he2 : m1.loop ns with
        | mk r2 m3 =>
          rw [he2] at l2 a2
          cases r2 with
          | error e =>
            refine ⟨l1.trans l2, fun m2 h => ?_⟩
            obtain ⟨k, hk⟩ := a1 m2 (l2.trans h)
            obtain ⟨k', hk'⟩ := a2 (recount m2 k) (h.recount k)
            rw [hk]
            simp only
            rw [hk']
            exact ⟨k', rfl⟩
          | ok os =>
            refine ⟨l1.trans l2, fun m2 h => ?_⟩
            obtain ⟨k, hk⟩ := a1 m2 (l2.trans h)
            obtain ⟨k', hk'⟩ := a2 (recount m2 k) (h.recount k)
            rw [hk]
            simp only
            rw [hk']
            exact ⟨k', rfl⟩

theorem getLoggerOutputs_again {m : Manager} (st : Steady m) (inv : MgrInv m) (n : Str) : Later m (m.getLoggerOutputs n).2 ∧
    ∀ m2, Later (m.getLoggerOutputs n).2 m2 → ∃ k, m2.getLoggerOutputs n = ((m.getLoggerOutputs n).1, recount m2 k) := by
  have key : ∀ m2, Later (m.getLoggerOutputs n).2 m2 → m2.config = m.config := fun m2 h => (h.grow.config).trans (getLoggerOutputs_spec m inv n).1.config
  revert key
  unfold Manager.getLoggerOutputs
  cases hl : m.config.getCfgLogger n with
  | none =>
    intro key
    refine ⟨.refl m, fun m2 h => ?_⟩
    rw [key m2 h, hl]
    exact ⟨_, rfl⟩
  | some lc =>
    obtain ⟨l1, a1⟩ := loop_again st inv lc.outputNames
    simp only
    cases he : m.loop lc.outputNames with
    | mk r m1 =>
      rw [he] at l1 a1
      cases r with
      | error e =>
        intro key
        refine ⟨l1, fun m2 h => ?_⟩
        obtain ⟨k, hk⟩ := a1 m2 h
        rw [key m2 h, hl]
        simp only
        rw [hk]
        exact ⟨k, rfl⟩
      | ok os =>
        intro key
        refine ⟨l1, fun m2 h => ?_⟩
        obtain ⟨k, hk⟩ := a1 m2 h
        rw [key m2 h, hl]
        simp only
        rw [hk]
        exact ⟨k, rfl⟩

/-- The same world but for the number of calls of creators. -/
def wrecount (w : World) (n : Nat) : World := { w with mgr := recount w.mgr n }

theorem wrecount_inv {w : World} (inv : WInv w) (n : Nat) : WInv (wrecount w n) :=
  (mgr_inv inv (m := recount w.mgr n) ⟨inv.mgr.fmtOk, inv.mgr.outOk, inv.mgr.managed, inv.mgr.fmtRef, inv.mgr.nodup⟩ ⟨[], by simp [recount]⟩ (fun _ _ => rfl)
    ⟨[], by simp [recount]⟩ (fun _ _ h => h) (fun _ _ h => h)).1

theorem raiseFlag_le (m : Manager) (flag : Int) (ops : List Nat) (h : ∀ o ∈ ops, m.outFlag o ≤ flag) : raiseFlag m flag ops = flag := by
  rcases raiseFlag_from m flag ops with e | ⟨o, ho, e⟩
  · exact e
  · have := h o ho
    have := (raiseFlag_ge m flag ops).1
    omega

/-- A list is as it was when an element is replaced with itself. -/
theorem modify_self {l : List Logger} {r : Nat} {f : Logger → Logger} (h : ∀ x, l[r]? = some x → f x = x) : l.modify r f = l := by
  apply List.ext_getElem?
  intro i
  rw [get_modify]
  split
  · rename_i e
    subst e
    cases hx : l[r]? with
    | none => rfl
    | some x => simp [h x hx]
  · rfl

/-- Configuring a logger again. -/
theorem configure_again {w : World} (inv : WInv w) (st : Steady w.mgr) (r : Nat) (name : Str) : Later w.mgr (w.configure r name).mgr ∧
    ∀ w2, WInv w2 → Later (w.configure r name).mgr w2.mgr → w2.heap[r]? = (w.configure r name).heap[r]? → ∃ k, w2.configure r name = wrecount w2 k := by
  obtain ⟨l1, a1⟩ := getLoggerOutputs_again st inv.mgr name
  unfold configure
  cases he : w.mgr.getLoggerOutputs name with
  | mk res m1 =>
    rw [he] at l1 a1
    cases res with
    | error e =>
      refine ⟨l1, fun w2 i2 h _ => ?_⟩
      obtain ⟨k, hk⟩ := a1 w2.mgr h
      rw [hk]
      exact ⟨k, rfl⟩
    | ok p =>
      obtain ⟨ops, lvl⟩ := p
      refine ⟨l1, fun w2 i2 h hh => ?_⟩
      obtain ⟨k, hk⟩ := a1 w2.mgr h
      rw [hk]
      refine ⟨k, ?_⟩
      simp only
      simp only [setOutputs, setLevel, update_heap, if_true] at hh
      have hl : ∀ x, w2.heap[r]? = some x → x.level = lvl ∧ x.outputs = ops := by
        intro x hx
        rw [hx] at hh
        cases hw : w.heap[r]? with
        | none => rw [hw] at hh; cases hh
        | some y =>
          rw [hw] at hh
          simp only [Option.map_some, Option.some.injEq] at hh
          subst hh
          exact ⟨rfl, rfl⟩
      have e1 : ({ w2 with mgr := recount w2.mgr k } : World).setLevel r lvl = wrecount w2 k := by
        simp only [setLevel, update, wrecount]
        rw [modify_self fun x hx => by rw [← (hl x hx).1]]
      rw [e1]
      simp only [setOutputs, update]
      have : (wrecount w2 k).heap.modify r (fun l => { l with outputs := ops, callerInfoFlag := raiseFlag (wrecount w2 k).mgr l.callerInfoFlag ops }) = (wrecount w2 k).heap := by
        refine modify_self fun x hx => ?_
        have hx' : w2.heap[r]? = some x := hx
        rw [raiseFlag_le _ _ _ (by
          rw [← (hl x hx').2]
          exact (wrecount_inv i2 k).flags r x hx), ← (hl x hx').2]
      rw [this]

/-- What is left of the configuration of a logger at the end of `notify`. -/
def SettledAt (w : World) (r : Nat) : Prop :=
  ∀ l, w.heap[r]? = some l → ∀ w2, WInv w2 → Later w.mgr w2.mgr → w2.heap[r]? = w.heap[r]? → ∃ k, w2.configure r l.name = wrecount w2 k

theorem notify_later {w : World} (inv : WInv w) (st : Steady w.mgr) (order : List Nat) : Later w.mgr (w.notify order).mgr ∧
    (∀ r, r ∉ order → (w.notify order).heap[r]? = w.heap[r]?) ∧ (order.Nodup → ∀ r ∈ order, SettledAt (w.notify order) r) := by
  induction order generalizing w with
  | nil => exact ⟨.refl _, fun _ _ => rfl, fun _ r hr => by cases hr⟩
  | cons r rs ih =>
    simp only [notify]
    cases hl : w.heap[r]? with
    | none =>
      obtain ⟨a, b, c⟩ := ih inv st
      refine ⟨a, fun r' h => b r' fun hm => h (.tail _ hm), fun hn r' hr' => ?_⟩
      rcases List.mem_cons.mp hr' with rfl | hr'
      · intro l hl'
        rw [b r' (List.nodup_cons.mp hn).1, hl] at hl'
        cases hl'
      · exact c (List.nodup_cons.mp hn).2 r' hr'
    | some l =>
      simp only
      have cs := configure_spec inv r l.name
      obtain ⟨l1, ag⟩ := configure_again inv st r l.name
      obtain ⟨a, b, c⟩ := ih cs.inv (steady_grow st cs.grow)
      refine ⟨l1.trans a, fun r' h => ?_, fun hn r' hr' => ?_⟩
      · rw [b r' fun hm => h (.tail _ hm)]
        exact cs.other r' fun e => h (e ▸ .head _)
      · rcases List.mem_cons.mp hr' with rfl | hr'
        · have hb := b r' (List.nodup_cons.mp hn).1
          intro l' hl' w2 i2 h2 h3
          obtain ⟨l2, h4, h5, _⟩ := cs.ext.heap r' l hl
          rw [hb, h4] at hl'
          cases hl'
          rw [h5]
          exact ag w2 i2 (a.trans h2) (h3.trans hb)
        · exact c (List.nodup_cons.mp hn).2 r' hr'

theorem notify_settled {w : World} (inv : WInv w) (order : List Nat) (h : ∀ r ∈ order, SettledAt w r) (n : Nat) :
    ∃ k, (wrecount w n).notify order = wrecount w k := by
  induction order generalizing n with
  | nil => exact ⟨n, rfl⟩
  | cons r rs ih =>
    simp only [notify]
    have hh : (wrecount w n).heap = w.heap := rfl
    rw [hh]
    cases hl : w.heap[r]? with
    | none => exact ih (fun r' hr' => h r' (.tail _ hr')) n
    | some l =>
      obtain ⟨k, hk⟩ := h r (.head _) l hl (wrecount w n) (wrecount_inv inv n) ((Later.refl w.mgr).recount n) rfl
      simp only
      rw [hk]
      exact ih (fun r' hr' => h r' (.tail _ hr')) k

end Log4g
