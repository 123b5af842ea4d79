import Verif.Lemmas.MachineSync

/-! # Programs and their files: closing -/

namespace Log4g
open Spec Strconv
open scoped List
variable {V : Type} {env : PEnv V} {host : Host}

theorem waited_act {cfg : ACfg V} {s s' : AState V} {l : ALab V} (h : AAct cfg s l s') (hw : Waited s') : Waited s ∨ (∃ t, l = .waited t) ∧ s.wait = 0 ∧ s'.worker = s.worker := by
  have keep : ∀ {s1 : AState V} {t : Nat} {y : Thread V}, s1.th = s.th → s1.closed = s.closed → y.pc ≠ .storing → y.pc ≠ .closing →
      Waited (s1.set t y) → Waited s := by
    rintro s1 t y e1 e2 h1 h2 (⟨u, hu⟩ | hu)
    · rw [set_th] at hu
      split at hu
      · rcases hu with hu | hu
        · exact absurd hu h1
        · exact absurd hu h2
      · rw [e1] at hu; exact .inl ⟨u, hu⟩
    · have hu : s1.closed = true := hu
      rw [e2] at hu; exact .inr hu
  cases h with
  | sendStart _ _ => exact .inl (keep rfl rfl (by simp) (by simp) hw)
  | sendSkip _ _ => exact .inl (keep rfl rfl (by simp) (by simp) hw)
  | sendQueue _ _ _ => exact .inl (keep rfl rfl (by simp) (by simp) hw)
  | closeStart _ _ => exact .inl (keep rfl rfl (by simp) (by simp) hw)
  | closeSkip _ _ => exact .inl (keep rfl rfl (by simp) (by simp) hw)
  | closeRequest _ _ _ => exact .inl (keep rfl rfl (by simp) (by simp) hw)
  | closeWait _ h0 => exact .inr ⟨⟨_, rfl⟩, h0, rfl⟩
  | @closeStore t cs e => exact .inl (.inl ⟨t, .inl (by rw [e])⟩)
  | closeChan _ _ => exact .inl (keep rfl rfl (by simp) (by simp) hw)
  | takeEvent _ _ _ =>
    obtain ⟨_, _, _, k1, k2, k3, _⟩ := handle_same cfg _ ({ s with chan := _ } : AState V) _
    unfold Waited at hw
    rw [k1, k3] at hw
    exact .inl hw
  | _ => exact .inl hw

theorem worker_act {cfg : ACfg V} {s s' : AState V} {l : ALab V} (h : AAct cfg s l s') :
    (s.worker ≠ .starting → s'.worker ≠ .starting) ∧ (s.worker = .stopped → s'.worker = .stopped) := by
  cases h with
  | begin _ => exact ⟨by simp, fun k => by simp_all⟩
  | takeNil hw _ => exact ⟨by simp, by simp⟩
  | takeClosed hw _ _ => exact ⟨by simp, by simp⟩
  | @takeEvent e rest f hw _ _ =>
    obtain ⟨_, k0, _⟩ := handle_same cfg f ({ s with chan := rest } : AState V) e
    rw [k0]
    exact ⟨id, id⟩
  | _ => exact ⟨id, id⟩

/-- A step of the program, as the output sees it. -/
theorem waited_step {s s' : PState V} {l : PLab V} (h : PAct env s l s') (o : Nat) :
    ((s.a o).worker ≠ .starting → (s'.a o).worker ≠ .starting) ∧ ((s.a o).worker = .stopped → (s'.a o).worker = .stopped) ∧
    (Waited (s'.a o) → Waited (s.a o) ∨ (∃ t, l = .out o (.waited t)) ∧ s.w.asyncOf env o ≠ none ∧ (s.a o).wait = 0 ∧ (s'.a o).worker = (s.a o).worker) := by
  cases h with
  | @enter t k p c rest cfg ht hc =>
    show _ ∧ _ ∧ (Waited ((s.setOut p ((s.a p).push t c)).a o) → _)
    have e : ∀ x : AState V, (x.push t c).worker = x.worker ∧ (Waited (x.push t c) → Waited x) := by
      intro x
      refine ⟨rfl, ?_⟩
      rintro (⟨u, hu⟩ | hu)
      · refine .inl ⟨u, ?_⟩
        unfold AState.push at hu
        rw [set_th] at hu
        split at hu
        · rename_i e; subst e; exact hu
        · exact hu
      · exact .inr hu
    refine ⟨fun k => ?_, fun k => ?_, fun k => ?_⟩
    · show ((s.setOut p ((s.a p).push t c)).a o).worker ≠ _
      rw [setOut_a]
      split
      · rename_i h; subst h; exact k
      · exact k
    · show ((s.setOut p ((s.a p).push t c)).a o).worker = _
      rw [setOut_a]
      split
      · rename_i h; subst h; exact k
      · exact k
    · rw [setOut_a] at k
      split at k
      · rename_i h; subst h; exact .inl ((e _).2 k)
      · exact .inl k
  | @out p a x cfg hc hx =>
    show (_ → ((s.setOut p x).a o).worker ≠ _) ∧ (_ → ((s.setOut p x).a o).worker = _) ∧ (Waited ((s.setOut p x).a o) → _ ∨ (_ ∧ _ ∧ _ ∧ ((s.setOut p x).a o).worker = _))
    rw [setOut_a]
    by_cases e : o = p
    · subst e
      rw [if_pos rfl]
      refine ⟨(worker_act hx.2).1, (worker_act hx.2).2, fun k => ?_⟩
      rcases waited_act hx.2 k with k | ⟨⟨t, rfl⟩, k1, k2⟩
      · exact .inl k
      · exact .inr ⟨⟨t, rfl⟩, by rw [hc]; simp, k1, k2⟩
    · rw [if_neg e]; exact ⟨id, id, .inl⟩
  | _ => exact ⟨id, id, .inl⟩

/-- What holds of output `o` from a moment on at which its worker has begun and no `Close` has waited for it. -/
def Rests (o : Nat) (m : Machine V) : Prop :=
  (m.p.a o).worker ≠ .starting ∧ (Waited (m.p.a o) → (m.p.a o).worker = .stopped ∧ (m.wr o).job = none)

theorem rests_step {up : Nat → Bool} {v0 : Nat → Volume} {tr : List (MLab V)} {m m' : Machine V} {l : MLab V} (inv : MInv env host up v0 tr m) {o : Nat} (h : Rests o m)
    (hs : MStep env host m l m') : Rests o m' := by
  obtain ⟨h1, h2⟩ := h
  have pinv := pexec_inv inv.prog
  have key : ∀ {l : PLab V} {p : PState V}, PStep env m.p l p → m.lets l → Waited (p.a o) → (p.a o).worker = .stopped ∧ (m.wr o).job = none ∧ (m.p.a o).worker = .stopped := by
    intro l p hp hl hw
    obtain ⟨_, k2, k3⟩ := waited_step hp.2 o
    rcases k3 hw with k | ⟨⟨t, rfl⟩, ka, k0, kw⟩
    · exact ⟨k2 (h2 k).1, (h2 k).2, (h2 k).1⟩
    · cases hc : m.p.w.asyncOf env o with
      | none => exact absurd hc ka
      | some cfg =>
        have ai := aexec_inv (pinv.proj o cfg hc) (pinv.sound hp.1 o)
        have : (m.p.a o).worker = .stopped := by
          have := ai.wait
          rw [k0] at this
          cases hw' : (m.p.a o).worker with
          | starting => exact absurd hw' h1
          | running => simp [hw'] at this
          | stopped => rfl
        exact ⟨by rw [kw]; exact this, hl.2, this⟩
  cases hs with
  | prog hp hl hg =>
    refine ⟨(waited_step hp.2 o).1 h1, fun hw => ?_⟩
    obtain ⟨k1, k2, _⟩ := key hp hl hw
    exact ⟨k1, k2⟩
  | @write l p q c bs hp hl ho hg hg' hj =>
    refine ⟨(waited_step hp.2 o).1 h1, fun hw => ?_⟩
    obtain ⟨k1, k2, k3⟩ := key hp hl hw
    refine ⟨k1, ?_⟩
    simp only [Machine.setWr]
    by_cases e : o = q
    · subst e
      rcases given_step inv.prog hp o with new | ⟨t, e, stack, rfl, hwd, hc, hcall, new⟩ | ⟨a, cfg, bs', rfl, ha, hwd, hc, hrun, _⟩
      · rw [new] at hg; simp at hg
      · -- a synchronous output has no worker
        exact absurd (show (m.p.a o).worker = .starting by rw [(pinv.none o hc).2.1]; rfl) h1
      · rw [k3] at hrun; cases hrun
    · rw [if_neg e]; exact k2
  | @sys q c msg op k r v' h' hp ho hj hv =>
    refine ⟨h1, fun hw => ⟨(h2 hw).1, ?_⟩⟩
    simp only [Machine.setWr]
    by_cases e : o = q
    · subst e; rw [(h2 hw).2] at hj; cases hj
    · rw [if_neg e]; exact (h2 hw).2
  | @done q c msg res rw' hp ho hj =>
    refine ⟨h1, fun hw => ⟨(h2 hw).1, ?_⟩⟩
    simp only [Machine.setWr]
    by_cases e : o = q
    · rw [if_pos e]
    · rw [if_neg e]; exact (h2 hw).2

theorem rests_exec {up : Nat → Bool} {v0 : Nat → Volume} {tr tr' : List (MLab V)} {m m' : Machine V} (hx : MExec env host (newMachine up v0) tr m) {o : Nat} (h : Rests o m)
    (hx' : MExec env host m tr' m') : Rests o m' ∧ MExec env host (newMachine up v0) (tr ++ tr') m' := by
  induction hx' with
  | nil => exact ⟨h, by simpa using hx⟩
  | snoc _ hs ih =>
    obtain ⟨i1, i2⟩ := ih
    exact ⟨rests_step (mexec_inv i2) i1 hs, by rw [← List.append_assoc]; exact i2.snoc hs⟩

theorem MExec.split {m m'' : Machine V} {a b : List (MLab V)} (h : MExec env host m (a ++ b) m'') : ∃ m', MExec env host m a m' ∧ MExec env host m' b m'' := by
  generalize e : a ++ b = t at h
  induction h generalizing a b with
  | nil =>
    obtain ⟨rfl, rfl⟩ := List.append_eq_nil_iff.mp e
    exact ⟨_, .nil, .nil⟩
  | @snoc tr m1 l m2 h1 h2 ih =>
    rcases List.eq_nil_or_concat b with rfl | ⟨b', x, rfl⟩
    · rw [List.append_nil] at e; subst e
      exact ⟨_, h1.snoc h2, .nil⟩
    · rw [List.concat_eq_append, ← List.append_assoc] at e
      obtain ⟨e1, e2⟩ := List.append_inj' e rfl
      cases e2
      obtain ⟨m', k1, k2⟩ := ih e1
      exact ⟨m', k1, by rw [List.concat_eq_append]; exact k2.snoc h2⟩

/-- Cutting the program's run cuts that of the machine. -/
theorem progOf_split : ∀ {tr : List (MLab V)} {a b : List (PLab V)}, progOf tr = a ++ b → ∃ t1 t2, tr = t1 ++ t2 ∧ progOf t1 = a ∧ progOf t2 = b
  | [], a, b, h => by
    have h : [] = a ++ b := h
    obtain ⟨rfl, rfl⟩ := List.append_eq_nil_iff.mp h.symm
    exact ⟨[], [], rfl, rfl, rfl⟩
  | l :: tr, a, b, h => by
    have one : ∀ x : PLab V, progOf [l] = [x] → ∃ t1 t2, l :: tr = t1 ++ t2 ∧ progOf t1 = a ∧ progOf t2 = b := by
      intro x hx
      rw [show l :: tr = [l] ++ tr from rfl, progOf_append, hx] at h
      cases a with
      | nil => exact ⟨[], l :: tr, rfl, rfl, by rw [show l :: tr = [l] ++ tr from rfl, progOf_append, hx]; exact h⟩
      | cons y a =>
        simp only [List.cons_append, List.nil_append, List.cons.injEq] at h
        obtain ⟨rfl, h⟩ := h
        obtain ⟨t1, t2, rfl, h1, h2⟩ := progOf_split h
        exact ⟨l :: t1, t2, rfl, by rw [show l :: t1 = [l] ++ t1 from rfl, progOf_append, hx, h1]; rfl, h2⟩
    have zero : progOf [l] = [] → ∃ t1 t2, l :: tr = t1 ++ t2 ∧ progOf t1 = a ∧ progOf t2 = b := by
      intro hx
      rw [show l :: tr = [l] ++ tr from rfl, progOf_append, hx, List.nil_append] at h
      obtain ⟨t1, t2, rfl, h1, h2⟩ := progOf_split h
      exact ⟨l :: t1, t2, rfl, by rw [show l :: t1 = [l] ++ t1 from rfl, progOf_append, hx, h1]; rfl, h2⟩
    cases l with
    | prog l => exact one l rfl
    | write l _ _ _ => exact one l rfl
    | sys _ _ _ => exact zero rfl
    | done _ _ _ _ => exact zero rfl

/-- When a `Close` of an output has waited for a worker that had begun, nothing is being written any more. -/
theorem closed_idle {up : Nat → Bool} {v0 : Nat → Volume} {tr : List (MLab V)} {m : Machine V} (h : MExec env host (newMachine up v0) tr m)
    {o : Nat} (hbegin : WorkerFirst o (progOf tr)) (hw : Waited (m.p.a o)) : (m.wr o).job = none := by
  have hm : ∃ t, .out o (.waited t) ∈ progOf tr := by
    have pinv := pexec_inv (mexec_inv h).prog
    cases hc : m.p.w.asyncOf env o with
    | none =>
      rw [(pinv.none o hc).2.1] at hw
      rcases hw with ⟨t, ht | ht⟩ | ht <;> cases ht
    | some cfg =>
      obtain ⟨t, ht⟩ := waited_mem (pinv.proj o cfg hc) hw
      exact ⟨t, mem_outLabs.mp ht⟩
  obtain ⟨t, ht⟩ := hm
  obtain ⟨x, z, y, e, ⟨u, rfl⟩, hx⟩ := first_split (P := fun l : PLab V => ∃ t, l = .out o (.waited t)) ⟨_, ht, t, rfl⟩
  have hbx := hbegin x u y e
  obtain ⟨t1, t2, rfl, rfl, _⟩ := progOf_split e
  obtain ⟨m1, h1, h2⟩ := h.split
  have pinv := pexec_inv (mexec_inv h1).prog
  have hm := mem_outLabs.mpr hbx
  have hrest : Rests o m1 := by
    cases hc : m1.p.w.asyncOf env o with
    | none => rw [(pinv.none o hc).1] at hm; cases hm
    | some cfg =>
      have hx1 := pinv.proj o cfg hc
      refine ⟨begun hx1 (.inr hm), fun hw => ?_⟩
      obtain ⟨v, hv⟩ := waited_mem hx1 hw
      exact absurd ⟨v, rfl⟩ (hx _ (mem_outLabs.mp hv))
  exact ((rests_exec h1 hrest h2).1.2 hw).2

end Log4g
