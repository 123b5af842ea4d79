import Verif.Lemmas.SystemReturns
import Verif.Lemmas.SystemSync

/-! # A whole program: panics, and what happens after `Close` -/

namespace Log4g
open Spec
open scoped List
variable {V : Type}

theorem mem_outLabs {o : Nat} {l : ALab V} {tr : List (PLab V)} : l ∈ outLabs o tr ↔ .out o l ∈ tr := by
  unfold outLabs
  rw [List.mem_flatMap]
  constructor
  · rintro ⟨x, h1, h2⟩
    cases x with
    | out p y =>
      by_cases hp : p = o
      · simp only [hp, if_true, List.mem_singleton] at h2; rw [h2, ← hp]; exact h1
      · simp [hp] at h2
    | _ => simp at h2
  · intro h
    exact ⟨_, h, by simp⟩

theorem outLabs_split {o : Nat} : ∀ {tr : List (PLab V)} {x y : List (ALab V)} {l : ALab V}, outLabs o tr = x ++ l :: y →
    ∃ x' y', tr = x' ++ .out o l :: y' ∧ outLabs o x' = x
  | [], x, y, l, h => by simp [outLabs] at h
  | z :: tr, x, y, l, h => by
    by_cases hz : ∃ k, z = .out o k
    · obtain ⟨k, rfl⟩ := hz
      have h2 : k :: outLabs o tr = x ++ l :: y := by simpa [outLabs] using h
      clear h
      cases x with
      | nil =>
        simp only [List.nil_append, List.cons.injEq] at h2
        obtain ⟨rfl, _⟩ := h2
        exact ⟨[], tr, rfl, rfl⟩
      | cons k' x =>
        simp only [List.cons_append, List.cons.injEq] at h2
        obtain ⟨rfl, h3⟩ := h2
        obtain ⟨x', y', rfl, rfl⟩ := outLabs_split h3
        exact ⟨.out o k :: x', y', rfl, by simp [outLabs]⟩
    · have e : outLabs o [z] = [] := by
        cases z with
        | out p k =>
          by_cases hp : p = o
          · subst hp; exact absurd ⟨k, rfl⟩ hz
          · simp [outLabs, hp]
        | _ => rfl
      rw [show z :: tr = [z] ++ tr from rfl, outLabs_append, e, List.nil_append] at h
      obtain ⟨x', y', rfl, rfl⟩ := outLabs_split h
      exact ⟨z :: x', y', rfl, by rw [show z :: x' = [z] ++ x' from rfl, outLabs_append, e, List.nil_append]⟩

theorem workerFirst_labs {o : Nat} {tr : List (PLab V)} (h : WorkerFirst o tr) : BegunFirst (outLabs o tr) := by
  intro x t y e
  obtain ⟨x', y', rfl, rfl⟩ := outLabs_split e
  exact mem_outLabs.mpr (h x' t y' rfl)

/-- A worker that had begun before anyone waited. -/
theorem workerFirst_of {o : Nat} {a b : List (PLab V)} (hb : .out o .begin ∈ a) (hn : ∀ t, .out o (.waited t) ∉ a) : WorkerFirst o (a ++ b) := by
  intro x t y e
  rcases List.append_eq_append_iff.mp e with ⟨c, rfl, _⟩ | ⟨c, rfl, hc⟩
  · exact List.mem_append_left _ hb
  · cases c with
    | nil => simpa using hb
    | cons z c =>
      simp only [List.cons_append, List.cons.injEq] at hc
      obtain ⟨rfl, _⟩ := hc
      exact absurd (by simp) (hn t)

/-- A call of an output starts only if the output is open. -/
theorem starts_open {cfg : ACfg V} {s s' : AState V} {l : ALab V} (h : AAct cfg s l s') {t : Nat} (h1 : (s.th t).pc = .idle) (h2 : (s'.th t).pc ≠ .idle) :
    s.closed = false := by
  have other : ∀ {s1 : AState V} {u : Nat} {x y : Thread V}, s1.th = s.th → ((s1.set u y).th t).pc ≠ .idle → s.th u = x → x.pc = .idle := by
    intro s1 u x y e hh hx
    rw [set_th] at hh
    by_cases hu : t = u
    · subst hu; rw [← hx]; exact h1
    · rw [if_neg hu, e] at hh; exact absurd h1 hh
  have idle : ∀ {s1 : AState V} {u : Nat} {y : Thread V}, s1.th = s.th → y.pc = .idle → ((s1.set u y).th t).pc ≠ .idle → False := by
    intro s1 u y e hy hh
    rw [set_th] at hh
    by_cases hu : t = u
    · rw [if_pos hu] at hh; exact hh hy
    · rw [if_neg hu, e] at hh; exact hh h1
  cases h with
  | sendStart e k => exact k
  | closeStart e k => exact k
  | sendSkip e _ => exact (idle rfl rfl h2).elim
  | sendQueue e _ _ => exact (idle rfl rfl h2).elim
  | closeSkip e _ => exact (idle rfl rfl h2).elim
  | closeChan e _ => exact (idle rfl rfl h2).elim
  | closeRequest e _ _ => have := other rfl h2 e; simp at this
  | closeWait e _ => have := other rfl h2 e; simp at this
  | closeStore e => have := other rfl h2 e; simp at this
  | takeEvent _ _ _ => rw [(handle_same cfg _ _ _).2.2.2.2.2.1] at h2; exact absurd h1 h2
  | _ => exact absurd h1 h2

/-- The call a goroutine is in: no output it is inside of was closed before. -/
theorem call_open {env : PEnv V} {up : Nat → Bool} {tr : List (PLab V)} {s : PState V} (h : PExec env (newProgram up) tr s) (t : Nat) :
    (s.th t).call ≠ none → ∃ x l y, tr = x ++ l :: y ∧ Begins t l ∧ .ret t ∉ y ∧ ∀ o, ((s.a o).th t).pc ≠ .idle → ∀ u, .out o (.closed u) ∉ x := by
  generalize h0 : newProgram up = s0 at h
  induction h with
  | nil => subst h0; intro hh; exact absurd rfl hh
  | @snoc tr s1 l1 s2 he hs ih =>
    subst h0
    intro hh
    have inv := pexec_inv he
    rcases call_step hs.2 t hh with k | ⟨k1, k2⟩
    · refine ⟨_, _, [], rfl, k, by simp, fun o ho => ?_⟩
      have : ((s1.a o).th t).pc ≠ .idle ∧ (s1.th t).call = none := by
        rcases k with ⟨ds, rfl⟩ | ⟨os, rfl⟩ | ⟨p, c, rfl⟩
        · cases hs.2 with | log hn _ _ => exact ⟨ho, hn⟩
        · cases hs.2 with | close hn _ _ => exact ⟨ho, hn⟩
        · cases hs.2 with | direct hn _ => exact ⟨ho, hn⟩
      rw [inv.away t o (by rw [inv.rest t this.2]; simp)] at this
      exact absurd rfl this.1
    · obtain ⟨x, l, y, rfl, h2, h3, h4⟩ := ih k1
      refine ⟨x, l, y ++ [l1], by simp, h2, ?_, fun o ho u hm => ?_⟩
      · simp only [List.mem_append, List.mem_singleton, not_or]
        exact ⟨h3, Ne.symm k2⟩
      · by_cases hb : ((s1.a o).th t).pc = .idle
        · -- it has just started
          have : ∃ cfg l' s', s1.w.asyncOf env o = some cfg ∧ AAct cfg (s1.a o) l' s' ∧ (s'.th t).pc ≠ .idle := by
            cases hs.2 with
            | @enter v k p c rest cfg _ _ =>
              have ho : (((s1.setOut p ((s1.a p).push v c)).a o).th t).pc ≠ .idle := ho
              rw [setOut_a] at ho
              split at ho
              · rename_i e
                subst e
                by_cases hv : t = v
                · subst hv; simp [AState.push, set_th] at ho; exact absurd hb ho
                · rw [push_other _ _ hv] at ho; exact absurd hb ho
              · exact absurd hb ho
            | @out p l' x cfg hp hx =>
              have ho : (((s1.setOut p x).a o).th t).pc ≠ .idle := ho
              rw [setOut_a] at ho
              split at ho
              · rename_i e; subst e; exact ⟨cfg, l', x, hp, hx.2, by assumption⟩
              · exact absurd hb ho
            | _ => exact absurd hb ho
          obtain ⟨cfg, l', s', g1, g2, g3⟩ := this
          have hcl := starts_open g2 hb g3
          have ci := aexec_closeinv (inv.proj o cfg g1)
          have hm' : .closed u ∈ outLabs o (x ++ l :: y) := mem_outLabs.mpr (List.mem_append_left _ hm)
          rw [(ci.flag (ci.none u hm')).1] at hcl
          simp at hcl
        · exact h4 o hb u hm

/-- Where a panic comes from. -/
theorem panic_from {env : PEnv V} {up : Nat → Bool} {tr : List (PLab V)} {l : PLab V} {s : PState V} (h : PExec env (newProgram up) (tr ++ [l]) s)
    (hp : s.panicked = true) :
    (∃ t, l = .panic t) ∨ ∃ o t cfg, ∃ s1 : PState V, l = .out o (.panic t) ∧ PExec env (newProgram up) tr s1 ∧ s1.w.asyncOf env o = some cfg ∧
      AStep cfg (s1.a o) (.panic t) (s.a o) ∧ ((s1.a o).th t).pc ≠ .idle ∧ (s1.a o).chanClosed = true := by
  obtain ⟨s1, h1, hs⟩ := h.last
  have hp1 := hs.1
  have inv := pexec_inv h1
  cases hs.2 with
  | actPanic _ => exact .inl ⟨_, rfl⟩
  | logPanic _ _ _ => exact .inl ⟨_, rfl⟩
  | @out o l' x cfg hc hx =>
    refine .inr ?_
    have hp : x.panicked = true := hp
    have hp0 := hx.1
    obtain ⟨⟨f, hf⟩, _⟩ := asyncOf_cfg inv.world hc
    have e : (s1.setOut o x).a o = x := by rw [setOut_a, if_pos rfl]
    cases hx.2 with
    | sendPanic ht hcc => exact ⟨o, _, cfg, s1, rfl, h1, hc, by rw [show ({ s1.setOut o _ with panicked := _ } : PState V).a o = _ from e]; exact hx, by rw [ht]; simp, hcc⟩
    | requestPanic ht hcc => exact ⟨o, _, cfg, s1, rfl, h1, hc, by rw [show ({ s1.setOut o _ with panicked := _ } : PState V).a o = _ from e]; exact hx, by rw [ht]; simp, hcc⟩
    | closePanic ht hcc => exact ⟨o, _, cfg, s1, rfl, h1, hc, by rw [show ({ s1.setOut o _ with panicked := _ } : PState V).a o = _ from e]; exact hx, by rw [ht]; simp, hcc⟩
    | takePanic _ _ hn _ => rw [hf] at hn; simp at hn
    | takeEvent _ _ _ => rw [(handle_same _ _ _ _).2.2.2.2.2.2] at hp; rw [hp0] at hp; simp at hp
    | _ => have hp : (s1.a o).panicked = true := hp; rw [hp0] at hp; simp at hp
  | _ => have hp : s1.panicked = true := hp; rw [hp1] at hp; simp at hp

/-- With one `Close` at a time a panic comes from a `Send`. -/
theorem panic_sends {env : PEnv V} {up : Nat → Bool} {tr : List (PLab V)} {s : PState V} (h : PExec env (newProgram up) tr s) (ht : Tame tr)
    {o t : Nat} {cfg : ACfg V} (hc : s.w.asyncOf env o = some cfg) {x : AState V} (hs : AStep cfg (s.a o) (.panic t) x) : ∃ e, ((s.a o).th t).pc = .sending e := by
  have sg := pexec_single h ht o
  have ci := aexec_closeinv ((pexec_inv h).proj o cfg hc)
  cases hs.2 with
  | sendPanic e _ => exact ⟨_, by rw [e]⟩
  | requestPanic e k =>
    have := sg.early t (by rw [e]; simp)
    rw [(ci.flag k).1] at this; simp at this
  | closePanic e k =>
    have := sg.late t (by rw [e])
    rw [k] at this; simp at this

/-! ## After `Close` -/

/-- Nothing is queued once the channel is closed. -/
theorem none_queued {cfg : ACfg V} {prog : Nat → List (ACall V)} {a b : List (ALab V)} {s : AState V} (h : AExec cfg (newAsync prog) (a ++ b) s)
    {u : Nat} (hc : .closed u ∈ a) : pairsOf b = [] := by
  generalize hx : a ++ b = tr at h
  generalize h0 : newAsync prog = s0 at h
  induction h generalizing b with
  | nil =>
    obtain ⟨rfl, rfl⟩ := List.append_eq_nil_iff.mp hx
    rfl
  | @snoc tr s1 l s2 he hs ih =>
    subst h0
    rcases List.eq_nil_or_concat b with rfl | ⟨b', y, rfl⟩
    · rfl
    · have hc' : (a ++ b') ++ [y] = tr ++ [l] := by simpa using hx
      have e1 := List.append_inj_left' hc' rfl
      have e2 := List.append_inj_right' hc' rfl
      simp at e2
      subst e2
      rw [List.concat_eq_append, pairsOf_append, ih e1, List.nil_append]
      have ci := aexec_closeinv he
      have hcc := ci.none u (by rw [← e1]; exact List.mem_append_left _ hc)
      cases hs.2 with
      | sendQueue _ k _ => rw [hcc] at k; simp at k
      | _ => rfl

/-- A property of an output that its steps and new calls keep. -/
theorem out_keeps {env : PEnv V} {tr : List (PLab V)} {s s' : PState V} (P : AState V → Prop) (hpush : ∀ a t c, P a → P (a.push t c))
    (hact : ∀ cfg a l b, P a → AAct cfg a l b → P b) (h : PExec env s tr s') (o : Nat) (hP : P (s.a o)) : P (s'.a o) := by
  induction h with
  | nil => exact hP
  | snoc _ hs ih =>
    cases hs.2 with
    | @enter t k p c rest cfg _ _ =>
      show P ((PState.setOut _ p _).a o)
      rw [setOut_a]
      split
      · rename_i e; subst e; exact hpush _ _ _ ih
      · exact ih
    | @out p l x cfg _ hx =>
      show P ((PState.setOut _ p x).a o)
      rw [setOut_a]
      split
      · rename_i e; subst e; exact hact _ _ _ _ ih hx.2
      · exact ih
    | _ => exact ih

/-- A worker that has stopped writes no more. -/
theorem stopped_act {cfg : ACfg V} {s s' : AState V} {l : ALab V} (h : AAct cfg s l s') (hw : s.worker = .stopped) :
    s'.worker = .stopped ∧ s'.writes = s.writes := by
  cases h with
  | begin k => rw [hw] at k; simp at k
  | tick k => rw [hw] at k; simp at k
  | takeEvent k _ _ => rw [hw] at k; simp at k
  | takeIgnored k _ _ _ => rw [hw] at k; simp at k
  | takePanic k _ _ _ => rw [hw] at k; simp at k
  | takeNil k _ => rw [hw] at k; simp at k
  | takeClosed k _ _ => rw [hw] at k; simp at k
  | _ => exact ⟨hw, rfl⟩

theorem stays_stopped {env : PEnv V} {tr : List (PLab V)} {s s' : PState V} (h : PExec env s tr s') (o : Nat) (hw : (s.a o).worker = .stopped) :
    (s'.a o).worker = .stopped ∧ (s'.a o).writes = (s.a o).writes := by
  refine out_keeps (fun a => a.worker = .stopped ∧ a.writes = (s.a o).writes) (fun a t c ha => ha) ?_ h o ⟨hw, rfl⟩
  intro cfg a l b ha hb
  obtain ⟨k1, k2⟩ := stopped_act hb ha.1
  exact ⟨k1, k2.trans ha.2⟩

/-- The calls that name outputs name outputs that exist. -/
theorem labels_old {env : PEnv V} {up : Nat → Bool} {tr : List (PLab V)} {s : PState V} (h : PExec env (newProgram up) tr s) :
    (∀ t os, .close t os ∈ tr → ∀ o ∈ os, o < s.w.mgr.oheap.length) ∧ ∀ t o c, .direct t o c ∈ tr → o < s.w.mgr.oheap.length := by
  generalize h0 : newProgram up = s0 at h
  induction h with
  | nil => simp
  | @snoc tr s1 l s2 he hs ih =>
    subst h0
    have inv := pexec_inv he
    have hlen := ext_length (ext_step inv hs)
    refine ⟨fun t os hm o ho => ?_, fun t o c hm => ?_⟩
    · rcases List.mem_append.mp hm with hm | hm
      · exact Nat.lt_of_lt_of_le (ih.1 t os hm o ho) hlen
      · obtain rfl := (List.mem_singleton.mp hm)
        cases hs.2 with
        | close _ _ hperm => exact mapped_outs inv.world (hperm.mem_iff.mp ho)
    · rcases List.mem_append.mp hm with hm | hm
      · exact Nat.lt_of_lt_of_le (ih.2 t o c hm) hlen
      · obtain rfl := (List.mem_singleton.mp hm)
        cases hs.2 with
        | direct _ ho => exact ho

/-- After `Close` the channels of the outputs it found are closed. -/
theorem channel_closed {env : PEnv V} {up : Nat → Bool} {t : Nat} {os : List Nat} {a tr : List (PLab V)} {s : PState V}
    (hc : CloseCall t os a tr) (h : PExec env (newProgram up) tr s) (ht : Tame tr) {o : Nat} (ho : o ∈ os) {cfg : ACfg V} (hcfg : s.w.asyncOf env o = some cfg) :
    ∃ u, .closed u ∈ outLabs o tr := by
  obtain ⟨_, hl, hcl⟩ := close_done hc h
  have inv := pexec_inv h
  have hx := inv.proj o cfg hcfg
  rcases closed_owner hx (hcl o ho (by rw [hcfg]; simp)) with k | ⟨u, k⟩
  · exact ((aexec_closeinv hx).flag k).2
  · have := has_lock inv ht (o := o) (t := u) (.inr (.inr (.inr k)))
    rw [hl] at this
    simp at this

end Log4g
