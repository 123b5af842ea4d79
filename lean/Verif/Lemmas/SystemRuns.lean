import Verif.Lemmas.SystemInv

/-! # A whole program: calls, their returns, and what is queued -/

namespace Log4g
open Spec
open scoped List
variable {V : Type}

theorem PExec.trans {env : PEnv V} {s s' s'' : PState V} {tr tr' : List (PLab V)} (h : PExec env s tr s') (h' : PExec env s' tr' s'') :
    PExec env s (tr ++ tr') s'' := by
  induction h' with
  | nil => simpa using h
  | snoc _ hs ih => rw [← List.append_assoc]; exact .snoc ih hs

theorem PExec.one {env : PEnv V} {s s' : PState V} {l : PLab V} (h : PStep env s l s') : PExec env s [l] s' := .snoc .nil h

theorem PExec.last {env : PEnv V} {s s'' : PState V} {tr : List (PLab V)} {l : PLab V} (h : PExec env s (tr ++ [l]) s'') :
    ∃ s', PExec env s tr s' ∧ PStep env s' l s'' := by
  generalize hx : tr ++ [l] = x at h
  cases h with
  | nil => simp at hx
  | snoc h hs =>
    have e1 := List.append_inj_left' hx rfl
    have e2 := List.append_inj_right' hx rfl
    simp at e2
    subst e1; subst e2
    exact ⟨_, h, hs⟩

theorem PExec.split {env : PEnv V} {s s'' : PState V} {a b : List (PLab V)} (h : PExec env s (a ++ b) s'') :
    ∃ s', PExec env s a s' ∧ PExec env s' b s'' := by
  generalize hx : a ++ b = x at h
  induction h generalizing b with
  | nil =>
    obtain ⟨rfl, rfl⟩ := List.append_eq_nil_iff.mp hx
    exact ⟨_, .nil, .nil⟩
  | @snoc tr s1 l s2 h hs ih =>
    rcases List.eq_nil_or_concat b with rfl | ⟨b', y, rfl⟩
    · rw [List.append_nil] at hx
      subst hx
      exact ⟨_, .snoc h hs, .nil⟩
    · have hc : (a ++ b') ++ [y] = tr ++ [l] := by simpa using hx
      have e1 := List.append_inj_left' hc rfl
      have e2 := List.append_inj_right' hc rfl
      simp at e2
      subst e2
      obtain ⟨u, h1, h2⟩ := ih e1
      exact ⟨u, h1, by simpa using h2.snoc hs⟩

theorem PExec.sound {env : PEnv V} {s s' : PState V} {tr : List (PLab V)} (h : PExec env s tr s') (hp : s'.panicked = false) :
    s.panicked = false := by
  induction h with
  | nil => exact hp
  | snoc _ hs ih => exact ih hs.1

theorem pinv_exec {env : PEnv V} {tr0 tr : List (PLab V)} {s s' : PState V} (h : PInv env tr0 s) (he : PExec env s tr s') : PInv env (tr0 ++ tr) s' := by
  induction he with
  | nil => simpa using h
  | snoc _ hs ih => rw [← List.append_assoc]; exact pinv_step ih hs

/-- The world of a program only grows. -/
theorem ext_step {env : PEnv V} {tr : List (PLab V)} {s s' : PState V} {l : PLab V} (h : PInv env tr s) (hs : PStep env s l s') : Ext s.w s'.w := by
  cases hs.2 with
  | act hok _ _ _ => exact (step_inv h.world _ hok).2
  | _ => exact .refl _

theorem ext_exec {env : PEnv V} {tr0 tr : List (PLab V)} {s s' : PState V} (h : PInv env tr0 s) (he : PExec env s tr s') : Ext s.w s'.w := by
  induction he with
  | nil => exact .refl _
  | snoc hx hs ih => exact ih.trans (ext_step (pinv_exec h hx) hs)

theorem async_exec {env : PEnv V} {tr0 tr : List (PLab V)} {s s' : PState V} (h : PInv env tr0 s) (he : PExec env s tr s') {o : Nat} {cfg : ACfg V}
    (hc : s.w.asyncOf env o = some cfg) : s'.w.asyncOf env o = some cfg := by
  rw [ext_asyncOf env h.world (ext_exec h he) (asyncOf_lt hc)]; exact hc

/-! ## Calls -/

theorem call_step {env : PEnv V} {s s' : PState V} {l : PLab V} (hs : PAct env s l s') (t : Nat) (h : (s'.th t).call ≠ none) :
    Begins t l ∨ ((s.th t).call ≠ none ∧ l ≠ .ret t) := by
  cases hs with
  | act _ _ _ _ => exact .inr ⟨h, by simp⟩
  | actPanic _ => exact .inr ⟨h, by simp⟩
  | logPanic _ _ _ => exact .inr ⟨h, by simp⟩
  | @log u now stack r ctx lvl fmt args ds _ _ _ =>
    by_cases hu : t = u
    · subst hu; exact .inl (.inl ⟨ds, rfl⟩)
    · rw [pset_th, if_neg hu] at h; exact .inr ⟨h, by simp⟩
  | @close u os _ _ _ =>
    by_cases hu : t = u
    · subst hu; exact .inl (.inr (.inl ⟨os, rfl⟩))
    · rw [pset_th, if_neg hu] at h; exact .inr ⟨h, by simp⟩
  | @direct u o c _ _ =>
    by_cases hu : t = u
    · subst hu; exact .inl (.inr (.inr ⟨o, c, rfl⟩))
    · rw [pset_th, if_neg hu] at h; exact .inr ⟨h, by simp⟩
  | @enter u k o c rest cfg ht _ =>
    refine .inr ⟨?_, by simp⟩
    by_cases hu : t = u
    · subst hu; rw [ht]; simpa [pset_th] using h
    · rw [pset_th, if_neg hu] at h; exact h
  | out _ _ => exact .inr ⟨h, by simp⟩
  | @leave u k o rest ht _ =>
    refine .inr ⟨?_, by simp⟩
    by_cases hu : t = u
    · subst hu; rw [ht]; simpa [pset_th] using h
    · rw [pset_th, if_neg hu] at h; exact h
  | @send u k o e rest stack ht _ =>
    refine .inr ⟨?_, by simp⟩
    by_cases hu : t = u
    · subst hu; rw [ht]; simpa [pset_th] using h
    · rw [pset_th, if_neg hu] at h; exact h
  | @closed u k o rest ht _ =>
    refine .inr ⟨?_, by simp⟩
    by_cases hu : t = u
    · subst hu; rw [ht]; simpa [pset_th] using h
    · rw [pset_th, if_neg hu] at h; exact h
  | @ret u k ht =>
    by_cases hu : t = u
    · subst hu; simp [pset_th] at h
    · rw [pset_th, if_neg hu] at h
      exact .inr ⟨h, by simp [Ne.symm hu]⟩

theorem busy {env : PEnv V} {up : Nat → Bool} {tr : List (PLab V)} {s : PState V} (h : PExec env (newProgram up) tr s) (t : Nat) :
    (s.th t).call ≠ none → ∃ x l y, tr = x ++ l :: y ∧ Begins t l ∧ .ret t ∉ y := by
  generalize h0 : newProgram up = s0 at h
  induction h with
  | nil => subst h0; intro hh; exact absurd rfl hh
  | @snoc tr s1 l1 s2 _ hs ih =>
    subst h0
    intro hh
    rcases call_step hs.2 t hh with k | ⟨k1, k2⟩
    · exact ⟨_, _, [], rfl, k, by simp⟩
    · obtain ⟨x, l, y, rfl, h2, h3⟩ := ih k1
      refine ⟨x, l, y ++ [l1], by simp, h2, ?_⟩
      simp only [List.mem_append, List.mem_singleton, not_or]
      exact ⟨h3, Ne.symm k2⟩

theorem at_rest {env : PEnv V} {up : Nat → Bool} {tr : List (PLab V)} {s : PState V} (h : PExec env (newProgram up) tr s) {t : Nat}
    (hr : Returned t tr) : s.th t = {} := by
  apply (pexec_inv h).rest
  apply Classical.byContradiction
  intro hh
  obtain ⟨x, l, y, e, h2, h3⟩ := busy h t hh
  exact h3 (hr x l y e h2)

/-! ## What is queued, with the goroutines -/

/-- The events put into the queue, with the goroutines that sent them. -/
def pairsOf (tr : List (ALab V)) : List (Nat × Event V) := tr.flatMap fun | .queued t e => [(t, e)] | _ => []

theorem pairsOf_append (a b : List (ALab V)) : pairsOf (a ++ b) = pairsOf a ++ pairsOf b := List.flatMap_append

theorem shareOf_append (t : Nat) (a b : List (Nat × Event V)) : shareOf t (a ++ b) = shareOf t a ++ shareOf t b := by simp [shareOf]

theorem share_pairs (t : Nat) (tr : List (ALab V)) : shareOf t (pairsOf tr) = queuedBy t tr := by
  induction tr with
  | nil => rfl
  | cons l tr ih =>
    rw [show l :: tr = [l] ++ tr from rfl, pairsOf_append, shareOf_append, queuedBy_append, ih]
    congr 1
    cases l with
    | queued u e =>
      by_cases h : u = t <;> simp [pairsOf, shareOf, queuedBy, h]
    | _ => rfl

theorem pairs_events (tr : List (ALab V)) : (pairsOf tr).map (·.2) = eventsOf (queuedOf tr) := by
  induction tr with
  | nil => rfl
  | cons l tr ih =>
    rw [show l :: tr = [l] ++ tr from rfl, pairsOf_append, queuedOf_append, eventsOf_append, List.map_append, ih]
    congr 1
    cases l <;> rfl

/-- The queue, whether or not something has panicked. -/
theorem queue_always {cfg : ACfg V} {f : Formatter V} (hf : cfg.f = some f) {prog : Nat → List (ACall V)} {tr : List (ALab V)} {s : AState V}
    (h : AExec cfg (newAsync prog) tr s) : queuedOf tr = takenOf tr ++ s.chan ∧ s.chan.length ≤ cfg.queueSize := by
  by_cases hp : s.panicked = false
  · exact ⟨(aexec_inv h hp).queue, (aexec_inv h hp).size⟩
  · cases h with
    | nil => exact absurd rfl hp
    | @snoc tr s0 l0 _ h hs =>
      have inv := aexec_inv h hs.1
      have hp' := hs.1
      have same : ∀ (l : ALab V) (s1 : AState V), queuedOf [l] = [] → takenOf [l] = [] → s1.chan = s0.chan →
          queuedOf (tr ++ [l]) = takenOf (tr ++ [l]) ++ s1.chan ∧ s1.chan.length ≤ cfg.queueSize := fun l s1 a b c =>
        ⟨by rw [queuedOf_append, takenOf_append, a, b, c, List.append_nil, List.append_nil]; exact inv.queue, by rw [c]; exact inv.size⟩
      cases hs.2 with
      | sendPanic h1 h2 => exact same _ _ rfl rfl rfl
      | requestPanic h1 h2 => exact same _ _ rfl rfl rfl
      | closePanic h1 h2 => exact same _ _ rfl rfl rfl
      | takePanic _ _ hn _ => rw [hf] at hn; simp at hn
      | takeEvent h1 h2 h3 =>
        rw [(handle_same _ _ _ _).2.2.2.2.2.2] at hp
        exact absurd hp' hp
      | _ => exact absurd hp' hp

/-- What an output has written is the text of the first events that were queued, and not many are missing. -/
theorem written_pairs {cfg : ACfg V} {f : Formatter V} (hf : cfg.f = some f) (hb : 1 ≤ cfg.batchNum) {prog : Nat → List (ACall V)} {tr : List (ALab V)} {s : AState V}
    (h : AExec cfg (newAsync prog) tr s) :
    ∃ written waiting, pairsOf tr = written ++ waiting ∧ s.writes.flatten = textsOf cfg f written ∧
      (accepted cfg.t (waiting.map (·.2))).length < cfg.queueSize + cfg.batchNum := by
  obtain ⟨hq, hsz⟩ := queue_always hf h
  obtain ⟨a, b, bi⟩ := aexec_binv hf h
  have hev : (pairsOf tr).map (·.2) = eventsOf (takenOf tr) ++ eventsOf s.chan := by rw [pairs_events, hq, eventsOf_append]
  obtain ⟨p1, p2, e1, e2, e3⟩ := List.map_eq_append_iff.mp hev
  have hsplit := bi.split
  rw [← e2] at hsplit
  obtain ⟨l1, l2, h1, h2, h3⟩ := List.filter_eq_append_iff.mp hsplit
  obtain ⟨q1, q2, g1, g2, g3⟩ := List.map_eq_append_iff.mp h1
  refine ⟨q1, q2 ++ p2, by rw [e1, g1, List.append_assoc], ?_, ?_⟩
  · rw [bi.writes, textsOf, g2, ← h2]; rfl
  · rw [List.map_append, accepted_append, List.length_append, g3, e3]
    have hb' := bi.batch hb
    rw [bi.num] at hb'
    have : (accepted cfg.t l2).length = b.length := by rw [← h3]; rfl
    have hle : (accepted cfg.t (eventsOf s.chan)).length ≤ s.chan.length :=
      Nat.le_trans (List.length_filter_le _ _) (List.length_filterMap_le _ _)
    omega

end Log4g
