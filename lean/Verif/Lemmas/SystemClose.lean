import Verif.Lemmas.SystemRuns

/-! # A whole program: closing -/

namespace Log4g
open Spec
open scoped List
variable {V : Type}

theorem closed_act {cfg : ACfg V} {s s' : AState V} {l : ALab V} (h : AAct cfg s l s') :
    (s.closed = true → s'.closed = true) ∧ (s.chanClosed = true → s'.chanClosed = true) := by
  cases h with
  | takeEvent _ _ _ => exact ⟨fun k => by rw [(handle_same cfg _ _ _).2.2.2.1]; exact k, fun k => by rw [(handle_same cfg _ _ _).2.2.2.2.1]; exact k⟩
  | closeStore _ => exact ⟨fun _ => rfl, id⟩
  | closeChan _ _ => exact ⟨id, fun _ => rfl⟩
  | _ => exact ⟨id, id⟩

/-- A call of `Close` ends with the output closed. -/
theorem ends_closed {cfg : ACfg V} {s s' : AState V} {l : ALab V} {tr : List (ALab V)} (hi : CloseInv tr s) (h : AAct cfg s l s') {t : Nat}
    (hc : Closer (s.th t)) (h1 : s.th t ≠ {}) (h2 : s'.th t = {}) : s'.closed = true := by
  have other : ∀ {s1 : AState V} {u : Nat} {y : Thread V}, s1.th = s.th → (s1.set u y).th t = {} → u = t ∧ y = {} := by
    intro s1 u y e hh
    rw [set_th] at hh
    by_cases hu : t = u
    · rw [if_pos hu] at hh; exact ⟨hu.symm, hh⟩
    · rw [if_neg hu, e] at hh; exact absurd hh h1
  cases h with
  | sendStart e _ => obtain ⟨_, hh⟩ := other rfl h2; simp at hh
  | sendSkip e _ => obtain ⟨rfl, hh⟩ := other rfl h2; rw [e] at hc; exact (hc.2 _ List.mem_cons_self).elim
  | sendQueue e _ _ => obtain ⟨rfl, hh⟩ := other rfl h2; rw [e] at hc; exact absurd rfl (hc.1 _)
  | closeStart e _ => obtain ⟨_, hh⟩ := other rfl h2; simp at hh
  | closeSkip e k => exact k
  | closeRequest e _ _ => obtain ⟨_, hh⟩ := other rfl h2; simp at hh
  | closeWait e _ => obtain ⟨_, hh⟩ := other rfl h2; simp at hh
  | closeStore e => obtain ⟨_, hh⟩ := other rfl h2; simp at hh
  | closeChan e _ =>
    obtain ⟨rfl, hh⟩ := other rfl h2
    exact hi.closing _ (by rw [e])
  | takeEvent _ _ _ => rw [(handle_same cfg _ _ _).2.2.2.2.2.1] at h2; exact absurd h2 h1
  | _ => exact absurd h2 h1

/-- What is left to do of a call of the manager's `Close`. -/
def Undone (s : PState V) (t o : Nat) : Prop :=
  (o, ACall.close) ∈ (s.th t).todo ∨ ((s.th t).inside = some o ∧ (s.a o).th t ≠ {}) ∨ (s.a o).closed = true

theorem undone_step {env : PEnv V} {tr : List (PLab V)} {s s' : PState V} {l : PLab V} {t o : Nat} (hi : PInv env tr s) (hs : PAct env s l s')
    (hl : l ≠ .ret t) (hc : (s.th t).call = some .close) (ho : s.w.asyncOf env o ≠ none) (hu : Undone s t o) : (s'.th t).call = some .close ∧ Undone s' t o := by
  have busy : ∀ {u : Nat}, (s.th u).call = none → t ≠ u := by rintro u hu rfl; rw [hc] at hu; simp at hu
  cases hs with
  | act _ _ _ _ => exact ⟨hc, hu⟩
  | actPanic _ => exact ⟨hc, hu⟩
  | logPanic _ _ _ => exact ⟨hc, hu⟩
  | log hn _ _ => simp only [Undone, pset_th, if_neg (busy hn)]; exact ⟨hc, hu⟩
  | close hn _ _ => simp only [Undone, pset_th, if_neg (busy hn)]; exact ⟨hc, hu⟩
  | direct hn _ => simp only [Undone, pset_th, if_neg (busy hn)]; exact ⟨hc, hu⟩
  | @enter u k p c rest cfg ht hp =>
    have cl : ∀ x : AState V, (x.push u c).closed = x.closed := fun _ => rfl
    by_cases htu : t = u
    · subst htu
      have still : ∀ p, (s.a p).th t = {} := fun p => hi.away t p (by rw [ht]; simp)
      refine ⟨by rw [pset_th, if_pos rfl]; rw [ht] at hc; exact hc, ?_⟩
      unfold Undone
      rw [pset_th, if_pos rfl]
      rcases hu with hu | hu | hu
      · rw [ht] at hu
        rcases List.mem_cons.mp hu with hu | hu
        · simp only [Prod.mk.injEq] at hu
          obtain ⟨rfl, rfl⟩ := hu
          refine .inr (.inl ⟨rfl, ?_⟩)
          show ((s.setOut o ((s.a o).push t .close)).a o).th t ≠ {}
          rw [setOut_a, if_pos rfl, push_self _ _ _ (still o)]
          simp
        · exact .inl hu
      · rw [ht] at hu; simp at hu
      · refine .inr (.inr ?_)
        show ((s.setOut p ((s.a p).push t c)).a o).closed = true
        rw [setOut_a]
        split
        · rename_i e; subst e; exact hu
        · exact hu
    · refine ⟨by rw [pset_th, if_neg htu]; exact hc, ?_⟩
      unfold Undone
      rw [pset_th, if_neg htu]
      refine hu.imp id (Or.imp (And.imp id fun hh => ?_) fun hh => ?_)
      · show ((s.setOut p ((s.a p).push u c)).a o).th t ≠ {}
        rw [setOut_a]
        split
        · rename_i e; subst e; rw [push_other _ _ htu]; exact hh
        · exact hh
      · show ((s.setOut p ((s.a p).push u c)).a o).closed = true
        rw [setOut_a]
        split
        · rename_i e; subst e; exact hh
        · exact hh
  | @out p l x cfg hp hx =>
    refine ⟨hc, ?_⟩
    unfold Undone
    show _ ∨ (_ ∧ ((s.setOut p x).a o).th t ≠ {}) ∨ ((s.setOut p x).a o).closed = true
    rw [setOut_a]
    by_cases hpo : o = p
    · subst hpo
      rw [if_pos rfl]
      rcases hu with hu | hu | hu
      · exact .inl hu
      · by_cases hx' : x.th t = {}
        · exact .inr (.inr (ends_closed (aexec_closeinv (hi.proj o cfg hp)) hx.2 ((hi.closes t hc).2 o) hu.2 hx'))
        · exact .inr (.inl ⟨hu.1, hx'⟩)
      · exact .inr (.inr ((closed_act hx.2).1 hu))
    · rw [if_neg hpo]; exact hu
  | @leave u k p rest ht hp =>
    by_cases htu : t = u
    · subst htu
      unfold Undone
      rw [pset_th, if_pos rfl]
      refine ⟨by rw [ht] at hc; exact hc, ?_⟩
      rcases hu with hu | hu | hu
      · rw [ht] at hu; exact .inl hu
      · rw [ht] at hu
        obtain ⟨h1, h2⟩ := hu
        simp only [Option.some.injEq] at h1
        subst h1
        exact absurd hp h2
      · exact .inr (.inr hu)
    · unfold Undone; rw [pset_th, if_neg htu]; exact ⟨hc, hu⟩
  | @send u k p e rest stack ht hp =>
    by_cases htu : t = u
    · subst htu
      have := (hi.closes t hc).1 (p, .send e) (by rw [ht]; simp)
      simp at this
    · unfold Undone; rw [pset_th, if_neg htu]; exact ⟨hc, hu⟩
  | @closed u k p rest ht hp =>
    by_cases htu : t = u
    · subst htu
      unfold Undone
      rw [pset_th, if_pos rfl]
      refine ⟨by rw [ht] at hc; exact hc, ?_⟩
      rcases hu with hu | hu | hu
      · rw [ht] at hu
        rcases List.mem_cons.mp hu with hu | hu
        · simp only [Prod.mk.injEq] at hu
          obtain ⟨rfl, _⟩ := hu
          exact absurd hp ho
        · exact .inl hu
      · rw [ht] at hu; simp at hu
      · exact .inr (.inr hu)
    · unfold Undone; rw [pset_th, if_neg htu]; exact ⟨hc, hu⟩
  | @ret u k ht =>
    have htu : t ≠ u := by rintro rfl; exact hl rfl
    unfold Undone; rw [pset_th, if_neg htu]; exact ⟨hc, hu⟩

theorem closeCall_split {env : PEnv V} {up : Nat → Bool} {t : Nat} {os : List Nat} {a tr : List (PLab V)} {s : PState V}
    (hc : CloseCall t os a tr) (h : PExec env (newProgram up) tr s) :
    ∃ s0 s1 s2 b, tr = (a ++ [.close t os]) ++ b ++ [.ret t] ∧ .ret t ∉ b ∧ PExec env (newProgram up) a s0 ∧ PStep env s0 (.close t os) s1 ∧
      PExec env s1 b s2 ∧ PStep env s2 (.ret t) s := by
  obtain ⟨b, rfl, hb⟩ := hc
  obtain ⟨s2, h, hr⟩ := h.last
  rw [show a ++ .close t os :: b = (a ++ [.close t os]) ++ b by simp] at h
  obtain ⟨s1, h1, h2⟩ := h.split
  obtain ⟨s0, h0, hs⟩ := h1.last
  exact ⟨s0, s1, s2, b, by simp, hb, h0, hs, h2, hr⟩

/-- When the manager's `Close` returns, the asynchronous outputs it found are closed. -/
theorem close_done {env : PEnv V} {up : Nat → Bool} {t : Nat} {os : List Nat} {a tr : List (PLab V)} {s : PState V}
    (hc : CloseCall t os a tr) (h : PExec env (newProgram up) tr s) :
    s.panicked = false ∧ s.lock = none ∧ ∀ o ∈ os, s.w.asyncOf env o ≠ none → (s.a o).closed = true := by
  obtain ⟨s0, s1, s2, b, rfl, hb, h0, hs, h2, hr⟩ := closeCall_split hc h
  have hp2 := hr.1
  have i0 := pexec_inv h0
  have i1 := pexec_inv (h0.snoc hs)
  have start : (s1.th t).call = some .close ∧ ∀ o ∈ os, (o, ACall.close) ∈ (s1.th t).todo ∧ o < s1.w.mgr.oheap.length := by
    cases hs.2 with
    | close hn _ hperm =>
      refine ⟨by rw [pset_th, if_pos rfl], fun o ho => ⟨?_, ?_⟩⟩
      · rw [pset_th, if_pos rfl]; exact List.mem_map.mpr ⟨o, ho, rfl⟩
      · exact mapped_outs i0.world (hperm.mem_iff.mp ho)
  have key : ∀ {b s2}, PExec env s1 b s2 → .ret t ∉ b →
      (s2.th t).call = some .close ∧ ∀ o ∈ os, s2.w.asyncOf env o ≠ none → Undone s2 t o := by
    intro b s2 h2 hb
    generalize hs1 : s1 = s1' at h2
    induction h2 with
    | nil => subst hs1; exact ⟨start.1, fun o ho _ => .inl (start.2 o ho).1⟩
    | @snoc b s2 l s3 hx hs ih =>
      subst hs1
      simp only [List.mem_append, List.mem_singleton, not_or] at hb
      obtain ⟨k1, k2⟩ := ih hb.1
      have ix := pinv_exec i1 hx
      have up : ∀ o ∈ os, s3.w.asyncOf env o = s2.w.asyncOf env o := fun o ho =>
        ext_asyncOf env ix.world (ext_step ix hs) (Nat.lt_of_lt_of_le (start.2 o ho).2 (ext_length (ext_exec i1 hx)))
      have call : (s3.th t).call = some .close := by
        have : ∀ {u : Nat}, (s2.th u).call = none → t ≠ u := by rintro u hu rfl; rw [k1] at hu; simp at hu
        cases hs.2 with
        | act _ _ _ _ => exact k1
        | actPanic _ => exact k1
        | logPanic _ _ _ => exact k1
        | log hn _ _ => rw [pset_th, if_neg (this hn)]; exact k1
        | close hn _ _ => rw [pset_th, if_neg (this hn)]; exact k1
        | direct hn _ => rw [pset_th, if_neg (this hn)]; exact k1
        | enter ht _ => rw [pset_th]; split <;> (try exact k1); rename_i e; subst e; rw [ht] at k1; exact k1
        | out _ _ => exact k1
        | leave ht _ => rw [pset_th]; split <;> (try exact k1); rename_i e; subst e; rw [ht] at k1; exact k1
        | send _ ht _ => rw [pset_th]; split <;> (try exact k1); rename_i e; subst e; rw [ht] at k1; exact k1
        | closed ht _ => rw [pset_th]; split <;> (try exact k1); rename_i e; subst e; rw [ht] at k1; exact k1
        | @ret u k ht => rw [pset_th, if_neg (by rintro rfl; exact hb.2 rfl)]; exact k1
      refine ⟨call, fun o ho hc => ?_⟩
      rw [up o ho] at hc
      exact (undone_step ix hs.2 (Ne.symm hb.2) k1 hc (k2 o ho hc)).2
  obtain ⟨k1, k2⟩ := key h2 hb
  cases hr.2 with
  | ret ht =>
    refine ⟨hp2, ?_, fun o ho hc => ?_⟩
    · rw [ht] at k1
      simp only [Option.some.injEq] at k1
      subst k1
      rfl
    rcases k2 o ho hc with k | k | k
    · rw [ht] at k; simp at k
    · rw [ht] at k; simp at k
    · exact k

/-! ## What `Close` has written -/

/-- Everything that was queued when no `Close` had yet queued its request has been written once the worker has stopped. -/
theorem stopped_pairs {cfg : ACfg V} {f : Formatter V} (hf : cfg.f = some f) {prog : Nat → List (ACall V)} {a b : List (ALab V)} {s : AState V}
    (h : AExec cfg (newAsync prog) (a ++ b) s) (hp : s.panicked = false) (hw : s.worker = .stopped) (hreq : none ∉ queuedOf a) :
    ∃ later rest, pairsOf (a ++ b) = pairsOf a ++ later ++ rest ∧ s.writes.flatten = textsOf cfg f (pairsOf a ++ later) ∧
      ∃ gs : List (List (Event V)), s.writes = gs.map (·.flatMap f) ∧ gs.flatten = accepted cfg.t ((pairsOf a ++ later).map (·.2)) := by
  obtain ⟨es, post, e1, e2, e3⟩ := stopped_written hf h hp hw
  have e1' := e1
  rw [queuedOf_append] at e1'
  obtain ⟨zs, hz⟩ := prefix_before hreq e1'
  have hes : es = eventsOf (queuedOf a) ++ eventsOf zs := by
    rw [← eventsOf_append, ← hz]
    simp [eventsOf]
  have hev : (pairsOf (a ++ b)).map (·.2) = es ++ eventsOf post := by
    rw [pairs_events, e1, eventsOf_append]
    simp [eventsOf]
  obtain ⟨p1, p2, g1, g2, g3⟩ := List.map_eq_append_iff.mp hev
  rw [hes] at g2
  obtain ⟨q1, q2, k1, k2, k3⟩ := List.map_eq_append_iff.mp g2
  have hq : q1 = pairsOf a := by
    have hlen : q1.length = (pairsOf a).length := by
      have := congrArg List.length k2
      rw [List.length_map, ← pairs_events, List.length_map] at this
      exact this
    have : q1 ++ (q2 ++ p2) = pairsOf a ++ pairsOf b := by rw [← pairsOf_append, g1, k1, List.append_assoc]
    exact (List.append_inj this hlen).1
  subst hq
  refine ⟨q2, p2, by rw [g1, k1], ?_, ?_⟩
  · rw [e3, hes, textsOf, List.map_append, k2, k3]
  · obtain ⟨gs, b', bi⟩ := aexec_binv hf h
    have hb' := bi.idle (by simp [hw])
    subst hb'
    have hs := bi.split
    rw [e2, List.append_nil, eventsOf_append] at hs
    refine ⟨gs, bi.groups, ?_⟩
    rw [← hs, List.map_append, k2, k3, ← hes]
    simp [eventsOf]

/-- Everything that was queued when no `Close` had yet queued its request has been written once the output is closed, if the
worker had begun. -/
theorem closed_written {cfg : ACfg V} {f : Formatter V} (hf : cfg.f = some f) {prog : Nat → List (ACall V)} {a b : List (ALab V)} {s : AState V}
    (h : AExec cfg (newAsync prog) (a ++ b) s) (hp : s.panicked = false) (hc : s.closed = true) (hbegin : BegunFirst (a ++ b)) (hreq : none ∉ queuedOf a) :
    s.worker = .stopped ∧ ∃ later rest, pairsOf (a ++ b) = pairsOf a ++ later ++ rest ∧ s.writes.flatten = textsOf cfg f (pairsOf a ++ later) ∧
      ∃ gs : List (List (Event V)), s.writes = gs.map (·.flatMap f) ∧ gs.flatten = accepted cfg.t ((pairsOf a ++ later).map (·.2)) :=
  have hw := begun_stopped h hp hbegin (.inr hc)
  ⟨hw, stopped_pairs hf h hp hw hreq⟩

/-- The events of a goroutine whose calls have returned are in the queue of an output that was never closed. -/
theorem all_queued {env : PEnv V} {up : Nat → Bool} {tr : List (PLab V)} {s : PState V} (h : PExec env (newProgram up) tr s) {o : Nat} {cfg : ACfg V}
    (hc : s.w.asyncOf env o = some cfg) (ho : Open o tr) (t : Nat) :
    (∃ rest, shareOf t (pairsOf (outLabs o tr)) ++ rest = sentBy t o tr) ∧
    (Returned t tr → shareOf t (pairsOf (outLabs o tr)) = sentBy t o tr) := by
  have inv := pexec_inv h
  have hx := inv.proj o cfg hc
  obtain ⟨_, _, _, _, hs⟩ := never_closed (fun t => (inv.opened o ho t).2) hx
  have h1 := (aexec_order hx t).2 (hs t)
  have h2 := inv.order t o (by rw [hc]; simp)
  rw [share_pairs]
  constructor
  · exact ⟨_, by rw [← h2, ← h1, List.append_assoc]⟩
  · intro hr
    have h3 := at_rest h hr
    have h4 := inv.away t o (by rw [h3]; simp)
    rw [h4] at h1
    rw [h3] at h2
    simp only [flight, sendsOf, List.append_nil, toSend, List.filter_nil, List.map_nil] at h1 h2
    rw [h1, h2]

/-- Whatever is queued was logged. -/
theorem queued_logged {env : PEnv V} {up : Nat → Bool} {tr : List (PLab V)} {s : PState V} (h : PExec env (newProgram up) tr s) {o : Nat} {cfg : ACfg V}
    (hc : s.w.asyncOf env o = some cfg) (t : Nat) : shareOf t (pairsOf (outLabs o tr)) <+ sentBy t o tr := by
  have inv := pexec_inv h
  have h1 := (aexec_order (inv.proj o cfg hc) t).1
  have h2 := inv.order t o (by rw [hc]; simp)
  rw [share_pairs, ← h2]
  exact ((List.sublist_append_left _ _).trans h1).trans (List.sublist_append_left _ _)

theorem async_before {env : PEnv V} {tr0 tr : List (PLab V)} {s s' : PState V} (h : PInv env tr0 s) (he : PExec env s tr s') {o : Nat} {cfg : ACfg V}
    (ho : o < s.w.mgr.oheap.length) (hc : s'.w.asyncOf env o = some cfg) : s.w.asyncOf env o = some cfg := by
  rw [← ext_asyncOf env h.world (ext_exec h he) ho]; exact hc

end Log4g
