import Verif.Lemmas.MachineFiles

/-! # Programs and their files: who waits for a write -/

namespace Log4g
open Spec Strconv
open scoped List
variable {V : Type} {env : PEnv V} {host : Host}

/-! ## What a step gives to the writers -/

theorem handle_writes (cfg : ACfg V) (f : Formatter V) (s : AState V) (e : Event V) : (s.handle cfg f e).writes = s.writes ∨ ∃ bs, (s.handle cfg f e).writes = s.writes ++ [bs] := by
  unfold AState.handle
  by_cases h1 : cfg.t ≤ e.level
  · simp only [h1, if_true]
    by_cases h2 : cfg.batchNum ≤ s.currNum + 1
    · simp only [h2, if_true]; exact .inr ⟨_, rfl⟩
    · simp only [h2, if_false]; exact .inl trivial
  · simp only [h1, if_false]; exact .inl trivial

/-- An asynchronous output writes at most once in a step, and if it does, the worker is at work. -/
theorem act_writes {cfg : ACfg V} {s s' : AState V} {l : ALab V} (h : AAct cfg s l s') :
    s'.writes = s.writes ∨ ((l = .tick ∨ ∃ x, l = .took x) ∧ s.worker = .running ∧ ∃ bs, s'.writes = s.writes ++ [bs]) := by
  cases h with
  | tick hw => exact .inr ⟨.inl rfl, hw, _, rfl⟩
  | takeEvent hw _ _ =>
    rcases handle_writes cfg _ _ _ with h | ⟨bs, h⟩
    · exact .inl h
    · exact .inr ⟨.inr ⟨_, rfl⟩, hw, bs, h⟩
  | takeNil hw _ => exact .inr ⟨.inr ⟨_, rfl⟩, hw, _, rfl⟩
  | takeClosed hw _ _ => exact .inr ⟨.inr ⟨_, rfl⟩, hw, _, rfl⟩
  | _ => exact .inl rfl

theorem rollOf_old {w w' : World} {tc : Toolchain} (x : Ext w w') {o : Nat} {c : RCfg} (h : w'.rollOf tc o = some c) (ho : o < w.mgr.oheap.length) : w.rollOf tc o = some c := by
  rw [← ext_rollOf tc x ho]; exact h

/-- Who gives what to a writer: a worker, or a goroutine in `Send`. -/
theorem given_step {up : Nat → Bool} {tr : List (PLab V)} {s s' : PState V} {l : PLab V} (h : PExec env (newProgram up) tr s) (hs : PStep env s l s') (o : Nat) :
    s'.given env o = s.given env o ∨
    (∃ t e stack, l = .plain t o (.send e) ∧ s'.w = s.w ∧ s.w.asyncOf env o = none ∧ (s'.th t).call = (s.th t).call ∧
      s'.given env o = s.given env o ++ s.w.sendWrites env.tc env.lib stack env.other ⟨o, e⟩) ∨
    ∃ a cfg bs, l = .out o a ∧ (a = .tick ∨ ∃ x, a = .took x) ∧ s'.w = s.w ∧ s.w.asyncOf env o = some cfg ∧ (s.a o).worker = .running ∧ s'.given env o = s.given env o ++ [bs] := by
  have hi := pexec_inv h
  have same : s'.w = s.w → s'.wrote o = s.wrote o → (s'.a o).writes = (s.a o).writes → s'.given env o = s.given env o := by
    intro h1 h2 h3
    unfold PState.given
    rw [h1, h2, h3]
  have old : ∀ {x : PState V}, x.w = s.w → x.a = s.a → x.wrote = s.wrote → x.given env o = s.given env o := by
    intro x h1 h2 h3
    unfold PState.given
    rw [h1, h2, h3]
  cases hs.2 with
  | @act a hok _ _ _ =>
    obtain ⟨wi, x⟩ := step_inv hi.world a hok
    left
    by_cases ho : o < s.w.mgr.oheap.length
    · unfold PState.given
      simp only
      rw [ext_asyncOf env hi.world x ho]
    · have h1 := given_new h (o := o) (by omega)
      rw [h1]
      unfold PState.given
      have hn : s.w.asyncOf env o = none := by
        unfold World.asyncOf
        rw [List.getElem?_eq_none (by omega)]
      have h3 : s.wrote o = [] := by
        unfold PState.given at h1
        rw [hn] at h1
        exact h1
      simp only
      split
      · rw [(hi.none o hn).2.1]; rfl
      · exact h3
  | actPanic _ => exact .inl (old rfl rfl rfl)
  | logPanic _ _ _ => exact .inl (old rfl rfl rfl)
  | log _ _ _ => exact .inl (old rfl rfl rfl)
  | close _ _ _ => exact .inl (old rfl rfl rfl)
  | direct _ _ => exact .inl (old rfl rfl rfl)
  | @enter t k p c rest cfg ht hc =>
    left
    refine same rfl rfl ?_
    show ((s.setOut p ((s.a p).push t c)).a o).writes = _
    rw [setOut_a]
    split
    · rename_i e; subst e; rfl
    · rfl
  | @out p a x cfg hc hx =>
    by_cases e : o = p
    · subst e
      rcases act_writes hx.2 with k | ⟨k1, k2, bs, k3⟩
      · left
        refine same rfl rfl ?_
        show ((s.setOut o x).a o).writes = _
        rw [setOut_a, if_pos rfl, k]
      · refine .inr (.inr ⟨a, cfg, bs, rfl, k1, rfl, hc, k2, ?_⟩)
        unfold PState.given
        show (match s.w.asyncOf env o with | some _ => ((s.setOut o x).a o).writes | none => _) = _
        rw [hc, setOut_a, if_pos rfl]
        exact k3
    · left
      refine same rfl rfl ?_
      show ((s.setOut p x).a o).writes = _
      rw [setOut_a, if_neg e]
  | leave _ _ => exact .inl (old rfl rfl rfl)
  | @send t k p e rest stack ht hc =>
    by_cases ep : o = p
    · subst ep
      refine .inr (.inl ⟨t, e, stack, rfl, rfl, hc, by rw [pset_th, if_pos rfl, ht], ?_⟩)
      unfold PState.given
      show (match s.w.asyncOf env o with | some _ => _ | none => if o = o then _ else _) = _
      rw [hc, if_pos rfl]
    · left
      refine same rfl ?_ rfl
      show (if o = p then _ else _) = _
      rw [if_neg ep]
  | closed _ _ => exact .inl (old rfl rfl rfl)
  | ret _ => exact .inl (old rfl rfl rfl)

/-! ## Goroutines that wait -/

theorem sync_back {w w' : World} (inv : WInv w) (x : Ext w w') {o : Nat} (ho : o < w.mgr.oheap.length) {l : Level} {f : List Frame → Option (Formatter V)}
    (h : SyncOut env w' o l f) : SyncOut env w o l f := by
  obtain ⟨ob, h1, h2, h3⟩ := h
  rw [ext_oheap x ho] at h1
  exact ⟨ob, h1, fun stack => by rw [h2, ext_formatter env.lib env.other inv x h1], h3⟩

/-- Of a goroutine `u` that waits for the writer of output `o`: what it has done last is to send an event to `o`, and no event
sent to `o` since then was written. -/
structure Waiting (env : PEnv V) (w : World) (tr : List (PLab V)) (o u : Nat) : Prop where
  cut : ∃ x e y, tr = x ++ .plain u o (.send e) :: y ∧ (∀ l ∈ y, l.goroutine ≠ some u) ∧
    ∀ l f, SyncOut env w o l f → l ≤ e.level ∧ accepted l ((plainSends o y).map (·.2)) = []

structure Waits (env : PEnv V) (tr : List (MLab V)) (m : Machine V) : Prop where
  call : ∀ o u, m.by_ o = some u → (m.p.th u).call ≠ none
  cut : ∀ o u, m.by_ o = some u → Waiting env m.p.w (progOf tr) o u
  sync : ∀ o, m.p.w.asyncOf env o = none → (m.wr o).job ≠ none → ∃ u, m.by_ o = some u

/-- The steps of other goroutines leave a goroutine alone. -/
theorem other_goroutine {s s' : PState V} {l : PLab V} (h : PAct env s l s') {u : Nat} (hu : l.goroutine ≠ some u) : s'.th u = s.th u := by
  have set : ∀ {s1 : PState V} {t : Nat} {x : PThread V}, (some t : Option Nat) ≠ some u → s1.th = s.th → (s1.set t x).th u = s.th u := by
    intro s1 t x h1 h2
    rw [pset_th, if_neg (by rintro rfl; exact h1 rfl), h2]
  cases h with
  | act _ _ _ _ => rfl
  | actPanic _ => rfl
  | logPanic _ _ _ => rfl
  | out _ _ => rfl
  | log _ _ _ => exact set hu rfl
  | close _ _ _ => exact set hu rfl
  | direct _ _ => exact set hu rfl
  | enter _ _ => exact set hu rfl
  | leave _ _ => exact set hu rfl
  | send _ _ _ => exact set hu rfl
  | closed _ _ => exact set hu rfl
  | ret _ => exact set hu rfl

theorem waits_step {up : Nat → Bool} {v0 : Nat → Volume} {tr : List (MLab V)} {m m' : Machine V} {l : MLab V} (inv : MInv env host up v0 tr m) (h : Waits env tr m)
    (hs : MStep env host m l m') : Waits env (tr ++ [l]) m' := by
  -- the writer of a goroutine that waits is there already
  have there : ∀ q u, m.by_ q = some u → q < m.p.w.mgr.oheap.length := by
    intro q u hq
    cases e : m.p.w.rollOf env.tc q with
    | none => rw [(inv.idle q e).2.1] at hq; cases hq
    | some c => exact rollOf_lt e
  -- a goroutine that waited before goes on waiting
  have keep : ∀ {l : PLab V} {p : PState V}, PStep env m.p l p → m.lets l → ∀ q u, m.by_ q = some u → (p.given env q = m.p.given env q) →
      (p.th u).call ≠ none ∧ Waiting env p.w (progOf tr ++ [l]) q u := by
    intro l p hp hl q u hq hg
    have hu : l.goroutine ≠ some u := fun e => hl.1 u e q hq
    refine ⟨by rw [other_goroutine hp.2 hu]; exact h.call q u hq, ?_⟩
    obtain ⟨x, e, y, h1, h2, h3⟩ := (h.cut q u hq).cut
    have pinv := pexec_inv inv.prog
    refine ⟨x, e, y ++ [l], by rw [h1]; simp, fun l' hm => ?_, fun lv f hf => ?_⟩
    · rcases List.mem_append.mp hm with hm | hm
      · exact h2 l' hm
      · obtain rfl := List.mem_singleton.mp hm; exact hu
    · have hf' := sync_back pinv.world (ext_step pinv hp) (there q u hq) hf
      obtain ⟨h4, h5⟩ := h3 lv f hf'
      refine ⟨h4, ?_⟩
      rw [plainSends_append, List.map_append, accepted_append, h5, List.nil_append]
      rcases hp with ⟨_, hp⟩
      cases hp with
      | @send t k p e' rest stack ht hc =>
        by_cases ep : p = q
        · subst ep
          have hw := sync_writes hf' stack e'
          have : m.p.w.sendWrites env.tc env.lib stack env.other ⟨p, e'⟩ = [] := by
            unfold PState.given at hg
            have hg : (match m.p.w.asyncOf env p with | some _ => _ | none => if p = p then m.p.wrote p ++ m.p.w.sendWrites env.tc env.lib stack env.other ⟨p, e'⟩ else _) =
              (match m.p.w.asyncOf env p with | some _ => _ | none => m.p.wrote p) := hg
            rw [hc, if_pos rfl] at hg
            simpa using hg
          rw [this] at hw
          have hw := hw.symm
          rw [List.map_eq_nil_iff] at hw
          simpa [plainSends] using hw
        · simp [plainSends, ep, accepted]
      | _ => rfl
  cases hs with
  | @prog l p hp hl hg =>
    have hpr : progOf (tr ++ [.prog l]) = progOf tr ++ [l] := by rw [progOf_append]; rfl
    have rolled : ∀ q u, m.by_ q = some u → p.given env q = m.p.given env q := by
      intro q u hq
      cases e : m.p.w.rollOf env.tc q with
      | none => rw [(inv.idle q e).2.1] at hq; cases hq
      | some c => exact hg q c (roll_ext (ext_step (pexec_inv inv.prog) hp) e)
    refine ⟨fun q u hq => (keep hp hl q u hq (rolled q u hq)).1, fun q u hq => ?_, fun q hq hj => ?_⟩
    · rw [hpr]; exact (keep hp hl q u hq (rolled q u hq)).2
    · refine h.sync q ?_ hj
      have hlt : q < m.p.w.mgr.oheap.length := by
        cases e : m.p.w.rollOf env.tc q with
        | none => exact absurd (by rw [(inv.idle q e).1]) hj
        | some c => exact rollOf_lt e
      rw [← ext_asyncOf env (pexec_inv inv.prog).world (ext_step (pexec_inv inv.prog) hp) hlt]
      exact hq
  | @write l p o c bs hp hl ho hg hg' hj =>
    have hpr : progOf (tr ++ [.write l (host.place c.dirPath) o bs]) = progOf tr ++ [l] := by rw [progOf_append]; rfl
    have pinv := pexec_inv inv.prog
    have rolled : ∀ q u, q ≠ o → m.by_ q = some u → p.given env q = m.p.given env q := by
      intro q u hn hq
      cases e : m.p.w.rollOf env.tc q with
      | none => rw [(inv.idle q e).2.1] at hq; cases hq
      | some c => exact hg' q c hn (roll_ext (ext_step pinv hp) e)
    have new := given_step inv.prog hp o
    have key : ∀ u, l.goroutine = some u → p.w.asyncOf env o = none ∧ (p.th u).call ≠ none ∧ Waiting env p.w (progOf tr ++ [l]) o u := by
      intro u hu
      rcases new with new | ⟨t, e, stack, rfl, hw, hc, hcall, new⟩ | ⟨a, cfg, bs', rfl, ha, _⟩
      · rw [new] at hg; simp at hg
      · have hu : t = u := by simpa [PLab.goroutine] using hu
        subst hu
        have hw' := hw
        refine ⟨by rw [hw]; exact hc, ?_, ?_⟩
        · rw [hcall]
          intro e'
          have hp' := hp.2
          cases hp' with
          | send _ ht _ =>
            have := pinv.rest t e'
            rw [ht] at this
            simp at this
        · refine ⟨progOf tr, e, [], rfl, by simp, fun lv f hf => ⟨?_, rfl⟩⟩
          rw [hw] at hf
          rw [sync_writes hf stack e] at new
          rw [new] at hg
          have := List.append_cancel_left hg
          by_cases hle : lv ≤ e.level
          · exact hle
          · simp [accepted, hle] at this
      · rcases ha with rfl | ⟨x, rfl⟩ <;> simp [PLab.goroutine] at hu
    refine ⟨fun q u hq => ?_, fun q u hq => ?_, fun q hq hq' => ?_⟩
    · simp only [Machine.setWr] at hq ⊢
      by_cases e : q = o
      · subst e; rw [if_pos rfl] at hq; exact (key u hq).2.1
      · rw [if_neg e] at hq; exact (keep hp hl q u hq (rolled q u e hq)).1
    · rw [hpr]
      simp only [Machine.setWr] at hq ⊢
      by_cases e : q = o
      · subst e; rw [if_pos rfl] at hq; exact (key u hq).2.2
      · rw [if_neg e] at hq; exact (keep hp hl q u hq (rolled q u e hq)).2
    · simp only [Machine.setWr] at hq hq' ⊢
      by_cases e : q = o
      · subst e
        rw [if_pos rfl]
        rcases new with new | ⟨t, e, stack, rfl, hw, hc, hcall, new⟩ | ⟨a, cfg, bs', rfl, ha, hw, hc, _⟩
        · rw [new] at hg; simp at hg
        · exact ⟨t, rfl⟩
        · rw [hw, hc] at hq; cases hq
      · rw [if_neg e] at hq' ⊢
        refine h.sync q ?_ hq'
        have hlt : q < m.p.w.mgr.oheap.length := by
          cases e : m.p.w.rollOf env.tc q with
          | none => exact absurd (by rw [(inv.idle q e).1]) hq'
          | some c => exact rollOf_lt e
        rw [← ext_asyncOf env pinv.world (ext_step pinv hp) hlt]
        exact hq
  | @sys o c msg op k r v' h' hp ho hj hv =>
    have hpr : progOf (tr ++ [.sys (host.place c.dirPath) o ⟨op, r⟩]) = progOf tr := by rw [progOf_append]; simp [progOf]
    refine ⟨h.call, fun q u hq => by rw [hpr]; exact h.cut q u hq, fun q hq hq' => ?_⟩
    simp only [Machine.setWr] at hq hq' ⊢
    by_cases e : q = o
    · subst e; exact h.sync q hq (by rw [hj]; simp)
    · rw [if_neg e] at hq'; exact h.sync q hq hq'
  | @done o c msg res rw' hp ho hj =>
    have hpr : progOf (tr ++ [.done (host.place c.dirPath) o msg res]) = progOf tr := by rw [progOf_append]; simp [progOf]
    refine ⟨fun q u hq => ?_, fun q u hq => ?_, fun q hq hq' => ?_⟩
    · simp only [Machine.setWr] at hq ⊢
      by_cases e : q = o
      · rw [if_pos e] at hq; cases hq
      · rw [if_neg e] at hq; exact h.call q u hq
    · rw [hpr]
      simp only [Machine.setWr] at hq ⊢
      by_cases e : q = o
      · rw [if_pos e] at hq; cases hq
      · rw [if_neg e] at hq; exact h.cut q u hq
    · simp only [Machine.setWr] at hq hq' ⊢
      by_cases e : q = o
      · rw [if_pos e] at hq'; exact absurd rfl hq'
      · rw [if_neg e] at hq' ⊢; exact h.sync q hq hq'

theorem mexec_waits {up : Nat → Bool} {v0 : Nat → Volume} {tr : List (MLab V)} {m : Machine V} (h : MExec env host (newMachine up v0) tr m) : Waits env tr m := by
  generalize h0 : newMachine up v0 = m0 at h
  induction h with
  | nil => subst h0; exact ⟨fun o u h => (by cases h), fun o u h => (by cases h), fun o _ h => absurd rfl h⟩
  | snoc he hs ih => subst h0; exact waits_step (mexec_inv he) ih hs

/-! ## Synchronous outputs -/

/-- If the goroutines of the steps in `b` do not include `t`, it is where it was. -/
theorem idle_run {s s' : PState V} {b : List (PLab V)} (h : PExec env s b s') {t : Nat} (hb : ∀ l ∈ b, l.goroutine ≠ some t) : s'.th t = s.th t := by
  induction h with
  | nil => rfl
  | snoc _ hs ih => rw [other_goroutine hs.2 (hb _ (by simp)), ih fun l hl => hb l (by simp [hl])]

/-- The event a goroutine waits for was not sent by a call that has returned. -/
theorem not_returned {up : Nat → Bool} {s : PState V} {a b x y : List (PLab V)} {u o : Nat} {e : Event V} (h : PExec env (newProgram up) (a ++ b) s)
    (hcall : (s.th u).call ≠ none) (hcut : a ++ b = x ++ .plain u o (.send e) :: y) (hy : ∀ l ∈ y, l.goroutine ≠ some u) (hr : Returned u a) : ∃ z, x = a ++ z := by
  obtain ⟨s1, h1, h2⟩ := h.split
  have hrest := at_rest h1 hr
  rcases List.append_eq_append_iff.mp hcut with ⟨z, rfl, _⟩ | ⟨z, rfl, hz⟩
  · exact ⟨z, rfl⟩
  · cases z with
    | nil => exact ⟨[], by simp⟩
    | cons w z =>
      simp only [List.cons_append, List.cons.injEq] at hz
      obtain ⟨rfl, rfl⟩ := hz
      exfalso
      apply hcall
      rw [idle_run h2 fun l hl => hy l (List.mem_append_right _ hl), hrest]

theorem linesOf_append (lib : Lib V) (t : Level) (f : List Frame → Option (Formatter V)) (a b : List (Nat × Event V × List Frame)) :
    linesOf lib t f (a ++ b) = linesOf lib t f a ++ linesOf lib t f b := by simp [linesOf]

/-- The events a synchronous output was sent: those written, the one being written, and some since then below the threshold. -/
theorem sync_split {up : Nat → Bool} {v0 : Nat → Volume} {tr : List (MLab V)} {m : Machine V} (inv : MInv env host up v0 tr m) (hw : Waits env tr m) {o : Nat} {c : RCfg}
    (hr : m.p.w.rollOf env.tc o = some c) {l : Level} {f : List Frame → Option (Formatter V)} (hc : SyncOut env m.p.w o l f) {before : List Bytes}
    (hg : m.p.given env o = before ++ doing (m.wr o)) :
    ∃ done current after, calls (done ++ current ++ after) = plainSends o (progOf tr) ∧ linesOf env.lib l f done = before ∧ linesOf env.lib l f current = doing (m.wr o) ∧
      linesOf env.lib l f after = [] ∧ current.length ≤ 1 ∧ ((m.wr o).job = none → current = [] ∧ after = []) ∧
      ∀ t a b, progOf tr = a ++ b → Returned t a → sentBy t o a <+: shareOf t (calls (done ++ after)) := by
  obtain ⟨q, hq⟩ := pexec_sinv inv.prog
  have hnone := sync_none hc
  have hlines : m.p.given env o = linesOf env.lib l f (q o) := by
    unfold PState.given
    rw [hnone]
    simp only
    rw [hq.wrote, sync_lines hc]
  have hpo := plain_order inv.prog hnone
  cases hj : (m.wr o).job with
  | none =>
    have hd : doing (m.wr o) = [] := by simp [doing, hj]
    rw [hd, List.append_nil] at hg
    refine ⟨q o, [], [], by simpa using hq.made o, by rw [← hlines, hg], by rw [hd]; rfl, rfl, by simp, fun _ => ⟨rfl, rfl⟩, fun t a b e hret => ?_⟩
    rw [List.append_nil, hq.made]
    exact (hpo t).2 a b e hret
  | some x =>
    obtain ⟨msg, pr⟩ := x
    obtain ⟨u, hu⟩ := hw.sync o hnone (by rw [hj]; simp)
    obtain ⟨x, e, y, h1, h2, h3⟩ := (hw.cut o u hu).cut
    obtain ⟨h4, h5⟩ := h3 l f hc
    have hm := hq.made o
    have hps : plainSends o (progOf tr) = plainSends o x ++ (u, e) :: plainSends o y := by
      rw [h1, plainSends_append, show PLab.plain u o (.send e) :: y = [PLab.plain u o (.send e)] ++ y from rfl, plainSends_append]
      simp [plainSends]
    rw [hps] at hm
    obtain ⟨q1, q2, e1, e2, e3⟩ := List.map_eq_append_iff.mp hm
    obtain ⟨z, q3, rfl, e4, e5⟩ := List.map_eq_cons_iff.mp e3
    obtain ⟨zu, ze, zs⟩ := z
    simp only [Prod.mk.injEq] at e4
    obtain ⟨rfl, rfl⟩ := e4
    have hafter : linesOf env.lib l f q3 = [] := by
      have : (q3.map fun x => (x.1, x.2.1)).map (·.2) = (plainSends o y).map (·.2) := by rw [e5]
      rw [← this, List.map_map] at h5
      unfold linesOf
      rw [List.map_eq_nil_iff]
      unfold accepted at h5
      rw [List.filter_map, List.map_eq_nil_iff] at h5
      exact h5
    have hcur : linesOf env.lib l f [(zu, ze, zs)] = [textOf env.lib (f zs) ze] := by simp [linesOf, h4]
    have hd : doing (m.wr o) = [msg] := by simp [doing, hj]
    rw [hlines, e1, show (zu, ze, zs) :: q3 = [(zu, ze, zs)] ++ q3 from rfl, linesOf_append, linesOf_append, hafter, List.append_nil, hcur, hd] at hg
    obtain ⟨g1, g2⟩ := List.append_inj' hg rfl
    refine ⟨q1, [(zu, ze, zs)], q3, ?_, g1, by rw [hcur, hd, g2], hafter, by simp, (by simp), fun t a b ht hret => ?_⟩
    · rw [← hq.made o, e1]; simp
    · have hsh : shareOf t (calls (q1 ++ q3)) = shareOf t (plainSends o x) ++ shareOf t (plainSends o y) := by
        rw [calls_append, shareOf_append, calls, calls, e2, e5]
      rw [hsh]
      by_cases htu : t = zu
      · subst htu
        obtain ⟨z, rfl⟩ := not_returned (ht ▸ inv.prog) (hw.call o t hu) (by rw [← ht]; exact h1) h2 hret
        have := (hpo t).2 a b ht hret
        have hfirst : sentBy t o a <+: shareOf t (plainSends o a) := by
          obtain ⟨s1, k1, k2⟩ := (ht ▸ inv.prog : PExec env (newProgram up) (a ++ b) m.p).split
          have pinv := pexec_inv k1
          by_cases hlt : o < s1.w.mgr.oheap.length
          · exact (plain_order k1 (by rw [← ext_asyncOf env pinv.world (ext_exec pinv k2) hlt]; exact hnone) t).2 a [] (by simp) hret
          · rw [pinv.fresh t o (by omega)]; exact List.nil_prefix
        rw [plainSends_append, shareOf_append, List.append_assoc]
        exact hfirst.trans (List.prefix_append _ _)
      · have := (hpo t).2 a b ht hret
        rw [hps, shareOf_append] at this
        have hcons : shareOf t ((zu, ze) :: plainSends o y) = shareOf t (plainSends o y) := by
          simp [shareOf, Ne.symm htu]
        rw [hcons] at this
        exact this

end Log4g
