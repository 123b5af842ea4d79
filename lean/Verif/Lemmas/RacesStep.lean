import Verif.Lemmas.RacesInv

/-! # Data races: the steps keep the invariant -/

namespace Log4g.Races
open Spec

variable {U : Nat → Nat → Prop} {tr : List Entry} {s : State} {γ : Who → Gh} {pub : Nat → Prop} {lim : Nat}

theorem set_self {α β : Type} [DecidableEq α] (f : α → β) (a : α) (b : β) : set f a b a = b := by simp [set]

theorem set_ne {α β : Type} [DecidableEq α] (f : α → β) {a x : α} (b : β) (h : x ≠ a) : set f a b x = f x := by simp [set, h]

theorem upd_self (m : Mem) (l : Loc) (v : Val l) : m.upd l v l = v := by simp [Mem.upd]

theorem upd_ne (m : Mem) {l l' : Loc} (v : Val l) (h : l' ≠ l) : m.upd l v l' = m l' := by simp [Mem.upd, h]

/-- The entry of a running call. -/
def entry (t : Who) (p : Running) (a : StepKind) : Entry := ⟨t, p.cid, p.task, a⟩

theorem Core.spanOf (h : Core U tr s γ pub lim) {t : Who} {p : Running} (hp : s.running t = some p) (a : StepKind) :
    (∃ b, tr[(entry t p a).cid]? = some b ∧ b.cid = (entry t p a).cid ∧ b.who = (entry t p a).who ∧ b.task = (entry t p a).task) ∧
      ∀ (k : Nat) (a' : Entry) (res : Res), tr[k]? = some a' → a'.act = .ret res → a'.cid ≠ (entry t p a).cid := h.runs t p hp

/-- A step that is no access to memory. -/
theorem Core.plain (h : Core U tr s γ pub lim) {t : Who} {p : Running} (hp : s.running t = some p) {a : StepKind} (h1 : ∀ w l, a ≠ .acc w l)
    (h2 : ∀ res, a ≠ .ret res) : Core U (tr ++ [entry t p a]) s γ pub lim := by
  refine h.add ⟨Or.inr (h.spanOf hp a), fun res e => absurd e (h2 res), ?_, ?_, ?_, ?_, ?_, ?_, ?_, ?_, ?_, ?_, ?_, ?_, ?_⟩
  · rintro m ⟨w, l, e, -⟩; exact absurd e (h1 w l)
  · rintro m ⟨w, l, e, -⟩; exact absurd e (h1 w l)
  · rintro o (e | e) <;> exact absurd e (h1 _ _)
  · exact fun w o e => absurd e (h1 _ _)
  · exact fun w o e => absurd e (h1 _ _)
  · exact fun o e => absurd e (h1 _ _)
  · exact fun o e => absurd e (h1 _ _)
  · exact fun w o e => absurd e (h1 _ _)
  · exact fun w l r e => absurd e (h1 _ _)
  · exact fun w o e => absurd e (h1 _ _)
  · exact fun i a w w' l _ _ e => absurd e (h1 _ _)
  · exact fun r e => absurd e (h2 _)
  · exact fun os e => absurd e (h2 _)

/-- An access to memory that the rules allow. -/
theorem Core.access (h : Core U tr s γ pub lim) (ho : Ordered U tr) {t : Who} {p : Running} (hp : s.running t = some p) (ht : (γ t).task = p.task) {w : Bool} {l : Loc}
    (hm : (γ t).may w l) : Core U (tr ++ [entry t p (.acc w l)]) s γ pub lim := by
  have k := h.th t
  have inj : ∀ {w' : Bool} {l' : Loc}, (entry t p (.acc w l)).act = .acc w' l' → w' = w ∧ l' = l := by
    intro w' l' e
    cases e
    exact ⟨rfl, rfl⟩
  refine h.add ⟨Or.inr (h.spanOf hp _), fun res e => (by cases e), ?_, ?_, ?_, ?_, ?_, ?_, ?_, ?_, ?_, ?_, ?_, fun r e => (by cases e), fun os e => (by cases e)⟩
  · rintro m ⟨w', l', e, hu⟩
    obtain ⟨rfl, rfl⟩ := inj e
    by_cases hf : ∃ r, fieldOf l' = some r
    · obtain ⟨r, hf⟩ := hf
      rw [field_may hf] at hm
      have hl : locked p.task ∧ m = .factory := by cases l' <;> simp [fieldOf, under] at hf hu <;> exact hu
      rw [hl.2]
      rw [← ht] at hl
      show (γ t).fac = true
      unfold Gh.field at hm
      split at hm
      · exact hm.1
      · exact hm
      iterate 4 rename_i heq; rw [heq] at hl; exact hl.1.elim
      exact hm.elim
    · cases l' <;> simp [fieldOf, under] at hf hu <;> subst hu <;> exact hm
  · rintro r ⟨w', l', e, hf, hg⟩
    obtain ⟨rfl, rfl⟩ := inj e
    rw [field_may hf] at hm
    change isGet p.task at hg
    rw [← ht] at hg
    unfold Gh.field at hm
    split at hm
    · have := (k.fac hm.1).1
      omega
    iterate 5 rename_i heq; rw [heq] at hg; exact hg.elim
    exact hm.elim
  · rintro o (e | e)
    · obtain ⟨rfl, rfl⟩ := inj e
      exact absurd hm.1 (by simp)
    · obtain ⟨rfl, rfl⟩ := inj e
      rcases hm with hm | hm
      · exact hm.2
      · exact absurd hm.1 (by simp)
  · intro w' o e
    obtain ⟨rfl, rfl⟩ := inj e
    exact hm.imp And.right fun hm => (k.outs o hm.2).1
  · intro w' o e
    obtain ⟨rfl, rfl⟩ := inj e
    rcases hm.2 with hm | hm | hm
    · exact (k.own o hm).2
    · exact h.pubn o (k.outs o hm).1
    · exact (k.shp o hm).1
  · intro o e
    obtain ⟨rfl, rfl⟩ := inj e
    exact absurd hm.1 (by simp)
  · intro o e
    obtain ⟨rfl, rfl⟩ := inj e
    exact absurd hm.1 (by simp)
  · intro w' o e
    obtain ⟨rfl, rfl⟩ := inj e
    exact (k.evs o hm.2).1
  · intro w' l' r e hf hl
    obtain ⟨rfl, rfl⟩ := inj e
    rw [field_may hf] at hm
    change ¬ locked p.task at hl
    show r < lim ∧ (sets p.task = some r ∨ isLog p.task ∧ w' = false)
    rw [← ht] at hl ⊢
    have := k.view
    unfold Gh.field at hm
    split at hm
    · rename_i heq; rw [heq] at hl; exact absurd trivial hl
    · rename_i heq; rw [heq] at hl; exact absurd trivial hl
    · rename_i heq; rw [heq]; exact ⟨by omega, Or.inl (by rw [hm.1]; rfl)⟩
    · rename_i heq; rw [heq]; exact ⟨by omega, Or.inl (by rw [hm.1]; rfl)⟩
    · rename_i heq; rw [heq]; exact ⟨by omega, Or.inl (by rw [hm.1]; rfl)⟩
    · rename_i heq; rw [heq]; exact ⟨by omega, Or.inr ⟨trivial, hm.2⟩⟩
    · exact hm.elim
  · intro w' o e
    obtain ⟨rfl, rfl⟩ := inj e
    exact h.work t p o hp (ht ▸ hm)
  · intro i a w' w'' l' hi ha e hw hl
    obtain ⟨rfl, rfl⟩ := inj e
    exact h.mayKn ho hp ht hm hi ha hw hl

/-! ## Changes of the state -/

theorem Know.mem {t : Who} {Γ : Gh} (k : Know U tr s pub lim t Γ) (m : Mem) (h : Γ.fac = true → Γ.lmap = m .loggers) :
    Know U tr { s with mem := m } pub lim t Γ :=
  { k with fac := fun hf => ⟨(k.fac hf).1, (k.fac hf).2.1, h hf⟩ }

/-- Other memory. -/
theorem Core.mem (h : Core U tr s γ pub lim) (m : Mem) (hl : ∀ t, (γ t).fac = true → (γ t).lmap = m .loggers) (hroot : ∀ r, m .root = some r → r < s.nlog)
    (hlog : ∀ x ∈ m .loggers, x.2 < s.nlog) (hpar : ∀ r p, m (.parent r) = some p → p < r)
    (hops : ∀ r o, o ∈ m (.ops r) → pub o ∧ ∃ (w : Nat) (b : Entry), tr[w]? = some b ∧ b.act = .acc true (.ops r) ∧ AllHB U tr (.out o) w)
    (hout : ∀ o ∈ (m .outputs).map (·.2), pub o ∧ ∃ (w : Nat) (b : Entry), tr[w]? = some b ∧ b.act = .acc true .outputs ∧ AllHB U tr (.out o) w) :
    Core U tr { s with mem := m } γ pub lim :=
  { h with
    th := fun t => (h.th t).mem m (hl t)
    root := hroot
    loggers := hlog
    parent := hpar
    opsv := hops
    outv := hout }

/-- An assignment to a variable nothing is known about. -/
theorem Core.memOther (h : Core U tr s γ pub lim) (l : Loc) (v : Val l) (h1 : l ≠ .root) (h2 : l ≠ .loggers) (h3 : ∀ r, l ≠ .parent r) (h4 : ∀ r, l ≠ .ops r)
    (h5 : l ≠ .outputs) : Core U tr { s with mem := s.mem.upd l v } γ pub lim := by
  refine h.mem _ ?_ ?_ ?_ ?_ ?_ ?_
  · intro t hf; rw [upd_ne _ _ (Ne.symm h2)]; exact ((h.th t).fac hf).2.2
  · rw [upd_ne _ _ (Ne.symm h1)]; exact h.root
  · rw [upd_ne _ _ (Ne.symm h2)]; exact h.loggers
  · intro r; rw [upd_ne _ _ (Ne.symm (h3 r))]; exact h.parent r
  · intro r; rw [upd_ne _ _ (Ne.symm (h4 r))]; exact h.opsv r
  · rw [upd_ne _ _ (Ne.symm h5)]; exact h.outv

/-- Outputs that a goroutine has made or knows become common knowledge. -/
theorem Core.publish (h : Core U tr s γ pub lim) {t : Who} {os : List Nat} (hk : ∀ o ∈ os, (γ t).knows o) :
    Core U tr s (set γ t ((γ t).publish os)) (fun o => pub o ∨ o ∈ os) lim := by
  have k := h.th t
  have hmem : ∀ o ∈ os, o < s.nout ∧ KnC U tr t (.out o) := by
    intro o ho
    rcases hk o ho with h' | h'
    · exact ⟨(k.own o h').2, fun i a hi hc => by
        rw [← k.mine o h' i a true hi hc]
        exact kn_self hi⟩
    · exact ⟨h.pubn o (k.outs o h').1, (k.outs o h').2⟩
  have hnot : ∀ t' o, t' ≠ t → (γ t').own o → o ∉ os := by
    intro t' o hne hown ho
    rcases hk o ho with h' | h'
    · exact hne (h.inj t' t o hown h')
    · exact ((h.th t').own o hown).1 (k.outs o h').1
  refine { h with th := fun t' => ?_, inj := ?_, pubn := ?_, opsv := ?_, outv := ?_, chan := ?_, reto := ?_ }
  · by_cases e : t' = t
    · subst e
      rw [set_self]
      refine { k with own := ?_, mine := ?_, outs := ?_, lock := ?_, held := ?_ }
      · intro m; cases m <;> exact k.lock _
      · intro m
        cases m with
        | factory => exact k.held .factory
        | manager => exact k.held .manager
        | roll o => exact k.held (.roll o)
      · exact fun o ho => ⟨fun hp => hp.elim (k.own o ho.1).1 ho.2, (k.own o ho.1).2⟩
      · exact fun o ho => k.mine o ho.1
      · exact fun o ho => ho.elim (fun ho => ⟨Or.inl (k.outs o ho).1, (k.outs o ho).2⟩) fun ho => ⟨Or.inr ho, (hmem o ho).2⟩
    · rw [set_ne _ _ e]
      have k' := h.th t'
      refine { k' with own := ?_, outs := ?_ }
      · exact fun o ho => ⟨fun hp => hp.elim (k'.own o ho).1 (hnot t' o e ho), (k'.own o ho).2⟩
      · exact fun o ho => ⟨Or.inl (k'.outs o ho).1, (k'.outs o ho).2⟩
  · intro t1 t2 o h1 h2
    have h1' : (γ t1).own o := by
      by_cases e : t1 = t
      · subst e; rw [set_self] at h1; exact h1.1
      · rw [set_ne _ _ e] at h1; exact h1
    have h2' : (γ t2).own o := by
      by_cases e : t2 = t
      · subst e; rw [set_self] at h2; exact h2.1
      · rw [set_ne _ _ e] at h2; exact h2
    exact h.inj t1 t2 o h1' h2'
  · exact fun o ho => ho.elim (h.pubn o) fun ho => (hmem o ho).1
  · exact fun r o ho => ⟨Or.inl (h.opsv r o ho).1, (h.opsv r o ho).2⟩
  · exact fun o ho => ⟨Or.inl (h.outv o ho).1, (h.outv o ho).2⟩
  · exact fun o e src hm => ⟨(h.chan o e src hm).1, Or.inl (h.chan o e src hm).2.1, (h.chan o e src hm).2.2⟩
  · exact fun q a os hq ha o ho => ⟨Or.inl (h.reto q a os hq ha o ho).1, (h.reto q a os hq ha o ho).2⟩

/-- More outputs and events. -/
theorem Core.more (h : Core U tr s γ pub lim) {nout nevt : Nat} (h1 : s.nout ≤ nout) (h2 : s.nevt ≤ nevt) :
    Core U tr { s with nout := nout, nevt := nevt } γ pub lim :=
  { h with
    th := fun t => { h.th t with
      own := fun o ho => ⟨((h.th t).own o ho).1, Nat.lt_of_lt_of_le ((h.th t).own o ho).2 h1⟩
      shp := fun o ho => ⟨Nat.lt_of_lt_of_le ((h.th t).shp o ho).1 h1, ((h.th t).shp o ho).2⟩
      evs := fun o ho => ⟨Nat.lt_of_lt_of_le ((h.th t).evs o ho).1 h2, ((h.th t).evs o ho).2⟩ }
    pubn := fun o ho => Nat.lt_of_lt_of_le (h.pubn o ho) h1
    made := fun i a w o hi ha => Nat.lt_of_lt_of_le (h.made i a w o hi ha) h1
    evts := fun i a w e hi ha => Nat.lt_of_lt_of_le (h.evts i a w e hi ha) h2
    chan := fun o e src hm => ⟨(h.chan o e src hm).1, (h.chan o e src hm).2.1, Nat.lt_of_lt_of_le (h.chan o e src hm).2.2.1 h2, (h.chan o e src hm).2.2.2⟩
    wrk := fun o ho => ⟨Nat.lt_of_lt_of_le (h.wrk o ho).1 h1, (h.wrk o ho).2⟩ }

/-- Nothing is known of flags, counters, numbers of sends and receives. -/
theorem Core.other (h : Core U tr s γ pub lim) (sent : Nat → Nat) (recvs : Nat → List Nat) (shut closed count : Nat → Bool) :
    Core U tr { s with sent := sent, recvs := recvs, shut := shut, closed := closed, count := count } γ pub lim :=
  { h with th := fun t => { h.th t with } }

/-- Other queues. -/
theorem Core.queue (h : Core U tr s γ pub lim) (chan : Nat → List (Option Nat × Nat))
    (hc : ∀ (o e src : Nat), (some e, src) ∈ chan o → src < tr.length ∧ pub o ∧ e < s.nevt ∧ AllHB U tr (.out o) src ∧ AllHB U tr (.evt e) src) :
    Core U tr { s with chan := chan } γ pub lim :=
  { h with th := fun t => { h.th t with }, chan := hc }

/-- Other workers. -/
theorem Core.workers (h : Core U tr s γ pub lim) (worker : Nat → Nat)
    (h1 : ∀ o, 1 ≤ worker o → o < s.nout ∧ ∃ (g : Nat) (b : Entry), tr[g]? = some b ∧ b.act = .go o ∧ AllHB U tr (.shp o) g)
    (h2 : ∀ o, 2 ≤ worker o → KnC U tr (.worker o) (.shp o)) : Core U tr { s with worker := worker } γ pub lim :=
  { h with th := fun t => { h.th t with }, wrk := h1, wrk2 := h2 }

/-- Other calls under way. -/
theorem Core.calls (h : Core U tr s γ pub lim) (running : Who → Option Running)
    (h1 : ∀ (t : Who) (p : Running), running t = some p → (∃ b, tr[p.cid]? = some b ∧ b.cid = p.cid ∧ b.who = t ∧ b.task = p.task) ∧
      ∀ (k : Nat) (a : Entry) (res : Res), tr[k]? = some a → a.act = .ret res → a.cid ≠ p.cid)
    (h2 : ∀ (t : Who) (p : Running) o, running t = some p → isWork o p.task → t = .worker o) : Core U tr { s with running := running } γ pub lim :=
  { h with th := fun t => { h.th t with }, runs := h1, work := h2 }

/-- A goroutine takes a lock. -/
theorem Core.lockStep (h : Core U tr s γ pub lim) {t : Who} {p : Running} (hp : s.running t = some p) {m : Mx} (hfree : s.owner m = none)
    (hroll : ∀ o, m = .roll o → (γ t).roll = none) :
    ∃ Γ', (γ t).lockTo m Γ' ∧ Core U (tr ++ [entry t p (.lock m)]) { s with owner := set s.owner m (some t) } (set γ t Γ') pub lim := by
  have hn := h.plain hp (a := .lock m) (by simp) (by simp)
  -- what was done under the lock has been seen
  have hheld : KnC U (tr ++ [entry t p (.lock m)]) t (.under m) := by
    intro i a hi hc
    rcases get_app.mp hi with hi | ⟨rfl, rfl⟩
    · obtain ⟨u, b, h1, h2, h3⟩ := h.free m hfree i a hi hc
      refine ⟨tr.length, _, get_app.mpr (Or.inr ⟨rfl, rfl⟩), rfl, Or.inr ?_⟩
      exact .more (before_app h3) (.lock (get_lt h1) (get_left h1) (get_app.mpr (Or.inr ⟨rfl, rfl⟩)) h2 rfl)
    · obtain ⟨w, l, e, -⟩ := hc
      cases e
  have hnone : ∀ t', ¬ (γ t').holds m := by
    intro t' hh
    have := ((h.th t').lock m).mpr hh
    rw [hfree] at this
    cases this
  have k := hn.th t
  -- the others
  have hothers : ∀ t', t' ≠ t → Know U (tr ++ [entry t p (.lock m)]) { s with owner := set s.owner m (some t) } pub lim t' (γ t') := by
    intro t' hne
    refine { hn.th t' with lock := fun m' => ?_ }
    by_cases e : m' = m
    · subst e
      simp only [set_self]
      exact ⟨fun e => absurd (Option.some.inj e).symm hne, fun e => absurd e (hnone t')⟩
    · simp only [set_ne _ _ e]
      exact (hn.th t').lock m'
  have hcore : ∀ Γ', Know U (tr ++ [entry t p (.lock m)]) { s with owner := set s.owner m (some t) } pub lim t Γ' → (∀ o, Γ'.own o → (γ t).own o) →
      Core U (tr ++ [entry t p (.lock m)]) { s with owner := set s.owner m (some t) } (set γ t Γ') pub lim := by
    intro Γ' k' hown
    refine { hn with th := fun t' => ?_, inj := ?_, free := ?_, nofac := ?_ }
    · by_cases e : t' = t
      · subst e; rw [set_self]; exact k'
      · rw [set_ne _ _ e]; exact hothers t' e
    · intro t1 t2 o h1 h2
      have h1' : (γ t1).own o := by
        by_cases e : t1 = t
        · subst e; rw [set_self] at h1; exact hown o h1
        · rw [set_ne _ _ e] at h1; exact h1
      have h2' : (γ t2).own o := by
        by_cases e : t2 = t
        · subst e; rw [set_self] at h2; exact hown o h2
        · rw [set_ne _ _ e] at h2; exact h2
      exact h.inj t1 t2 o h1' h2'
    · intro m' hm'
      by_cases e : m' = m
      · subst e; simp only [set_self] at hm'; cases hm'
      · simp only [set_ne _ _ e] at hm'; exact hn.free m' hm'
    · intro hm'
      by_cases e : Mx.factory = m
      · subst e; simp only [set_self] at hm'; cases hm'
      · simp only [set_ne _ _ e] at hm'; exact hn.nofac hm'
  cases m with
  | factory =>
    have hlim := h.nofac hfree
    refine ⟨{ γ t with fac := true, base := s.nlog, n := s.nlog, lmap := s.mem .loggers }, ⟨s.nlog, s.mem .loggers, h.loggers, rfl⟩, hcore _ ?_ fun _ ho => ho⟩
    refine { k with lock := fun m' => ?_, held := fun m' => ?_, fac := fun _ => ⟨hlim.symm, rfl, rfl⟩ }
    · cases m' with
      | factory => simp [Gh.holds, set_self]
      | manager => simpa [set, Gh.holds, Gh.unlockTo] using k.lock .manager
      | roll o => simpa [set, Gh.holds, Gh.unlockTo] using k.lock (.roll o)
    · cases m' with
      | factory => exact fun _ => hheld
      | manager => exact k.held .manager
      | roll o => exact k.held (.roll o)
  | manager =>
    refine ⟨{ γ t with man := true }, rfl, hcore _ ?_ fun _ ho => ho⟩
    refine { k with lock := fun m' => ?_, held := fun m' => ?_ }
    · cases m' with
      | manager => simp [Gh.holds, set_self]
      | factory => simpa [set, Gh.holds, Gh.unlockTo] using k.lock .factory
      | roll o => simpa [set, Gh.holds, Gh.unlockTo] using k.lock (.roll o)
    · cases m' with
      | manager => exact fun _ => hheld
      | factory => exact k.held .factory
      | roll o => exact k.held (.roll o)
  | roll o =>
    have hr := hroll o rfl
    refine ⟨{ γ t with roll := some o }, rfl, hcore _ ?_ fun _ ho => ho⟩
    refine { k with lock := fun m' => ?_, held := fun m' => ?_ }
    · cases m' with
      | manager => simpa [set, Gh.holds, Gh.unlockTo] using k.lock .manager
      | factory => simpa [set, Gh.holds, Gh.unlockTo] using k.lock .factory
      | roll o' =>
        by_cases e : o' = o
        · subst e; simp [Gh.holds, set_self]
        · have := k.lock (.roll o')
          simp only [Gh.holds, hr] at this
          simp only [set, Gh.holds, Option.some.injEq, Mx.roll.injEq, e, if_false]
          exact ⟨fun h' => absurd (this.mp h') (by simp), fun h' => absurd h'.symm e⟩
    · cases m' with
      | manager => exact k.held .manager
      | factory => exact k.held .factory
      | roll o' =>
        intro e
        simp only [Gh.holds, Option.some.injEq] at e
        subst e
        exact hheld

/-- A goroutine releases a lock. -/
theorem Core.unlockStep (h : Core U tr s γ pub lim) {t : Who} {p : Running} (hp : s.running t = some p) {m : Mx} (hh : (γ t).holds m) :
    ∃ lim', Core U (tr ++ [entry t p (.unlock m)]) { s with owner := set s.owner m none } (set γ t ((γ t).unlockTo m)) pub lim' ∧ (m = .factory ∨ lim' = lim) := by
  have hn := h.plain hp (a := .unlock m) (by simp) (by simp)
  have k := hn.th t
  -- who takes the lock next will see it all
  have hlast : ∀ (i : Nat) (a : Entry), (tr ++ [entry t p (.unlock m)])[i]? = some a → cls (.under m) a →
      ∃ (u : Nat) (b : Entry), (tr ++ [entry t p (.unlock m)])[u]? = some b ∧ b.act = .unlock m ∧ Before U (tr ++ [entry t p (.unlock m)]) i u := by
    intro i a hi hc
    rcases get_app.mp hi with hi | ⟨rfl, rfl⟩
    · exact ⟨tr.length, _, get_app.mpr (Or.inr ⟨rfl, rfl⟩), rfl, kn_last ((h.th t).held m hh i a hi hc)⟩
    · obtain ⟨w, l, e, -⟩ := hc
      cases e
  have hcore : ∀ Γ' lim', lim ≤ lim' → lim' ≤ s.nlog → (m = .factory → lim' = s.nlog) → (m ≠ .factory → lim' = lim) →
      Know U (tr ++ [entry t p (.unlock m)]) { s with owner := set s.owner m none } pub lim' t Γ' → (∀ o, Γ'.own o → (γ t).own o) →
      Core U (tr ++ [entry t p (.unlock m)]) { s with owner := set s.owner m none } (set γ t Γ') pub lim' := by
    intro Γ' lim' hle hle' hfac hnfac k' hown
    refine { hn with th := fun t' => ?_, inj := ?_, lt := hle', free := ?_, nofac := ?_, used := ?_, retl := ?_ }
    · by_cases e : t' = t
      · subst e; rw [set_self]; exact k'
      · rw [set_ne _ _ e]
        refine { hn.th t' with lock := fun m' => ?_, fac := fun hf => ?_, view := Nat.le_trans (hn.th t').view hle }
        · by_cases e' : m' = m
          · subst e'
            simp only [set_self]
            exact ⟨fun e => (by cases e), fun e2 => absurd (h.alone hh e2) e⟩
          · simp only [set_ne _ _ e']
            exact (hn.th t').lock m'
        · have hm : m ≠ .factory := by
            rintro rfl
            exact e (h.alone hh hf)
          rw [hnfac hm]
          exact (hn.th t').fac hf
    · intro t1 t2 o h1 h2
      have h1' : (γ t1).own o := by
        by_cases e : t1 = t
        · subst e; rw [set_self] at h1; exact hown o h1
        · rw [set_ne _ _ e] at h1; exact h1
      have h2' : (γ t2).own o := by
        by_cases e : t2 = t
        · subst e; rw [set_self] at h2; exact hown o h2
        · rw [set_ne _ _ e] at h2; exact h2
      exact h.inj t1 t2 o h1' h2'
    · intro m' hm'
      by_cases e : m' = m
      · subst e; exact hlast
      · simp only [set_ne _ _ e] at hm'; exact hn.free m' hm'
    · intro hm'
      by_cases e : Mx.factory = m
      · exact hfac e.symm
      · simp only [set_ne _ _ e] at hm'
        rw [hnfac (Ne.symm e)]
        exact hn.nofac hm'
    · intro i a w l r hi ha hf hl
      have := hn.used i a w l r hi ha hf hl
      exact ⟨by omega, this.2⟩
    · intro q a r hq ha
      obtain ⟨N, h1, h2, h3⟩ := hn.retl q a r hq ha
      exact ⟨N, h1, by omega, h3⟩
  cases m with
  | factory =>
    have hf := k.fac hh
    refine ⟨s.nlog, hcore _ s.nlog h.lt (Nat.le_refl _) (fun _ => rfl) (fun e => absurd rfl e) ?_ fun _ ho => ho, Or.inl rfl⟩
    refine { k with lock := fun m' => ?_, held := fun m' => ?_, fac := fun e => (by cases e), view := ?_, seen := ?_ }
    · cases m' with
      | factory => simp [Gh.holds, Gh.unlockTo, set_self]
      | manager => simpa [set, Gh.holds, Gh.unlockTo] using k.lock .manager
      | roll o => simpa [set, Gh.holds, Gh.unlockTo] using k.lock (.roll o)
    · cases m' with
      | factory => exact fun e => (by cases e)
      | manager => exact k.held .manager
      | roll o => exact k.held (.roll o)
    · exact Nat.le_of_eq hf.2.1
    · intro r _ i a hi hc
      obtain ⟨w, l, ha, hfl, hg⟩ := hc
      refine k.held .factory hh i a hi ⟨w, l, ha, under_field hfl ?_⟩
      cases hat : a.task <;> simp [hat, isGet] at hg <;> trivial
  | manager =>
    refine ⟨lim, hcore _ lim (Nat.le_refl _) h.lt (fun e => (by cases e)) (fun _ => rfl) ?_ fun _ ho => ho, Or.inr rfl⟩
    refine { k with lock := fun m' => ?_, held := fun m' => ?_ }
    · cases m' with
      | manager => simp [Gh.holds, Gh.unlockTo, set_self]
      | factory => simpa [set, Gh.holds, Gh.unlockTo] using k.lock .factory
      | roll o => simpa [set, Gh.holds, Gh.unlockTo] using k.lock (.roll o)
    · cases m' with
      | manager => exact fun e => (by cases e)
      | factory => exact k.held .factory
      | roll o => exact k.held (.roll o)
  | roll o =>
    refine ⟨lim, hcore _ lim (Nat.le_refl _) h.lt (fun e => (by cases e)) (fun _ => rfl) ?_ fun _ ho => ho, Or.inr rfl⟩
    refine { k with lock := fun m' => ?_, held := fun m' => ?_ }
    · cases m' with
      | manager => simpa [set, Gh.holds, Gh.unlockTo] using k.lock .manager
      | factory => simpa [set, Gh.holds, Gh.unlockTo] using k.lock .factory
      | roll o' =>
        by_cases e : o' = o
        · subst e; simp [Gh.holds, Gh.unlockTo, set_self]
        · have hh' : (γ t).roll = some o := hh
          have := k.lock (.roll o')
          simp only [set, Gh.holds, Gh.unlockTo, hh', Option.some.injEq, Mx.roll.injEq, e, if_false] at this ⊢
          rw [this]
          exact ⟨fun h' => absurd h'.symm e, fun h' => (by cases h')⟩
    · cases m' with
      | manager => exact k.held .manager
      | factory => exact k.held .factory
      | roll o' => exact fun e => (by cases e)

end Log4g.Races
