import Verif.Lemmas.RacesStep

/-! # Data races: executions keep the invariant -/

namespace Log4g.Races
open Spec

variable {U : Nat → Nat → Prop} {tr : List Entry} {s : State} {γ : Who → Gh} {pub : Nat → Prop} {lim : Nat}

theorem set_set {α β : Type} [DecidableEq α] (f : α → β) (a : α) (b c : β) : set (set f a b) a c = set f a c := by
  funext x
  by_cases e : x = a
  · subst e; rw [set_self, set_self]
  · rw [set_ne _ _ e, set_ne _ _ e, set_ne _ _ e]

theorem learn_eq {Γ : Gh} {l : Loc} {v : Val l} (h1 : ∀ r, l ≠ .ops r) (h2 : l ≠ .outputs) : Γ.learn l v = Γ := by
  cases l <;> first | rfl | exact absurd rfl (h1 _) | exact absurd rfl h2

theorem wrote_eq {Γ : Gh} {l : Loc} {v : Val l} (h1 : ∀ r, l ≠ .ops r) (h2 : l ≠ .outputs) (h3 : l ≠ .loggers) : Γ.wrote l v = Γ := by
  cases l <;> first | rfl | exact absurd rfl (h1 _) | exact absurd rfl h2 | exact absurd rfl h3

theorem last_get {x : Entry} : (tr ++ [x])[tr.length]? = some x := get_app.mpr (Or.inr ⟨rfl, rfl⟩)

/-- More outputs are known. -/
theorem Core.learnOuts (h : Core U tr s γ pub lim) {t : Who} {os : List Nat} (ho : ∀ o ∈ os, pub o ∧ KnC U tr t (.out o)) :
    Core U tr s (set γ t { γ t with outs := fun o => (γ t).outs o ∨ o ∈ os }) pub lim := by
  have k := h.th t
  refine h.reghost { k with outs := fun o h' => h'.elim (k.outs o) (ho o), lock := fun m => ?_, held := fun m => ?_ } fun t' o hne h1 h2 => hne (h.inj t' t o h2 h1)
  · cases m <;> exact k.lock _
  · cases m with
    | factory => exact k.held .factory
    | manager => exact k.held .manager
    | roll o => exact k.held (.roll o)

/-- What the invariant says about a step. -/
def Next (U : Nat → Nat → Prop) (tr : List Entry) (γ : Who → Gh) (pub : Nat → Prop) (lim : Nat) (t : Who) (p : Running) (a : StepKind) (k : Code Res) (s' : State) : Prop :=
  ∃ γ' pub' lim', Core U (tr ++ [entry t p a]) s' γ' pub' lim' ∧ wp k Post (γ' t) ∧ (γ' t).task = p.task ∧ (∀ t', t' ≠ t → γ' t' = γ t') ∧
    (∀ o, pub o → pub' o) ∧ (a = .unlock .factory ∨ lim' = lim)

theorem Next.set {t : Who} {p : Running} {a : StepKind} {k : Code Res} {s' : State} {Γ : Gh} {pub' : Nat → Prop} {lim' : Nat}
    (h : Core U (tr ++ [entry t p a]) s' (Races.set γ t Γ) pub' lim') (hw : wp k Post Γ) (ht : Γ.task = p.task)
    (hpub : ∀ o, pub o → pub' o := by first | exact fun _ h => h | exact fun _ h => Or.inl h) (hlim : a = .unlock .factory ∨ lim' = lim := by exact Or.inr rfl) :
    Next U tr γ pub lim t p a k s' :=
  ⟨_, _, _, h, by rw [set_self]; exact hw, by rw [set_self]; exact ht, fun t' hne => set_ne _ _ hne, hpub, hlim⟩

theorem Next.same {t : Who} {p : Running} {a : StepKind} {k : Code Res} {s' : State} {pub' : Nat → Prop} {lim' : Nat}
    (h : Core U (tr ++ [entry t p a]) s' γ pub' lim') (hw : wp k Post (γ t)) (ht : (γ t).task = p.task)
    (hpub : ∀ o, pub o → pub' o := by first | exact fun _ h => h | exact fun _ h => Or.inl h) (hlim : a = .unlock .factory ∨ lim' = lim := by exact Or.inr rfl) :
    Next U tr γ pub lim t p a k s' :=
  ⟨_, _, _, h, hw, ht, fun _ _ => rfl, hpub, hlim⟩

theorem step_read (h : Core U tr s γ pub lim) (ho : Ordered U tr) {t : Who} {p : Running} (hp : s.running t = some p) (ht : (γ t).task = p.task)
    {l : Loc} {k : Val l → Code Res} (hw : wp (.read l k) Post (γ t)) : Next U tr γ pub lim t p (.acc false l) (k (s.mem l)) s := by
  obtain ⟨hm, hk⟩ := hw
  have hc := h.access ho hp ht hm
  have kn := h.th t
  have hval : (γ t).val l (s.mem l) := by
    cases l <;> try trivial
    · intro r hr
      rw [(kn.fac hm).2.1]
      exact h.root r hr
    · exact (kn.fac hm).2.2.symm
    · exact h.parent _
  have hw' := hk _ hval
  -- outputs whose last writer has been seen
  have hsee : ∀ (l : Loc) (o : Nat), ¬ exempt l → pub o → (∃ (w : Nat) (b : Entry), tr[w]? = some b ∧ b.act = .acc true l ∧ AllHB U tr (.out o) w) →
      Core U (tr ++ [entry t p (.acc false l)]) s γ pub lim → pub o ∧ KnC U (tr ++ [entry t p (.acc false l)]) t (.out o) := by
    intro l o hl hp' ⟨w, b, h1, h2, h3⟩ hc
    refine ⟨hp', knc_of_all (all_app h3 ?_) ⟨tr.length, _, last_get, rfl, Or.inr ?_⟩⟩
    · rintro (e | e) <;> cases e
    · exact hc.safe w tr.length b _ true false l (get_lt h1) (get_left h1) last_get h2 rfl (Or.inl rfl) hl
  by_cases h1 : ∃ r, l = .ops r
  · obtain ⟨r, rfl⟩ := h1
    exact Next.set (hc.learnOuts (os := s.mem (.ops r)) fun o ho' => hsee _ o (by simp [exempt]) (h.opsv r o ho').1 (h.opsv r o ho').2 hc) hw' ht
  · by_cases h2 : l = .outputs
    · subst h2
      exact Next.set (hc.learnOuts (os := (s.mem .outputs).map Prod.snd) fun o ho' => hsee _ o (by simp [exempt]) (h.outv o ho').1 (h.outv o ho').2 hc) hw' ht
    · rw [learn_eq (fun r e => h1 ⟨r, e⟩) h2] at hw'
      exact Next.same hc hw' ht

theorem step_write (h : Core U tr s γ pub lim) (ho : Ordered U tr) {t : Who} {p : Running} (hp : s.running t = some p) (ht : (γ t).task = p.task)
    {l : Loc} {v : Val l} {k : Code Res} (hw : wp (.write l v k) Post (γ t)) : Next U tr γ pub lim t p (.acc true l) k { s with mem := s.mem.upd l v } := by
  obtain ⟨hm, hst, hk⟩ := hw
  have kn := h.th t
  by_cases h1 : ∃ r, l = .ops r
  · obtain ⟨r, rfl⟩ := h1
    have hpb := h.publish (t := t) (os := v) hst
    have hc := hpb.access ho hp (t := t) (w := true) (l := .ops r) (by rw [set_self]; exact ht) (by rw [set_self]; exact hm)
    have k' := hpb.th t
    rw [set_self] at k'
    refine Next.set (Γ := (γ t).publish v) (hc.mem (s.mem.upd (.ops r) v) ?_ ?_ ?_ ?_ ?_ ?_) hk ht
    · intro t' hf; rw [upd_ne _ _ (by simp)]; exact ((hc.th t').fac hf).2.2
    · rw [upd_ne _ _ (by simp)]; exact hc.root
    · rw [upd_ne _ _ (by simp)]; exact hc.loggers
    · intro r'; rw [upd_ne _ _ (by simp)]; exact hc.parent r'
    · intro r' o ho'
      by_cases e : r' = r
      · subst e
        rw [upd_self] at ho'
        exact ⟨Or.inr ho', tr.length, _, last_get, rfl, all_last (k'.outs o (Or.inr ho')).2⟩
      · rw [upd_ne _ _ (by simpa using e)] at ho'
        exact hc.opsv r' o ho'
    · rw [upd_ne _ _ (by simp)]; exact hc.outv
  · by_cases h2 : l = .outputs
    · subst h2
      have hpb := h.publish (t := t) (os := List.map Prod.snd (v : Map Str Nat)) hst
      have hc := hpb.access ho hp (t := t) (w := true) (l := .outputs) (by rw [set_self]; exact ht) (by rw [set_self]; exact hm)
      have k' := hpb.th t
      rw [set_self] at k'
      refine Next.set (Γ := (γ t).publish (List.map Prod.snd (v : Map Str Nat))) (hc.mem (s.mem.upd .outputs v) ?_ ?_ ?_ ?_ ?_ ?_) hk ht
      · intro t' hf; rw [upd_ne _ _ (by simp)]; exact ((hc.th t').fac hf).2.2
      · rw [upd_ne _ _ (by simp)]; exact hc.root
      · rw [upd_ne _ _ (by simp)]; exact hc.loggers
      · intro r'; rw [upd_ne _ _ (by simp)]; exact hc.parent r'
      · intro r'; rw [upd_ne _ _ (by simp)]; exact hc.opsv r'
      · intro o ho'
        rw [upd_self] at ho'
        exact ⟨Or.inr ho', tr.length, _, last_get, rfl, all_last (k'.outs o (Or.inr ho')).2⟩
    · have hc := h.access ho hp ht hm
      by_cases h3 : l = .loggers
      · subst h3
        have hf := kn.fac hm
        have k' := hc.th t
        -- first the ghost and the memory together
        refine Next.set (Γ := { γ t with lmap := v }) (pub' := pub) (lim' := lim) ?_ hk ht
        refine { hc with th := fun t' => ?_, inj := ?_, root := ?_, loggers := ?_, parent := ?_, opsv := ?_, outv := ?_ }
        · by_cases e : t' = t
          · subst e
            rw [set_self]
            refine { k' with lock := fun m => ?_, held := fun m => ?_, fac := fun _ => ⟨hf.1, hf.2.1, by simp [upd_self]⟩ }
            · cases m <;> exact k'.lock _
            · cases m with
              | factory => exact k'.held .factory
              | manager => exact k'.held .manager
              | roll o => exact k'.held (.roll o)
          · rw [set_ne _ _ e]
            exact (hc.th t').mem _ fun hf' => absurd (h.alone (m := .factory) hm hf') e
        · intro t1 t2 o h1 h2
          have h1' : (γ t1).own o := by
            by_cases e : t1 = t
            · subst e; rw [set_self] at h1; exact h1
            · rw [set_ne _ _ e] at h1; exact h1
          have h2' : (γ t2).own o := by
            by_cases e : t2 = t
            · subst e; rw [set_self] at h2; exact h2
            · rw [set_ne _ _ e] at h2; exact h2
          exact h.inj t1 t2 o h1' h2'
        · simp only [upd_ne s.mem v (l' := .root) (by simp)]; exact hc.root
        · simp only [upd_self]
          have : ∀ x ∈ v, x.2 < (γ t).n := hst
          rw [hf.2.1] at this
          exact this
        · intro r'; simp only [upd_ne s.mem v (l' := .parent r') (by simp)]; exact hc.parent r'
        · intro r'; simp only [upd_ne s.mem v (l' := .ops r') (by simp)]; exact hc.opsv r'
        · simp only [upd_ne s.mem v (l' := .outputs) (by simp)]; exact hc.outv
      · rw [wrote_eq (fun r e => h1 ⟨r, e⟩) h2 h3] at hk
        refine Next.same (pub' := pub) (lim' := lim) ?_ hk ht
        by_cases h4 : l = .root
        · subst h4
          refine hc.mem _ ?_ ?_ ?_ ?_ ?_ ?_
          · intro t' hf; rw [upd_ne _ _ (by simp)]; exact ((hc.th t').fac hf).2.2
          · rw [upd_self]
            have : ∀ r, v = some r → r < (γ t).n := hst
            rw [(kn.fac hm).2.1] at this
            exact this
          · rw [upd_ne _ _ (by simp)]; exact hc.loggers
          · intro r'; rw [upd_ne _ _ (by simp)]; exact hc.parent r'
          · intro r'; rw [upd_ne _ _ (by simp)]; exact hc.opsv r'
          · rw [upd_ne _ _ (by simp)]; exact hc.outv
        · by_cases h5 : ∃ r, l = .parent r
          · obtain ⟨r, rfl⟩ := h5
            refine hc.mem _ ?_ ?_ ?_ ?_ ?_ ?_
            · intro t' hf; rw [upd_ne _ _ (by simp)]; exact ((hc.th t').fac hf).2.2
            · rw [upd_ne _ _ (by simp)]; exact hc.root
            · rw [upd_ne _ _ (by simp)]; exact hc.loggers
            · intro r'
              by_cases e : r' = r
              · subst e; rw [upd_self]; exact hst
              · rw [upd_ne _ _ (by simpa using e)]; exact hc.parent r'
            · intro r'; rw [upd_ne _ _ (by simp)]; exact hc.opsv r'
            · rw [upd_ne _ _ (by simp)]; exact hc.outv
          · exact hc.memOther l v h4 h3 (fun r e => h5 ⟨r, e⟩) (fun r e => h1 ⟨r, e⟩) h2

theorem step_newLogger (h : Core U tr s γ pub lim) (ho : Ordered U tr) {t : Who} {p : Running} (hp : s.running t = some p) (ht : (γ t).task = p.task)
    {n : Str} {k : Nat → Code Res} (hw : wp (.newLogger n k) Post (γ t)) :
    Next U tr γ pub lim t p (.acc true (.name s.nlog)) (k s.nlog) { s with nlog := s.nlog + 1, mem := s.mem.upd (.name s.nlog) n } := by
  obtain ⟨⟨nm, hg⟩, hf, hb, hk⟩ := hw
  have hfac := (h.th t).fac hf
  rw [hfac.2.1] at hk hb
  have hc := h.access ho hp ht (w := true) (l := .name s.nlog) (by simp [Gh.may, Gh.field, hg, hf, hb])
  have hc' := hc.memOther (.name s.nlog) n (by simp) (by simp) (by simp) (by simp) (by simp)
  refine Next.set (Γ := { γ t with n := s.nlog + 1 }) (pub' := pub) (lim' := lim) ?_ hk ht
  have k' := hc'.th t
  refine { hc' with th := fun t' => ?_, inj := ?_, lt := Nat.le_succ_of_le hc'.lt, nofac := ?_, root := ?_, loggers := ?_ }
  · by_cases e : t' = t
    · subst e
      rw [set_self]
      refine { k' with lock := fun m => ?_, held := fun m => ?_, fac := fun _ => ⟨hfac.1, rfl, (k'.fac hf).2.2⟩ }
      · cases m <;> exact k'.lock _
      · cases m with
        | factory => exact k'.held .factory
        | manager => exact k'.held .manager
        | roll o => exact k'.held (.roll o)
    · rw [set_ne _ _ e]
      exact { hc'.th t' with fac := fun hf' => absurd (h.alone (m := .factory) hf hf') e }
  · intro t1 t2 o h1 h2
    have h1' : (γ t1).own o := by
      by_cases e : t1 = t
      · subst e; rw [set_self] at h1; exact h1
      · rw [set_ne _ _ e] at h1; exact h1
    have h2' : (γ t2).own o := by
      by_cases e : t2 = t
      · subst e; rw [set_self] at h2; exact h2
      · rw [set_ne _ _ e] at h2; exact h2
    exact h.inj t1 t2 o h1' h2'
  · intro hno
    have := ((h.th t).lock .factory).mpr hf
    rw [show s.owner .factory = none from hno] at this
    cases this
  · exact fun r hr => Nat.lt_succ_of_lt (hc'.root r hr)
  · exact fun x hx => Nat.lt_succ_of_lt (hc'.loggers x hx)

theorem step_newOutput (h : Core U tr s γ pub lim) {t : Who} {p : Running} (hp : s.running t = some p) (ht : (γ t).task = p.task)
    {sh : Shape} {k : Nat → Code Res} (hw : wp (.newOutput sh k) Post (γ t)) :
    Next U tr γ pub lim t p (.acc true (.shape s.nout)) (k s.nout) { s with nout := s.nout + 1, mem := s.mem.upd (.shape s.nout) sh } := by
  have hk := hw s.nout
  have hm := h.more (nout := s.nout + 1) (nevt := s.nevt) (Nat.le_succ _) (Nat.le_refl _)
  have kn := hm.th t
  have hnew : ∀ (t' : Who), ¬ (γ t').own s.nout := fun t' ho' => Nat.lt_irrefl _ ((h.th t').own _ ho').2
  have hr : Core U tr { s with nout := s.nout + 1 } (set γ t { γ t with own := fun o' => (γ t).own o' ∨ o' = s.nout }) pub lim := by
    refine hm.reghost { kn with lock := fun m => ?_, held := fun m => ?_, own := ?_, mine := ?_ } ?_
    · cases m <;> exact kn.lock _
    · cases m with
      | factory => exact kn.held .factory
      | manager => exact kn.held .manager
      | roll o => exact kn.held (.roll o)
    · rintro o (ho' | rfl)
      · exact kn.own o ho'
      · exact ⟨fun hp' => Nat.lt_irrefl _ (h.pubn _ hp'), Nat.lt_succ_self _⟩
    · rintro o (ho' | rfl) i a w hi ha
      · exact kn.mine o ho' i a w hi ha
      · exact absurd (ha.elim (fun ha => h.made i a true _ hi (Or.inl ha)) fun ha => h.made i a w _ hi (Or.inr ha)) (Nat.lt_irrefl _)
    · rintro t' o hne (h1 | rfl) h2
      · exact hne (h.inj t' t o h2 h1)
      · exact hnew t' h2
  have hc : Core U (tr ++ [entry t p (.acc true (.shape s.nout))]) { s with nout := s.nout + 1 } (set γ t { γ t with own := fun o' => (γ t).own o' ∨ o' = s.nout }) pub lim := by
    refine hr.add ⟨Or.inr (hr.spanOf hp _), fun res e => (by cases e), ?_, ?_, ?_, ?_, ?_, ?_, ?_, ?_, ?_, ?_, ?_, fun r e => (by cases e), fun os e => (by cases e)⟩
    · rintro m ⟨w, l, e, hu⟩
      cases e
      exact absurd hu.1 (by simp [fieldOf])
    · rintro r ⟨w, l, e, hf, -⟩
      cases e
      cases hf
    · rintro o (e | e)
      · cases e
        simp [entry, set_self]
      · cases e
    · intro w o e
      cases e
    · intro w o e
      cases e
      exact Nat.lt_succ_self _
    · intro o e
      cases e
      refine ⟨fun t' => ?_, ?_⟩
      · by_cases e : t' = t
        · subst e; rw [set_self]; exact fun h' => Nat.lt_irrefl _ ((h.th t').shp _ h').1
        · rw [set_ne _ _ e]; exact fun h' => Nat.lt_irrefl _ ((h.th t').shp _ h').1
      · refine Nat.eq_zero_of_not_pos fun h' => Nat.lt_irrefl _ (h.wrk _ h').1
    · intro o e
      cases e
    · intro w o e
      cases e
    · intro w l r e hf
      cases e
      cases hf
    · intro w o e
      cases e
    · intro i a w w' l hi ha e
      cases e
      exact absurd (h.made i a w _ hi (Or.inl ha)) (Nat.lt_irrefl _)
  exact Next.set (hc.memOther (.shape s.nout) sh (by simp) (by simp) (by simp) (by simp) (by simp)) hk ht

theorem step_newEvent (h : Core U tr s γ pub lim) {t : Who} {p : Running} (hp : s.running t = some p) (ht : (γ t).task = p.task)
    {v : Level × Bool} {k : Nat → Code Res} (hw : wp (.newEvent v k) Post (γ t)) :
    Next U tr γ pub lim t p (.acc true (.evt s.nevt)) (k s.nevt) { s with nevt := s.nevt + 1, mem := s.mem.upd (.evt s.nevt) v } := by
  have hk := hw s.nevt
  have hm := h.more (nout := s.nout) (nevt := s.nevt + 1) (Nat.le_refl _) (Nat.le_succ _)
  have hc : Core U (tr ++ [entry t p (.acc true (.evt s.nevt))]) { s with nevt := s.nevt + 1 } γ pub lim := by
    refine hm.add ⟨Or.inr (hm.spanOf hp _), fun res e => (by cases e), ?_, ?_, ?_, ?_, ?_, ?_, ?_, ?_, ?_, ?_, ?_, fun r e => (by cases e), fun os e => (by cases e)⟩
    · rintro m ⟨w, l, e, hu⟩
      cases e
      exact absurd hu.1 (by simp [fieldOf])
    · rintro r ⟨w, l, e, hf, -⟩
      cases e
      cases hf
    · rintro o (e | e) <;> cases e
    · intro w o e
      cases e
    · intro w o e
      cases e
    · intro o e
      cases e
    · intro o e
      cases e
      refine ⟨fun t' h' => Nat.lt_irrefl _ ((h.th t').evs _ h').1, fun o src h' => Nat.lt_irrefl _ (h.chan o _ src h').2.2.1⟩
    · intro w o e
      cases e
      exact Nat.lt_succ_self _
    · intro w l r e hf
      cases e
      cases hf
    · intro w o e
      cases e
    · intro i a w w' l hi ha e
      cases e
      exact absurd (h.evts i a w _ hi ha) (Nat.lt_irrefl _)
  have kn := hc.th t
  have hr := hc.reghost (t := t) (Γ := { γ t with evs := fun e' => (γ t).evs e' ∨ e' = s.nevt }) (by
    refine { kn with lock := fun m => ?_, held := fun m => ?_, evs := ?_ }
    · cases m <;> exact kn.lock _
    · cases m with
      | factory => exact kn.held .factory
      | manager => exact kn.held .manager
      | roll o => exact kn.held (.roll o)
    · rintro e (h' | rfl)
      · exact kn.evs e h'
      · refine ⟨Nat.lt_succ_self _, fun i a hi hcl => ?_⟩
        rcases get_app.mp hi with hi' | ⟨rfl, rfl⟩
        · exact absurd (h.evts i a true _ hi' hcl) (Nat.lt_irrefl _)
        · exact kn_self last_get) fun t' o hne h1 h2 => hne (h.inj t' t o h2 h1)
  exact Next.set (hr.memOther (.evt s.nevt) v (by simp) (by simp) (by simp) (by simp) (by simp)) hk ht

/-- Every step keeps the invariant. -/
theorem step_core (h : Core U tr s γ pub lim) (ho : Ordered U tr) {t : Who} {p : Running} (hp : s.running t = some p) (ht : (γ t).task = p.task)
    {c : Code Res} (hw : wp c Post (γ t)) {a : StepKind} {k : Code Res} {s' : State} (hn : next tr.length s t c = some (a, k, s')) : Next U tr γ pub lim t p a k s' := by
  cases c with
  | ret _ => simp [next] at hn
  | read l f =>
    simp only [next, Option.some.injEq, Prod.mk.injEq] at hn
    obtain ⟨rfl, rfl, rfl⟩ := hn
    exact step_read h ho hp ht hw
  | write l v f =>
    simp only [next, Option.some.injEq, Prod.mk.injEq] at hn
    obtain ⟨rfl, rfl, rfl⟩ := hn
    exact step_write h ho hp ht hw
  | lock m f =>
    simp only [next] at hn
    split at hn
    · simp only [Option.some.injEq, Prod.mk.injEq] at hn
      obtain ⟨rfl, rfl, rfl⟩ := hn
      obtain ⟨Γ', h1, h2⟩ := h.lockStep hp ‹_› hw.1
      refine Next.set h2 (hw.2 _ h1) ?_
      cases m with
      | factory => obtain ⟨_, _, _, rfl⟩ := h1; exact ht
      | manager => cases h1; exact ht
      | roll o => cases h1; exact ht
    · simp at hn
  | unlock m f =>
    simp only [next, Option.some.injEq, Prod.mk.injEq] at hn
    obtain ⟨rfl, rfl, rfl⟩ := hn
    obtain ⟨lim', h2, h3⟩ := h.unlockStep hp hw.1
    exact Next.set h2 hw.2 (by cases m <;> exact ht) (fun _ h => h) (h3.imp (fun e => by rw [e]) id)
  | newLogger n f =>
    simp only [next, Option.some.injEq, Prod.mk.injEq] at hn
    obtain ⟨rfl, rfl, rfl⟩ := hn
    exact step_newLogger h ho hp ht hw
  | newOutput sh f =>
    simp only [next, Option.some.injEq, Prod.mk.injEq] at hn
    obtain ⟨rfl, rfl, rfl⟩ := hn
    exact step_newOutput h hp ht hw
  | newEvent v f =>
    simp only [next, Option.some.injEq, Prod.mk.injEq] at hn
    obtain ⟨rfl, rfl, rfl⟩ := hn
    exact step_newEvent h hp ht hw
  | go o f =>
    simp only [next, Option.some.injEq, Prod.mk.injEq] at hn
    obtain ⟨rfl, rfl, rfl⟩ := hn
    have hc := h.plain hp (a := .go o) (by simp) (by simp)
    refine Next.same (hc.workers _ ?_ ?_) hw.2 ht
    · intro o' ho'
      by_cases e : o' = o
      · subst e
        refine ⟨((h.th t).own o' hw.1).2, tr.length, _, last_get, rfl, all_last fun i a hi hcl => ?_⟩
        have := (h.th t).mine o' hw.1 i a true hi (Or.inl hcl)
        exact ⟨i, a, hi, this, Or.inl rfl⟩
      · rw [set_ne _ _ e] at ho'
        exact hc.wrk o' ho'
    · intro o' ho'
      by_cases e : o' = o
      · subst e; rw [set_self] at ho'; omega
      · rw [set_ne _ _ e] at ho'
        exact hc.wrk2 o' ho'
  | send o e f =>
    simp only [next] at hn
    split at hn
    · simp only [Option.some.injEq, Prod.mk.injEq] at hn
      obtain ⟨rfl, rfl, rfl⟩ := hn
      generalize hroom : (if s.sent o < s.cap o then none else (s.recvs o)[s.sent o - s.cap o]?) = room
      have hc := h.plain hp (a := .send o e room) (by simp) (by simp)
      have hq := hc.queue (set s.chan o (s.chan o ++ [(e, tr.length)])) (by
        intro o' e' src hm
        by_cases eo : o' = o
        · subst eo
          rw [set_self] at hm
          rcases List.mem_append.mp hm with hm | hm
          · exact hc.chan o' e' src hm
          · obtain ⟨rfl, rfl⟩ := Prod.mk.inj (List.mem_singleton.mp hm)
            obtain ⟨h1, h2⟩ := hw.1 e' rfl
            have k := h.th t
            exact ⟨by simp, (k.outs _ h1).1, (k.evs _ h2).1, all_last (k.outs _ h1).2, all_last (k.evs _ h2).2⟩
        · rw [set_ne _ _ eo] at hm
          exact hc.chan o' e' src hm)
      exact Next.same (hq.other _ s.recvs s.shut s.closed s.count) hw.2 ht
    · simp at hn
  | close o f =>
    simp only [next] at hn
    split at hn
    · simp only [Option.some.injEq, Prod.mk.injEq] at hn
      obtain ⟨rfl, rfl, rfl⟩ := hn
      exact Next.same ((h.plain hp (by simp) (by simp)).other s.sent s.recvs _ s.closed s.count) hw ht
    · simp at hn
  | load o f =>
    simp only [next, Option.some.injEq, Prod.mk.injEq] at hn
    obtain ⟨rfl, rfl, rfl⟩ := hn
    exact Next.same (h.plain hp (by simp) (by simp)) (hw _) ht
  | store o f =>
    simp only [next, Option.some.injEq, Prod.mk.injEq] at hn
    obtain ⟨rfl, rfl, rfl⟩ := hn
    exact Next.same ((h.plain hp (by simp) (by simp)).other s.sent s.recvs s.shut _ s.count) hw ht
  | add o f =>
    simp only [next, Option.some.injEq, Prod.mk.injEq] at hn
    obtain ⟨rfl, rfl, rfl⟩ := hn
    have hc := h.access ho hp ht (w := true) (l := .wait o) trivial
    exact Next.same (hc.other s.sent s.recvs s.shut s.closed _) hw ht
  | done o f =>
    simp only [next, Option.some.injEq, Prod.mk.injEq] at hn
    obtain ⟨rfl, rfl, rfl⟩ := hn
    exact Next.same ((h.plain hp (by simp) (by simp)).other s.sent s.recvs s.shut s.closed _) hw ht
  | waited o f =>
    simp only [next] at hn
    split at hn
    · simp only [Option.some.injEq, Prod.mk.injEq] at hn
      obtain ⟨rfl, rfl, rfl⟩ := hn
      exact Next.same (h.plain hp (by simp) (by simp)) hw ht
    · simp at hn
  | halt => simp [next] at hn
  | impossible => simp [next] at hn

/-- A goroutine between calls. -/
def Idle (Γ : Gh) : Prop := Γ.fac = false ∧ Γ.man = false ∧ Γ.roll = none ∧ ∀ o, ¬ Γ.own o

theorem Idle.holds {Γ : Gh} (h : Idle Γ) (m : Mx) : ¬ Γ.holds m := by
  obtain ⟨h1, h2, h3, -⟩ := h
  cases m <;> simp [Gh.holds, h1, h2, h3]

/-- The first step of a call, before what it does. -/
theorem Core.begins (h : Core U tr s γ pub lim) {t : Who} {c : Task} {a : StepKind} (h1 : ∀ w l, a ≠ .acc w l) (h2 : ∀ res, a ≠ .ret res) :
    Core U (tr ++ [⟨t, tr.length, c, a⟩]) s γ pub lim := by
  refine h.add ⟨Or.inl rfl, fun res e => absurd e (h2 res), ?_, ?_, ?_, ?_, ?_, ?_, ?_, ?_, ?_, ?_, ?_, ?_, ?_⟩
  · rintro m ⟨w, l, e, -⟩; exact absurd e (h1 w l)
  · rintro m ⟨w, l, e, -⟩; exact absurd e (h1 w l)
  · rintro o (e | e) <;> exact absurd e (h1 _ _)
  · exact fun w o e => absurd e (h1 _ _)
  · exact fun w o e => absurd e (h1 _ _)
  · exact fun o e => absurd e (h1 _ _)
  · exact fun o e => absurd e (h1 _ _)
  · exact fun w o e => absurd e (h1 _ _)
  · exact fun w l r e => absurd e (h1 _ _)
  · exact fun w o e => absurd e (h1 _ _)
  · exact fun i a w w' l _ _ e => absurd e (h1 _ _)
  · exact fun r e => absurd e (h2 _)
  · exact fun os e => absurd e (h2 _)

/-- What a call brings. -/
structure Brings (U : Nat → Nat → Prop) (tr : List Entry) (s' : State) (pub : Nat → Prop) (t : Who) (c : Task) : Prop where
  work : ∀ o, isWork o c → t = .worker o
  shp : ∀ o, (c = .tick o ∨ c = .stop o) → o < s'.nout ∧ KnC U tr t (.shp o)
  event : ∀ o e, c = .event o e → (pub o ∧ KnC U tr t (.out o)) ∧ e < s'.nevt ∧ KnC U tr t (.evt e)

theorem first_core (h : Core U tr s γ pub lim) {t : Who} {c : Task} {a : StepKind} {s' : State} (hf : first tr.length s t c = some (a, s')) :
    Core U (tr ++ [⟨t, tr.length, c, a⟩]) s' γ pub lim ∧ s'.running = s.running ∧ Brings U (tr ++ [⟨t, tr.length, c, a⟩]) s' pub t c := by
  cases t with
  | user t =>
    cases c <;> simp only [first, reduceCtorEq, Option.some.injEq, Prod.mk.injEq] at hf <;> obtain ⟨rfl, rfl⟩ := hf <;>
      exact ⟨h.begins (by simp) (by simp), rfl, by simp [isWork], by simp, by simp⟩
  | worker o =>
    cases c with
    | begin o' =>
      simp only [first] at hf
      split at hf
      · rename_i hc
        obtain ⟨rfl, hw⟩ := hc
        simp only [Option.some.injEq, Prod.mk.injEq] at hf
        obtain ⟨rfl, rfl⟩ := hf
        have hb := h.begins (t := .worker o') (c := .begin o') (a := .begin o') (by simp) (by simp)
        refine ⟨hb.workers _ ?_ ?_, rfl, by simp [isWork], by simp, by simp⟩
        · intro o ho
          by_cases e : o = o'
          · subst e; exact hb.wrk o (by omega)
          · rw [set_ne _ _ e] at ho; exact hb.wrk o ho
        · intro o ho
          by_cases e : o = o'
          · subst e
            obtain ⟨g, b, h1, h2, h3⟩ := (h.wrk o (by omega)).2
            refine knc_of_all (all_app h3 (fun e => by cases e)) ⟨tr.length, _, last_get, rfl, Or.inr (.one (.go (get_lt h1) (get_left h1) last_get h2 rfl))⟩
          · rw [set_ne _ _ e] at ho; exact hb.wrk2 o ho
      · simp at hf
    | tick o' =>
      simp only [first] at hf
      split at hf
      · rename_i hc
        obtain ⟨rfl, hw⟩ := hc
        simp only [Option.some.injEq, Prod.mk.injEq] at hf
        obtain ⟨rfl, rfl⟩ := hf
        have hb := h.begins (t := .worker o') (c := .tick o') (a := .call) (by simp) (by simp)
        refine ⟨hb, rfl, by simp [isWork], ?_, by simp⟩
        intro o ho
        have e : o' = o := by simpa using ho
        subst e
        exact ⟨(hb.wrk o' (by omega)).1, hb.wrk2 o' (by omega)⟩
      · simp at hf
    | event o' e =>
      simp only [first] at hf
      split at hf
      · rename_i hc
        obtain ⟨rfl, hw⟩ := hc
        split at hf
        · rename_i e' src q hq
          split at hf
          · rename_i he
            subst he
            simp only [Option.some.injEq, Prod.mk.injEq] at hf
            obtain ⟨rfl, rfl⟩ := hf
            have hb := h.begins (t := .worker o') (c := .event o' e') (a := .recv o' (some e') src) (by simp) (by simp)
            have hqu := hb.queue (set s.chan o' q) (by
              intro o1 e1 src1 hm
              by_cases eo : o1 = o'
              · subst eo
                rw [set_self] at hm
                exact hb.chan o1 e1 src1 (by rw [hq]; exact List.mem_cons_of_mem _ hm)
              · rw [set_ne _ _ eo] at hm
                exact hb.chan o1 e1 src1 hm)
            have hlt := (h.chan o' e' src (by rw [hq]; exact List.mem_cons_self)).1
            obtain ⟨-, h2, h3, h4, h5⟩ := hb.chan o' e' src (by rw [hq]; exact List.mem_cons_self)
            have hk : Kn U (tr ++ [⟨.worker o', tr.length, .event o' e', .recv o' (some e') src⟩]) (.worker o') src :=
              ⟨tr.length, _, last_get, rfl, Or.inr (.one (.message hlt last_get rfl))⟩
            refine ⟨hqu.other s.sent _ s.shut s.closed s.count, rfl, by simp [isWork], by simp, ?_⟩
            intro o e ho
            cases ho
            exact ⟨⟨h2, knc_of_all h4 hk⟩, h3, knc_of_all h5 hk⟩
          · simp at hf
        · simp at hf
      · simp at hf
    | stop o' =>
      simp only [first] at hf
      split at hf
      · rename_i hc
        obtain ⟨rfl, hw⟩ := hc
        split at hf
        · rename_i src q hq
          simp only [Option.some.injEq, Prod.mk.injEq] at hf
          obtain ⟨rfl, rfl⟩ := hf
          have hb := h.begins (t := .worker o') (c := .stop o') (a := .recv o' none src) (by simp) (by simp)
          have hqu := hb.queue (set s.chan o' q) (by
            intro o1 e1 src1 hm
            by_cases eo : o1 = o'
            · subst eo
              rw [set_self] at hm
              exact hb.chan o1 e1 src1 (by rw [hq]; exact List.mem_cons_of_mem _ hm)
            · rw [set_ne _ _ eo] at hm
              exact hb.chan o1 e1 src1 hm)
          have hwk := hqu.workers (set s.worker o' 3) (by
            intro o ho
            by_cases e : o = o'
            · subst e; exact hb.wrk o (by omega)
            · rw [set_ne _ _ e] at ho; exact hb.wrk o ho) (by
            intro o ho
            by_cases e : o = o'
            · subst e; exact hb.wrk2 o (by omega)
            · rw [set_ne _ _ e] at ho; exact hb.wrk2 o ho)
          refine ⟨hwk.other s.sent _ s.shut s.closed s.count, rfl, by simp [isWork], ?_, by simp⟩
          intro o ho
          have e : o' = o := by simpa using ho
          subst e
          exact ⟨(hb.wrk o' (by omega)).1, hb.wrk2 o' (by omega)⟩
        · simp at hf
      · simp at hf
    | _ => simp [first] at hf

theorem first_noret {i : Nat} {t : Who} {c : Task} {a : StepKind} {s' : State} (hf : first i s t c = some (a, s')) (res : Res) : a ≠ .ret res := by
  cases t <;> cases c <;> simp only [first] at hf <;> (repeat' split at hf) <;> simp only [reduceCtorEq, Option.some.injEq, Prod.mk.injEq] at hf <;>
    (obtain ⟨rfl, -⟩ := hf; simp)

theorem call_core (h : Core U tr s γ pub lim) {t : Who} {c : Task} {a : StepKind} {s' : State} (hi : Idle (γ t))
    (hord : ∀ cfg ord, c = .setConfig cfg ord ∨ c = .close ord → ∀ m, (ord m).Perm (m.map (·.2)))
    (hf : first tr.length s t c = some (a, s')) (hob : Obtained U (tr ++ [⟨t, tr.length, c, a⟩])) (hns : NoSetFormatter (tr ++ [⟨t, tr.length, c, a⟩])) :
    ∃ Γ, Core U (tr ++ [⟨t, tr.length, c, a⟩]) { s' with running := set s.running t (some ⟨tr.length, c, c.code⟩) } (set γ t Γ) pub lim ∧
      wp c.code Post Γ ∧ Γ.task = c := by
  obtain ⟨hc, hrun, hb⟩ := first_core h hf
  obtain ⟨o1, o2⟩ := hob tr.length _ ⟨last_get, rfl⟩
  have kn := hc.th t
  obtain ⟨V, hV1, hV2, hV3⟩ : ∃ V, V ≤ lim ∧ (∀ r, r < V → KnC U (tr ++ [⟨t, tr.length, c, a⟩]) t (.glog r)) ∧ ∀ r, target c = some r → r < V := by
    cases hr : target c with
    | none => exact ⟨(γ t).view, kn.view, kn.seen, by simp⟩
    | some r =>
      obtain ⟨k, e, h1, h2, h3⟩ := o1 r hr
      obtain ⟨N, n1, n2, n3⟩ := hc.retl k e r h1 h2
      refine ⟨N, n2, fun r' hr' => knc_of_all (n3 r' hr') ⟨tr.length, _, last_get, rfl, Or.inr h3⟩, ?_⟩
      intro r' hr'
      cases hr'
      exact n1
  refine ⟨{ γ t with task := c, view := V, outs := fun o => o ∈ given c ∨ ∃ e, c = .event o e, shp := fun o => c = .tick o ∨ c = .stop o, evs := fun e => ∃ o, c = .event o e }, ?_, ?_, rfl⟩
  · have hre := hc.reghost (t := t) (Γ := { γ t with task := c, view := V, outs := fun o => o ∈ given c ∨ ∃ e, c = .event o e, shp := fun o => c = .tick o ∨ c = .stop o, evs := fun e => ∃ o, c = .event o e })
      { kn with
        lock := fun m => by cases m <;> exact kn.lock _
        held := fun m hm => kn.held m (by cases m <;> exact hm)
        view := hV1
        seen := hV2
        outs := by
          rintro o (ho | ⟨e, he⟩)
          · obtain ⟨k, e, os, h1, h2, h3, h4⟩ := o2 o ho
            obtain ⟨h5, h6⟩ := hc.reto k e os h1 h2 o h3
            exact ⟨h5, knc_of_all h6 ⟨tr.length, _, last_get, rfl, Or.inr h4⟩⟩
          · exact (hb.event o e he).1
        shp := hb.shp
        evs := by
          rintro e ⟨o, he⟩
          exact (hb.event o e he).2 } fun t' o _ ho => absurd ho (hi.2.2.2 o)
    refine hre.calls _ ?_ ?_
    · intro t' p' hp'
      by_cases e : t' = t
      · subst e
        rw [set_self] at hp'
        cases hp'
        refine ⟨⟨_, last_get, rfl, rfl, rfl⟩, ?_⟩
        intro k a' res hk ha he
        have : k ≤ tr.length := by
          have := get_lt hk
          simp at this
          omega
        rcases get_app.mp hk with hk' | ⟨rfl, rfl⟩
        · have := (h.span k a' hk').1
          have := get_lt hk'
          change a'.cid = tr.length at he
          omega
        · exact first_noret hf res ha
      · rw [set_ne _ _ e, ← hrun] at hp'
        exact hre.runs t' p' hp'
    · intro t' p' o hp' hw
      by_cases e : t' = t
      · subst e
        rw [set_self] at hp'
        cases hp'
        exact hb.work o hw
      · rw [set_ne _ _ e, ← hrun] at hp'
        exact hre.work t' p' o hp' hw
  · exact wp_task
      { task := rfl
        fac := hi.1
        man := hi.2.1
        roll := hi.2.2.1
        own := hi.2.2.2
        view := hV3
        outs := fun o ho => Or.inl ho
        shp := fun o ho => ho
        event := fun o e he => ⟨Or.inr ⟨e, he⟩, o, he⟩
        noSet := fun o f => hns tr.length _ o f last_get
        ord := fun ord ho => hord {} ord (Or.inr ho) }

theorem ret_core (h : Core U tr s γ pub lim) {t : Who} {p : Running} {res : Res} (hp : s.running t = some p) (hpost : Post (γ t) res) :
    ∃ Γ pub', Core U (tr ++ [entry t p (.ret res)]) { s with running := set s.running t none } (set γ t Γ) pub' lim ∧ Idle Γ ∧ ∀ o, pub o → pub' o := by
  obtain ⟨p1, p2, p3, p4, p5⟩ := hpost
  -- outputs returned become known to all
  obtain ⟨os, hos1, hos2⟩ : ∃ os : List Nat, (∀ o ∈ os, (γ t).knows o) ∧ ∀ os', res = .outputs os' → os' = os := by
    cases res with
    | outputs os => exact ⟨os, p5 os rfl, fun os' e => by cases e; rfl⟩
    | _ => exact ⟨[], by simp, by simp⟩
  have hpb := h.publish (t := t) hos1
  have hk := hpb.th t
  rw [set_self] at hk
  have hc0 := hpb.calls (set s.running t none) (by
    intro t' p' hp'
    by_cases e : t' = t
    · subst e; rw [set_self] at hp'; cases hp'
    · rw [set_ne _ _ e] at hp'; exact h.runs t' p' hp') (by
    intro t' p' o hp'
    by_cases e : t' = t
    · subst e; rw [set_self] at hp'; cases hp'
    · rw [set_ne _ _ e] at hp'; exact h.work t' p' o hp')
  have hc : Core U (tr ++ [entry t p (.ret res)]) { s with running := set s.running t none } (set γ t ((γ t).publish os)) (fun o => pub o ∨ o ∈ os) lim := by
    have hacc : ∀ {w l}, (entry t p (.ret res)).act ≠ .acc w l := by intro w l e; cases e
    refine hc0.add ⟨Or.inr (h.spanOf hp _), ?_, ?_, ?_, ?_, ?_, ?_, ?_, ?_, ?_, ?_, ?_, ?_, ?_, ?_⟩
    · intro res' _ t' p' hp' e
      by_cases et : t' = t
      · subst et; simp [set_self] at hp'
      · have hp'' : s.running t' = some p' := by
          have := hp'
          simp only [set_ne s.running none et] at this
          exact this
        obtain ⟨⟨b, h1, -, h2, -⟩, -⟩ := h.runs t' p' hp''
        obtain ⟨⟨b', h1', -, h2', -⟩, -⟩ := h.runs t p hp
        rw [show p'.cid = p.cid from e] at h1
        rw [h1] at h1'
        cases h1'
        exact et (h2.symm.trans h2')
    · rintro m ⟨w, l, e, -⟩; exact absurd e hacc
    · rintro m ⟨w, l, e, -⟩; exact absurd e hacc
    · rintro o (e | e) <;> exact absurd e hacc
    · exact fun w o e => absurd e hacc
    · exact fun w o e => absurd e hacc
    · exact fun o e => absurd e hacc
    · exact fun o e => absurd e hacc
    · exact fun w o e => absurd e hacc
    · exact fun w l r e => absurd e hacc
    · exact fun w o e => absurd e hacc
    · exact fun i a w w' l _ _ e => absurd e hacc
    · intro r e
      cases e
      exact ⟨(γ t).view, p4 r rfl, (h.th t).view, (h.th t).seen⟩
    · intro os' e o ho
      have e' : res = .outputs os' := by cases e; rfl
      rw [hos2 os' e'] at ho
      exact hk.outs o (Or.inr ho)
  have k2 := hc.th t
  rw [set_self] at k2
  have hre := hc.reghost (t := t) (Γ := { (γ t).publish os with own := fun _ => False })
    { k2 with
      lock := fun m => by cases m <;> exact k2.lock _
      held := fun m hm => k2.held m (by cases m <;> exact hm)
      own := fun o ho => ho.elim
      mine := fun o ho => ho.elim } fun t' o _ ho => ho.elim
  refine ⟨{ (γ t).publish os with own := fun _ => False }, (fun o => pub o ∨ o ∈ os), ?_, ⟨p1, p2, p3, fun o ho => ho⟩, fun o ho => Or.inl ho⟩
  rw [set_set] at hre
  exact hre

theorem next_running {i : Nat} {t : Who} {c : Code Res} {a : StepKind} {k : Code Res} {s' : State} (h : next i s t c = some (a, k, s')) : s'.running = s.running := by
  cases c <;> simp only [next] at h <;> (try split at h) <;> simp only [reduceCtorEq, Option.some.injEq, Prod.mk.injEq] at h <;> obtain ⟨-, -, rfl⟩ := h <;> rfl

/-- The invariant of executions. -/
structure Inv (U : Nat → Nat → Prop) (tr : List Entry) (s : State) (γ : Who → Gh) (pub : Nat → Prop) (lim : Nat) : Prop where
  core : Core U tr s γ pub lim
  idle : ∀ t, s.running t = none → Idle (γ t)
  busy : ∀ t p, s.running t = some p → (γ t).task = p.task ∧ wp p.code Post (γ t)

theorem inv_start : Inv U [] { mem := emptyMem } (fun _ => ⟨.getLogger [], false, false, none, 0, 0, [], 0, fun _ => False, fun _ => False, fun _ => False, fun _ => False⟩) (fun _ => False) 0 := by
  refine ⟨?_, fun t _ => ⟨rfl, rfl, rfl, fun _ h => h⟩, by simp⟩
  constructor <;> first | (intros; simp_all [emptyMem]; done) | skip
  intro t
  constructor <;> first | (intros; simp_all; done) | skip
  · intro m; cases m <;> simp [Gh.holds]
  · intro m _ i a h; simp at h

theorem exec_inv (h : Exec tr s) : Obtained U tr → Ordered U tr → NoSetFormatter tr → ∃ γ pub lim, Inv U tr s γ pub lim := by
  induction h with
  | start => exact fun _ _ _ => ⟨_, _, _, inv_start⟩
  | @call tr s t c a s' hx hr hord hf ih =>
    intro hob hor hns
    obtain ⟨γ, pub, lim, hi⟩ := ih (obtained_restrict hob) (ordered_restrict hor) (noSet_restrict hns)
    obtain ⟨Γ, h1, h2, h3⟩ := call_core hi.core (hi.idle t hr) hord hf hob hns
    refine ⟨_, _, _, h1, fun t' ht' => ?_, fun t' p' ht' => ?_⟩
    · by_cases e : t' = t
      · subst e; simp [set_self] at ht'
      · rw [set_ne _ _ e]; exact hi.idle t' ((set_ne s.running (some ⟨tr.length, c, c.code⟩) e).symm.trans ht')
    · by_cases e : t' = t
      · subst e; simp only [set_self, Option.some.injEq] at ht'; subst ht'; rw [set_self]; exact ⟨h3, h2⟩
      · rw [set_ne _ _ e]; exact hi.busy t' p' ((set_ne s.running (some ⟨tr.length, c, c.code⟩) e).symm.trans ht')
  | @step tr s t p a k s' hx hr hn ih =>
    intro hob hor hns
    obtain ⟨γ, pub, lim, hi⟩ := ih (obtained_restrict hob) (ordered_restrict hor) (noSet_restrict hns)
    obtain ⟨b1, b2⟩ := hi.busy t p hr
    obtain ⟨γ', pub', lim', h1, h2, h3, h4, -⟩ := step_core hi.core (ordered_restrict hor) hr b1 b2 hn
    have hrun : s'.running = s.running := next_running hn
    refine ⟨γ', pub', lim', h1.calls _ ?_ ?_, fun t' ht' => ?_, fun t' p' ht' => ?_⟩
    · intro t' p' hp'
      by_cases e : t' = t
      · subst e
        rw [set_self] at hp'
        cases hp'
        exact h1.runs t' p (hrun ▸ hr)
      · rw [set_ne _ _ e] at hp'
        exact h1.runs t' p' (hrun ▸ hp')
    · intro t' p' o hp'
      by_cases e : t' = t
      · subst e
        rw [set_self] at hp'
        cases hp'
        exact h1.work t' p o (hrun ▸ hr)
      · rw [set_ne _ _ e] at hp'
        exact h1.work t' p' o (hrun ▸ hp')
    · by_cases e : t' = t
      · subst e; simp [set_self] at ht'
      · rw [h4 t' e]; exact hi.idle t' ((set_ne s.running (some { p with code := k }) e).symm.trans ht')
    · by_cases e : t' = t
      · subst e; simp only [set_self, Option.some.injEq] at ht'; subst ht'; exact ⟨h3, h2⟩
      · rw [h4 t' e]; exact hi.busy t' p' ((set_ne s.running (some { p with code := k }) e).symm.trans ht')
  | @ret tr s t p res hx hr hc ih =>
    intro hob hor hns
    obtain ⟨γ, pub, lim, hi⟩ := ih (obtained_restrict hob) (ordered_restrict hor) (noSet_restrict hns)
    obtain ⟨b1, b2⟩ := hi.busy t p hr
    rw [hc] at b2
    obtain ⟨Γ, pub', h1, h2, -⟩ := ret_core hi.core hr b2
    refine ⟨_, _, _, h1, fun t' ht' => ?_, fun t' p' ht' => ?_⟩
    · by_cases e : t' = t
      · subst e; rw [set_self]; exact h2
      · rw [set_ne _ _ e]; exact hi.idle t' ((set_ne s.running none e).symm.trans ht')
    · by_cases e : t' = t
      · subst e; simp [set_self] at ht'
      · rw [set_ne _ _ e]; exact hi.busy t' p' ((set_ne s.running none e).symm.trans ht')

/-- Accesses that conflict are ordered, but for the exempt. -/
theorem exec_safe (h : Exec tr s) (hob : Obtained U tr) (hor : Ordered U tr) (hns : NoSetFormatter tr) {l : Loc} (hr : Race U tr l) : exempt l := by
  obtain ⟨γ, pub, lim, hi⟩ := exec_inv h hob hor hns
  obtain ⟨i, j, a, b, w, w', h1, h2, -, h3, h4, h5, h6, h7⟩ := hr
  by_cases he : exempt l
  · exact he
  · exact absurd (hi.core.safe i j a b w w' l h6 h1 h2 h3 h4 h5 he) h7

end Log4g.Races
