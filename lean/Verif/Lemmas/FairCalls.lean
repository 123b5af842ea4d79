import Verif.Lemmas.FairSteps

/-! # Programs that go on for ever: calls return -/

namespace Log4g
open Spec Strconv
open scoped List
variable {V : Type} {env : PEnv V} {host : Host} {up : Nat → Bool} {v0 : Nat → Volume} {r : Forever env host (newMachine up v0)}

theorem forever_sync (r : Forever env host (newMachine up v0)) {n m o : Nat} (h : n ≤ m) (ho : o < (r.at_ n).p.w.mgr.oheap.length) (hc : (r.at_ n).p.w.asyncOf env o = none) :
    (r.at_ m).p.w.asyncOf env o = none := by
  rw [ext_asyncOf env (pexec_inv (forever_prog r n)).world (forever_ext r h) ho]; exact hc

/-- Often, from some moment on. -/
theorem often_from {P : Nat → Prop} {n : Nat} (h : ∀ k, n ≤ k → ∃ m, k ≤ m ∧ P m) : Often P := fun i => by
  obtain ⟨m, h1, h2⟩ := h (max n i) (Nat.le_max_left _ _)
  exact ⟨m, Nat.le_trans (Nat.le_max_right _ _) h1, h2⟩

/-- A moment in which goroutine `t`, in a call, does nothing. -/
theorem still_moment (hp : ∀ n, (r.at_ n).p.panicked = false) {t n : Nat} (hc : ((r.at_ n).p.th t).call ≠ none) (hn : ¬ ∃ l, r.lab n = some l ∧ goesOn t l) :
    ∀ x l, r.lab n = some x → progOf [x] = [l] → PStep env (r.at_ n).p l (r.at_ (n + 1)).p → l.goroutine ≠ some t := by
  intro x l h1 h2 h3 h4
  apply hn
  refine ⟨x, h1, l, h2, h4, ?_, ?_⟩
  · clear h1 h2 h4
    generalize (r.at_ (n + 1)).p = q at h3
    rintro (⟨ds, rfl⟩ | ⟨os, rfl⟩ | ⟨o, c, rfl⟩)
    · cases h3.2 with | log k _ _ => exact hc k
    · cases h3.2 with | close k _ _ => exact hc k
    · cases h3.2 with | direct k _ => exact hc k
  · rintro rfl
    have h := hp (n + 1)
    generalize (r.at_ (n + 1)).p = q at h h3
    cases h3.2 with
    | actPanic _ => cases h
    | logPanic _ _ _ => cases h

/-- A goroutine in a call that does nothing stays where it is. -/
theorem frozen (hp : ∀ n, (r.at_ n).p.panicked = false) {t n m : Nat} (hc : ((r.at_ n).p.th t).call ≠ none) (h : n ≤ m)
    (hn : ∀ i, n ≤ i → i < m → ¬ ∃ l, r.lab i = some l ∧ goesOn t l) :
    (r.at_ m).p.th t = (r.at_ n).p.th t ∧ ∀ o, ((r.at_ m).p.a o).th t = ((r.at_ n).p.a o).th t := by
  induction h with
  | refl => exact ⟨rfl, fun _ => rfl⟩
  | @step m h ih =>
    obtain ⟨i1, i2⟩ := ih fun i h1 h2 => hn i h1 (by omega)
    rcases moment r m with ⟨x, l, h1, h2, h3⟩ | k
    · have hg := still_moment hp (by rw [i1]; exact hc) (hn m h (by omega)) x l h1 h2 h3
      exact ⟨(other_goroutine h3.2 hg).trans i1, fun o => (other_thread h3.2 hg o).trans (i2 o)⟩
    · rw [k]; exact ⟨i1, i2⟩

/-- Nor does it begin to wait for a writer. -/
theorem by_moment (hp : ∀ n, (r.at_ n).p.panicked = false) {t n q : Nat} (hc : ((r.at_ n).p.th t).call ≠ none) (hn : ¬ ∃ l, r.lab n = some l ∧ goesOn t l)
    (hb : (r.at_ n).by_ q ≠ some t) : (r.at_ (n + 1)).by_ q ≠ some t := by
  have st := r.step n
  have still := still_moment hp hc hn
  cases e : r.lab n with
  | none => rw [e] at st; simp only at st; rw [st]; exact hb
  | some x =>
    rw [e] at st still
    simp only at st
    generalize r.at_ n = a at st still hb
    generalize r.at_ (n + 1) = b at st still
    cases st with
    | prog _ _ _ => exact hb
    | write hs _ _ _ _ _ =>
      simp only [Machine.setWr]
      split
      · exact still _ _ rfl rfl hs
      · exact hb
    | sys _ _ _ _ => exact hb
    | done _ _ _ =>
      simp only [Machine.setWr]
      split
      · simp
      · exact hb

section
variable (hp : ∀ n, (r.at_ n).p.panicked = false)
include hp

/-- A goroutine that does nothing in the end waits for no writer. -/
theorem by_none (hw : ∀ q, r.fair (writerSteps q)) {t n : Nat} (hc : ((r.at_ n).p.th t).call ≠ none) (hn : ∀ m, n ≤ m → ¬ ∃ l, r.lab m = some l ∧ goesOn t l) :
    ∃ n1, n ≤ n1 ∧ ∀ m, n1 ≤ m → ∀ q, (r.at_ m).by_ q ≠ some t := by
  have call : ∀ m, n ≤ m → ((r.at_ m).p.th t).call ≠ none := fun m h => by rw [(frozen hp hc h fun i h1 _ => hn i h1).1]; exact hc
  have stays : ∀ q k, n ≤ k → (r.at_ k).by_ q ≠ some t → ∀ m, k ≤ m → (r.at_ m).by_ q ≠ some t := by
    intro q k hk hb m h
    induction h with
    | refl => exact hb
    | @step m h ih =>
      have h : k ≤ m := h
      exact by_moment hp (call m (by omega)) (hn m (by omega)) ih
  have key : ∀ k, ∃ n1, n ≤ n1 ∧ ∀ q, q < k → (r.at_ n1).by_ q ≠ some t := by
    intro k
    induction k with
    | zero => exact ⟨n, Nat.le_refl _, fun q h => absurd h (Nat.not_lt_zero _)⟩
    | succ k ih =>
      obtain ⟨n1, h1, h2⟩ := ih
      obtain ⟨n2, h3, h4⟩ := job_often hp (hw k) n1
      refine ⟨n2, by omega, fun q hq => ?_⟩
      rcases Nat.lt_succ_iff_lt_or_eq.mp hq with hq | rfl
      · exact stays q n1 h1 (h2 q hq) n2 h3
      · intro hb
        exact (mexec_inv (forever_exec r n2)).waits _ _ hb h4
  obtain ⟨n1, h1, h2⟩ := key (r.at_ n).p.w.mgr.oheap.length
  refine ⟨n1, h1, fun m hm q => ?_⟩
  by_cases hq : q < (r.at_ n).p.w.mgr.oheap.length
  · exact stays q n1 h1 (h2 q hq) m hm
  · refine stays q n (Nat.le_refl _) ?_ m (by omega)
    have : (r.at_ n).p.w.rollOf env.tc q = none := by
      cases e : (r.at_ n).p.w.rollOf env.tc q with
      | none => rfl
      | some c => exact absurd (rollOf_lt e) hq
    rw [((mexec_inv (forever_exec r n)).idle q this).2.1]; simp

variable (hw : ∀ q, r.fair (writerSteps q))
include hw

/-- The worker of an output whose `Close` has not been called works. -/
theorem worker_begins (hb : ∀ q, r.fair (workerBegins q)) {n o : Nat} {cfg : ACfg V} (hc : (r.at_ n).p.w.asyncOf env o = some cfg) : ∃ m, n ≤ m ∧ ((r.at_ m).p.a o).worker ≠ .starting := by
  apply Classical.byContradiction
  intro hn
  have start : ∀ m, n ≤ m → ((r.at_ m).p.a o).worker = .starting := fun m h => Classical.byContradiction fun k => hn ⟨m, h, k⟩
  have := hb o (often_from (n := n) fun k hk => by
    obtain ⟨m, h1, h2⟩ := job_often hp (hw o) k
    have hs : PStep env (r.at_ m).p (.out o .begin) _ := ⟨hp m, .out (forever_async r (by omega) hc) ⟨(pexec_inv (forever_prog r m)).sound (hp m) o, .begin (start m (by omega))⟩⟩
    obtain ⟨x, m', g1, g2⟩ := enabled_step (forever_exec r m) hs ⟨fun t ht => (by cases ht), h2⟩ (by simp)
    exact ⟨m, h1, x, m', g1, g2⟩)
  obtain ⟨m, h1, x, h2, h3⟩ := this n
  have st := r.step m
  rw [h2] at st
  rcases mstep_prog st with ⟨l, k1, k2⟩ | ⟨k, _⟩
  · rw [h3] at k1; cases k1
    have := begun_step k2
    rw [start (m + 1) (by omega)] at this; cases this
  · rw [h3] at k; cases k

omit hp hw in
/-- A worker at work stays at work, as long as it does not stop. -/
theorem worker_stays {n o : Nat} (h : ((r.at_ n).p.a o).worker ≠ .starting) : ∀ m, n ≤ m → ((r.at_ m).p.a o).worker ≠ .starting := by
  intro m hm
  induction hm with
  | refl => exact h
  | step _ ih =>
    rcases moment r _ with ⟨_, _, _, _, k⟩ | k
    · exact (waited_step k.2 o).1 ih
    · rw [k]; exact ih

omit hp hw in
theorem worker_stopped {n o : Nat} (h : ((r.at_ n).p.a o).worker = .stopped) : ∀ m, n ≤ m → ((r.at_ m).p.a o).worker = .stopped := by
  intro m hm
  induction hm with
  | refl => exact h
  | step _ ih =>
    rcases moment r _ with ⟨_, _, _, _, k⟩ | k
    · exact (waited_step k.2 o).2.1 ih
    · rw [k]; exact ih

/-- A worker at work with something in the queue takes it. -/
theorem worker_takes (hk : ∀ q, r.fair (workerTakes q)) {n o : Nat} {cfg : ACfg V} (hc : (r.at_ n).p.w.asyncOf env o = some cfg)
    (hr : ∀ m, n ≤ m → ((r.at_ m).p.a o).worker = .running) (hq : ∀ m, n ≤ m → ((r.at_ m).p.a o).chan ≠ []) :
    ∃ m, n ≤ m ∧ ∃ e, PStep env (r.at_ m).p (.out o (.took e)) (r.at_ (m + 1)).p := by
  obtain ⟨f, hf⟩ := (asyncOf_cfg (pexec_inv (forever_prog r n)).world hc).1
  have := hk o (often_from (n := n) fun k hk => by
    obtain ⟨m, h1, h2⟩ := job_often hp (hw o) k
    have hm : n ≤ m := by omega
    have : ∃ e p, PStep env (r.at_ m).p (.out o (.took e)) p := by
      have hso := (pexec_inv (forever_prog r m)).sound (hp m) o
      match hch : ((r.at_ m).p.a o).chan, hq m hm with
      | none :: rest, _ => exact ⟨_, _, hp m, .out (forever_async r hm hc) ⟨hso, .takeNil (hr m hm) hch⟩⟩
      | some e :: rest, _ => exact ⟨_, _, hp m, .out (forever_async r hm hc) ⟨hso, .takeEvent (hr m hm) hch hf⟩⟩
      | [], hne => exact absurd rfl hne
    obtain ⟨e, p, hs⟩ := this
    obtain ⟨x, m', g1, g2⟩ := enabled_step (forever_exec r m) hs ⟨fun t ht => (by cases ht), h2⟩ (by simp)
    exact ⟨m, h1, x, m', ⟨e, g1⟩, g2⟩)
  obtain ⟨m, h1, x, h2, e, h3⟩ := this n
  have st := r.step m
  rw [h2] at st
  rcases mstep_prog st with ⟨l, k1, k2⟩ | ⟨k, _⟩
  · rw [h3] at k1; cases k1
    exact ⟨m, h1, e, k2⟩
  · rw [h3] at k; cases k

/-- The queue has room, again and again, if the worker is never told to stop. -/
theorem room_often (hb : ∀ q, r.fair (workerBegins q)) (hk : ∀ q, r.fair (workerTakes q)) {n o : Nat} {cfg : ACfg V} (hc : (r.at_ n).p.w.asyncOf env o = some cfg)
    (hq : ∀ m, n ≤ m → none ∉ queuedOf (outLabs o (progOf (r.trace m)))) : ∃ m, n ≤ m ∧ ((r.at_ m).p.a o).chan.length < cfg.queueSize := by
  apply Classical.byContradiction
  intro hn
  have full : ∀ m, n ≤ m → cfg.queueSize ≤ ((r.at_ m).p.a o).chan.length := fun m h => by
    apply Classical.byContradiction
    intro k
    exact hn ⟨m, h, by omega⟩
  have size := (asyncOf_cfg (pexec_inv (forever_prog r n)).world hc).2.1
  have ainv : ∀ m, n ≤ m → AInv cfg (outLabs o (progOf (r.trace m))) ((r.at_ m).p.a o) := fun m h => by
    have pi := pexec_inv (forever_prog r m)
    exact aexec_inv (pi.proj o cfg (forever_async r h hc)) (pi.sound (hp m) o)
  obtain ⟨n1, h1, h2⟩ := worker_begins hp hw hb hc
  have run : ∀ m, n1 ≤ m → ((r.at_ m).p.a o).worker = .running := by
    intro m hm
    cases e : ((r.at_ m).p.a o).worker with
    | running => rfl
    | starting => exact absurd e (worker_stays h2 m hm)
    | stopped =>
      obtain ⟨pre, k, _⟩ := (ainv m (by omega)).stopped e
      refine absurd ?_ (hq m (by omega))
      rw [(ainv m (by omega)).queue, k]; simp
  obtain ⟨m, h3, e, h4⟩ := worker_takes hp hw hk (forever_async r h1 hc) run fun m hm he => by
    have := full m (by omega)
    rw [he] at this
    simp at this; omega
  rcases queue_step h4 (hp _) o with ⟨_, k⟩ | ⟨e', _, k, _⟩
  · exact k e rfl
  · have f := full (m + 1) (by omega)
    have s := (ainv m (by omega)).size
    rcases k with k | ⟨_, k⟩
    · rw [k] at s; simp at s; omega
    · rw [k] at f; simp at f; omega

/-- A worker that has been told to stop takes what is in front of the request, one by one. -/
theorem next_take (hk : ∀ q, r.fair (workerTakes q)) {n o : Nat} {cfg : ACfg V} (hc : (r.at_ n).p.w.asyncOf env o = some cfg) (hr : ∀ m, n ≤ m → ((r.at_ m).p.a o).worker = .running)
    {x y : List (Option (Event V))} {b : Option (Event V)} (hq : ((r.at_ n).p.a o).chan = x ++ b :: y) :
    ∃ m y', n ≤ m ∧ ((r.at_ m).p.a o).chan = x ++ b :: y' ∧ ∃ e, PStep env (r.at_ m).p (.out o (.took e)) (r.at_ (m + 1)).p := by
  have one : ∀ m, (∃ y, ((r.at_ m).p.a o).chan = x ++ b :: y) → (∃ y, ((r.at_ (m + 1)).p.a o).chan = x ++ b :: y) ∨ ∃ e, PStep env (r.at_ m).p (.out o (.took e)) (r.at_ (m + 1)).p := by
    rintro m ⟨y, e1⟩
    rcases moment r m with ⟨_, l, _, _, k⟩ | k
    · rcases queue_step k (hp _) o with ⟨⟨z, kz⟩, _⟩ | ⟨e, rfl, _⟩
      · exact .inl ⟨y ++ z, by rw [kz, e1]; simp⟩
      · exact .inr ⟨e, k⟩
    · exact .inl ⟨y, by rw [k]; exact e1⟩
  have hex : ∃ m, n ≤ m ∧ ∃ e, PStep env (r.at_ m).p (.out o (.took e)) (r.at_ (m + 1)).p := by
    apply Classical.byContradiction
    intro hn
    have still : ∀ m, n ≤ m → ∃ y, ((r.at_ m).p.a o).chan = x ++ b :: y := until_ ⟨y, hq⟩ (fun m _ => one m) (fun m h hq => hn ⟨m, h, hq⟩)
    exact hn (worker_takes hp hw hk hc hr fun m hm he => by
      obtain ⟨y, e1⟩ := still m hm
      rw [he] at e1; simp at e1)
  obtain ⟨m, h1, h2, h3⟩ := first_time hex
  have still : ∀ i, n ≤ i → i ≤ m → ∃ y, ((r.at_ i).p.a o).chan = x ++ b :: y := by
    intro i hi him
    induction hi with
    | refl => exact ⟨y, hq⟩
    | @step i hi ih => exact (one i (ih (by omega))).resolve_right (h3 i hi (by omega))
  obtain ⟨y', e⟩ := still m h1 (Nat.le_refl _)
  exact ⟨m, y', h1, e, h2⟩

/-- A worker that has been told to stop does. -/
theorem worker_stops (hk : ∀ q, r.fair (workerTakes q)) {o : Nat} {cfg : ACfg V} (x : List (Option (Event V))) : ∀ {n : Nat} {y : List (Option (Event V))},
    (r.at_ n).p.w.asyncOf env o = some cfg → (∀ m, n ≤ m → ((r.at_ m).p.a o).worker = .running) → ((r.at_ n).p.a o).chan = x ++ none :: y → False := by
  induction x with
  | nil =>
    intro n y hc hr hq
    obtain ⟨m, y', h1, h2, e, h3⟩ := next_take hp hw hk hc hr hq
    rcases queue_step h3 (hp _) o with ⟨_, k⟩ | ⟨e', he, k, kw⟩
    · exact k e rfl
    · cases he
      rcases k with k | ⟨k, _⟩
      · rw [h2] at k
        simp at k
        have := kw k.1.symm
        rw [hr (m + 1) (by omega)] at this; cases this
      · rw [h2] at k; simp at k
  | cons b x ih =>
    intro n y hc hr hq
    obtain ⟨m, y', h1, h2, e, h3⟩ := next_take hp hw hk hc hr hq
    rcases queue_step h3 (hp _) o with ⟨_, k⟩ | ⟨e', he, k, _⟩
    · exact k e rfl
    · rcases k with k | ⟨k, _⟩
      · rw [h2] at k
        simp at k
        exact ih (forever_async r (show n ≤ m + 1 by omega) hc) (fun i hi => hr i (by omega)) k.2.symm
      · rw [h2] at k; simp at k

/-- What a goroutine in a call of an output waits for. -/
def Clear (cfg : ACfg V) (m : Machine V) (o : Nat) : Pc V → Prop
  | .sending _ | .requesting => (m.p.a o).chanClosed = false ∧ (m.p.a o).chan.length < cfg.queueSize
  | .waiting => (m.p.a o).wait = 0 ∧ (m.wr o).job = none
  | .closing => (m.p.a o).chanClosed = false
  | .idle | .storing => True

/-- A goroutine in a call makes a step, if what it waits for happens again and again. -/
theorem moves {t n : Nat} (hf : r.fair (goesOn t)) (hc : ((r.at_ n).p.th t).call ≠ none)
    (hout : ∀ o cfg, ((r.at_ n).p.th t).inside = some o → (r.at_ n).p.w.asyncOf env o = some cfg → (∀ m, n ≤ m → ((r.at_ m).p.th t) = ((r.at_ n).p.th t)) →
      (∀ m, n ≤ m → ((r.at_ m).p.a o).th t = ((r.at_ n).p.a o).th t) → ∀ k, n ≤ k → ∃ m, k ≤ m ∧ Clear cfg (r.at_ m) o (((r.at_ n).p.a o).th t).pc) :
    ∃ m, n ≤ m ∧ ∃ l, r.lab m = some l ∧ goesOn t l := by
  apply Classical.byContradiction
  intro hn
  have hn : ∀ m, n ≤ m → ¬ ∃ l, r.lab m = some l ∧ goesOn t l := fun m h k => hn ⟨m, h, k⟩
  have fz : ∀ m, n ≤ m → (r.at_ m).p.th t = (r.at_ n).p.th t ∧ ∀ o, ((r.at_ m).p.a o).th t = ((r.at_ n).p.a o).th t := fun m h => frozen hp hc h fun i h1 _ => hn i h1
  obtain ⟨n1, h1, h2⟩ := by_none hp hw hc hn
  -- it is enough that it can make a step again and again
  have enough : (∀ k, n1 ≤ k → ∃ m l p, k ≤ m ∧ PStep env (r.at_ m).p l p ∧ l.goroutine = some t ∧ (∀ o c, l = .plain t o c → ((r.at_ m).wr o).job = none) ∧
      (∀ o u, l = .out o (.waited u) → ((r.at_ m).wr o).job = none) ∧ ¬ Begins t l ∧ l ≠ .panic t) → False := by
    intro h
    obtain ⟨m, k1, k2⟩ := hf (often_from (n := n1) fun k hk => by
      obtain ⟨m, l, p, g1, g2, g3, g4, g5, g6, g7⟩ := h k hk
      obtain ⟨x, m', e1, e2⟩ := enabled_step (forever_exec r m) g2 ⟨fun u hu q => by rw [g3] at hu; cases hu; exact h2 m (by omega) q, by
        split
        · exact g5 _ _ rfl
        · cases g3
        · cases g3
        · cases g3
        · cases g3
        · trivial⟩ (fun u o c e => by subst e; cases g3; exact g4 _ _ rfl)
      exact ⟨m, g1, x, m', ⟨l, e1, g3, g6, g7⟩, e2⟩) n
    exact hn m k1 k2
  have begins : ∀ {l : PLab V}, (∀ ds, l ≠ .log t ds) → (∀ os, l ≠ .close t os) → (∀ o c, l ≠ .direct t o c) → ¬ Begins t l := by
    rintro l b1 b2 b3 (⟨ds, e⟩ | ⟨os, e⟩ | ⟨o, c, e⟩)
    · exact b1 ds e
    · exact b2 os e
    · exact b3 o c e
  obtain ⟨kc, todo, inside, e⟩ : ∃ kc todo inside, (r.at_ n).p.th t = { call := some kc, todo := todo, inside := inside } := by
    match hx : (r.at_ n).p.th t, hc with
    | { call := some kc, todo := todo, inside := inside }, _ => exact ⟨kc, todo, inside, rfl⟩
    | { call := none, todo := todo, inside := inside }, hne => exact absurd rfl hne
  have pinv := pexec_inv (forever_prog r n)
  cases inside with
  | none =>
    cases todo with
    | nil =>
      refine enough fun k hk => ⟨k, .ret t, _, Nat.le_refl _, ⟨hp k, .ret (k := kc) (by rw [(fz k (by omega)).1, e])⟩, rfl, by simp, by simp, begins (by simp) (by simp) (by simp), by simp⟩
    | cons y rest =>
      obtain ⟨o, c⟩ := y
      have ho := pinv.todo t (o, c) (by rw [e]; simp)
      cases hcfg : (r.at_ n).p.w.asyncOf env o with
      | some cfg =>
        refine enough fun k hk => ⟨k, .enter t o c, _, Nat.le_refl _, ⟨hp k, .enter (k := some kc) (rest := rest) (by rw [(fz k (by omega)).1, e]) (forever_async r (show n ≤ k by omega) hcfg)⟩, rfl,
          by simp, by simp, begins (by simp) (by simp) (by simp), by simp⟩
      | none =>
        refine enough fun k hk => ?_
        obtain ⟨m, g1, g2⟩ := job_often hp (hw o) k
        have hs := forever_sync r (show n ≤ m by omega) ho hcfg
        have e' := (fz m (by omega)).1.trans e
        cases c with
        | send ev => exact ⟨m, .plain t o (.send ev), _, g1, ⟨hp m, .send [] e' hs⟩, rfl, fun o' c' ee => by cases ee; exact g2, by simp, begins (by simp) (by simp) (by simp), by simp⟩
        | close => exact ⟨m, .plain t o .close, _, g1, ⟨hp m, .closed e' hs⟩, rfl, fun o' c' ee => by cases ee; exact g2, by simp, begins (by simp) (by simp) (by simp), by simp⟩
  | some o =>
    have hin : ((r.at_ n).p.th t).inside = some o := by rw [e]
    cases hcfg : (r.at_ n).p.w.asyncOf env o with
    | none => exact pinv.inside t o hin hcfg
    | some cfg =>
      have hout := hout o cfg hin hcfg (fun m h => (fz m h).1) (fun m h => (fz m h).2 o)
      have lone := pinv.lone t o
      have fa := fun m h => (fz m h).2 o
      generalize ((r.at_ n).p.a o).th t = x at hout lone fa
      obtain ⟨pc, cs⟩ := x
      refine enough fun k hk => ?_
      obtain ⟨m, g1, g2⟩ := hout k (by omega)
      have hm : n ≤ m := by omega
      have ex := fa m hm
      have hcm := forever_async r hm hcfg
      have hso := (pexec_inv (forever_prog r m)).sound (hp m) o
      have act : ∀ {l : ALab V} {y : AState V}, AAct cfg ((r.at_ m).p.a o) l y → stepOf l = some t → (∀ u, l = .waited u → ((r.at_ m).wr o).job = none) →
          ∃ m l p, k ≤ m ∧ PStep env (r.at_ m).p l p ∧ l.goroutine = some t ∧ (∀ o c, l = .plain t o c → ((r.at_ m).wr o).job = none) ∧
          (∀ o u, l = .out o (.waited u) → ((r.at_ m).wr o).job = none) ∧ ¬ Begins t l ∧ l ≠ .panic t := by
        intro l y hy hl hwt
        exact ⟨m, .out o l, _, g1, ⟨hp m, .out hcm ⟨hso, hy⟩⟩, by rw [goroutine_out]; exact hl, by simp, fun o' u ee => by cases ee; exact hwt u rfl, begins (by simp) (by simp) (by simp), by simp⟩
      cases pc with
      | idle =>
        cases cs with
        | nil =>
          exact ⟨m, .leave t o, _, g1, ⟨hp m, .leave (k := some kc) (rest := todo) (by rw [(fz m hm).1, e]) ex⟩, rfl, by simp, by simp, begins (by simp) (by simp) (by simp), by simp⟩
        | cons c cs =>
          cases hcl : ((r.at_ m).p.a o).closed with
          | true =>
            cases c with
            | send ev => exact act (.sendSkip ex hcl) rfl (by simp)
            | close => exact act (.closeSkip ex hcl) rfl (by simp)
          | false =>
            cases c with
            | send ev => exact act (.sendStart ex hcl) rfl (by simp)
            | close => exact act (.closeStart ex hcl) rfl (by simp)
      | sending ev => exact act (.sendQueue ex g2.1 g2.2) rfl (by simp)
      | requesting => exact act (.closeRequest ex g2.1 g2.2) rfl (by simp)
      | waiting => exact act (.closeWait ex g2.1) rfl (fun _ _ => g2.2)
      | storing => exact act (.closeStore ex) rfl (by simp)
      | closing => exact act (.closeChan ex g2) rfl (by simp)

/-- A call returns, if what it waits for happens again and again. -/
theorem returns {t : Nat} (hf : r.fair (goesOn t)) (k : PCall) (P : Nat → Prop)
    (hout : ∀ n o cfg, ((r.at_ n).p.th t).call = some k → P o → ((r.at_ n).p.th t).inside = some o → (r.at_ n).p.w.asyncOf env o = some cfg → (∀ m, n ≤ m → ((r.at_ m).p.th t) = ((r.at_ n).p.th t)) →
      (∀ m, n ≤ m → ((r.at_ m).p.a o).th t = ((r.at_ n).p.a o).th t) → ∀ k, n ≤ k → ∃ m, k ≤ m ∧ Clear cfg (r.at_ m) o (((r.at_ n).p.a o).th t).pc)
    {n : Nat} (hc : ((r.at_ n).p.th t).call = some k) (hu : ∀ o, (r.at_ n).p.uses t o → P o) : ∃ m, n ≤ m ∧ r.lab m = some (.prog (.ret t)) := by
  generalize hd : (r.at_ n).p.left t = d
  induction d using Nat.strongRecOn generalizing n with
  | _ d ih =>
    have hne : ((r.at_ n).p.th t).call ≠ none := by rw [hc]; simp
    obtain ⟨m, h1, ⟨x, h2, l, h3, h4, _⟩, h5⟩ := first_time (moves hp hw hf hne fun o cfg hin hcfg => hout n o cfg hc (hu o (.inl hin)) hin hcfg)
    obtain ⟨f1, f2⟩ := frozen hp hne h1 h5
    have st := r.step m
    rw [h2] at st
    simp only at st
    have huse : ∀ o, (r.at_ m).p.uses t o → P o := fun o ho => hu o (by unfold PState.uses at ho; rw [f1] at ho; exact ho)
    have hleft : (r.at_ m).p.left t = d := by
      rw [← hd]
      unfold PState.left
      rw [f1]
      split
      · rfl
      · rw [f2]
    rcases mstep_prog st with ⟨l', k1, k2⟩ | ⟨k1, _⟩
    · rw [h3] at k1; cases k1
      rcases gets_on (pexec_inv (forever_prog r m)) k2 (hp _) h4 (by rw [f1]; exact hne) with rfl | ⟨g1, g2, g3⟩
      · refine ⟨m, h1, ?_⟩
        rw [h2]
        clear h2 hleft huse f1 f2
        cases x with
        | prog l => simp [progOf] at h3; rw [h3]
        | write l k o bs =>
          simp [progOf] at h3; subst h3
          have inv := mexec_inv (forever_exec r m)
          generalize r.at_ (m + 1) = b at st
          cases st with
          | write hs _ _ hg _ _ =>
            rcases given_step inv.prog hs o with k | ⟨_, _, _, k, _⟩ | ⟨_, _, _, k, _⟩
            · rw [k] at hg; simp at hg
            · cases k
            · cases k
        | sys _ _ _ => simp [progOf] at h3
        | done _ _ _ _ => simp [progOf] at h3
      · obtain ⟨m', i1, i2⟩ := ih _ (by rw [hleft] at g2; exact g2) (n := m + 1) (by rw [g1, f1]; exact hc) (fun o ho => huse o (g3 o ho)) rfl
        exact ⟨m', by omega, i2⟩
    · rw [h3] at k1; cases k1

/-- A call that uses only outputs that are never closed returns. -/
theorem open_returns {t : Nat} (hf : r.fairTo t) {k : PCall} {n : Nat} (hc : ((r.at_ n).p.th t).call = some k)
    (hu : ∀ o, (r.at_ n).p.uses t o → ∀ m, Open o (progOf (r.trace m))) : ∃ m, n ≤ m ∧ r.lab m = some (.prog (.ret t)) := by
  refine returns hp hw hf.goroutine k (fun o => ∀ m, Open o (progOf (r.trace m))) ?_ hc hu
  intro n o cfg hc ho hin hcfg f1 f2 i hi
  have never : ∀ m, n ≤ m → (∀ t, Sender (((r.at_ m).p.a o).th t)) ∧ ((r.at_ m).p.a o).closed = false ∧ ((r.at_ m).p.a o).chanClosed = false ∧ none ∉ queuedOf (outLabs o (progOf (r.trace m))) ∧
      ∀ t c, .skip t c ∉ outLabs o (progOf (r.trace m)) := fun m hm => by
    have pi := pexec_inv (forever_prog r m)
    exact never_closed (fun u => (pi.opened o (ho m) u).2) (pi.proj o cfg (forever_async r hm hcfg))
  rcases ((never n (Nat.le_refl _)).1 t).1 with k | ⟨e, k⟩
  · exact ⟨i, Nat.le_refl _, by rw [k]; trivial⟩
  · obtain ⟨m, h1, h2⟩ := room_often hp hw hf.begins hf.takes (forever_async r hi hcfg) (fun m hm => (never m (by omega)).2.2.2.1)
    exact ⟨m, h1, by rw [k]; exact ⟨(never m (by omega)).2.2.1, h2⟩⟩

/-- The manager's `Close` returns, if the program closes no output itself. -/
theorem manager_returns {t : Nat} (hf : r.fairTo t) (ht : ∀ m, Tame (progOf (r.trace m))) {n : Nat} (hc : ((r.at_ n).p.th t).call = some .close) :
    ∃ m, n ≤ m ∧ r.lab m = some (.prog (.ret t)) := by
  refine returns hp hw hf.goroutine .close (fun _ => True) ?_ hc fun _ _ => trivial
  intro n o cfg hc _ hin hcfg f1 f2 i hi
  have pinv := fun m => pexec_inv (forever_prog r m)
  have hcm : ∀ m, n ≤ m → (r.at_ m).p.w.asyncOf env o = some cfg := fun m hm => forever_async r hm hcfg
  have oinv : ∀ m, n ≤ m → OInv t (outLabs o (progOf (r.trace m))) ((r.at_ m).p.a o) := fun m hm =>
    oinv_closing (forever_prog r m) (ht m) (hcm m hm) (((pinv m).lock t).mpr (by rw [f1 m hm]; exact hc))
  have ainv : ∀ m, n ≤ m → AInv cfg (outLabs o (progOf (r.trace m))) ((r.at_ m).p.a o) := fun m hm =>
    aexec_inv ((pinv m).proj o cfg (hcm m hm)) ((pinv m).sound (hp m) o)
  cases hpc : (((r.at_ n).p.a o).th t).pc with
  | idle => exact ⟨i, Nat.le_refl _, trivial⟩
  | storing => exact ⟨i, Nat.le_refl _, trivial⟩
  | sending e => exact absurd hpc ((((pinv n).closes t hc).2 o).1 e)
  | closing => exact ⟨i, Nat.le_refl _, (oinv i hi).late (by rw [f2 i hi]; exact hpc)⟩
  | requesting =>
    have hcl : ∀ m, n ≤ m → ((r.at_ m).p.a o).closed = false := fun m hm => (oinv m hm).early (.inl (by rw [f2 m hm]; exact hpc))
    obtain ⟨m, h1, h2⟩ := room_often hp hw hf.begins hf.takes (hcm i hi) (fun m hm hnone => by
      rcases (oinv m (by omega)).request hnone with k | k
      · rw [f2 m (by omega), hpc] at k; rcases k with k | k | k <;> cases k
      · rw [hcl m (by omega)] at k; cases k)
    exact ⟨m, h1, (oinv m (by omega)).chan (hcl m (by omega)), h2⟩
  | waiting =>
    -- the worker is not at work again and again
    have rests : ∃ j, i ≤ j ∧ ∀ m, j ≤ m → ((r.at_ m).p.a o).worker ≠ .running := by
      apply Classical.byContradiction
      intro hn
      obtain ⟨j, hj, hjr⟩ : ∃ j, i ≤ j ∧ ((r.at_ j).p.a o).worker = .running := by
        apply Classical.byContradiction
        intro hno
        exact hn ⟨i, Nat.le_refl _, fun m hm k => hno ⟨m, hm, k⟩⟩
      have run : ∀ m, j ≤ m → ((r.at_ m).p.a o).worker = .running := by
        intro m hm
        cases e : ((r.at_ m).p.a o).worker with
        | running => rfl
        | starting => exact absurd e (worker_stays (by rw [hjr]; simp) m hm)
        | stopped => exact absurd ⟨m, by omega, fun m' hm' => by rw [worker_stopped e m' hm']; simp⟩ hn
      have hnone := (ainv j (by omega)).request (.inl ⟨t, by rw [f2 j (by omega), hpc]; exact .inl rfl⟩)
      rw [(ainv j (by omega)).queue] at hnone
      rcases List.mem_append.mp hnone with k | k
      · exact (ainv j (by omega)).running hjr k
      · obtain ⟨x, y, e⟩ := List.append_of_mem k
        exact worker_stops hp hw hf.takes x (hcm j (by omega)) run e
    obtain ⟨j, hj, hr⟩ := rests
    obtain ⟨m, h1, h2⟩ := job_often hp (hw o) j
    refine ⟨m, by omega, ?_, h2⟩
    rw [(ainv m (by omega)).wait, if_neg (hr m (by omega))]

end

end Log4g
