import Verif.Lemmas.FairCalls

/-! # Programs that go on for ever: those that come to rest -/

namespace Log4g
open Spec Strconv
open scoped List
variable {V : Type} {env : PEnv V} {host : Host} {up : Nat → Bool} {v0 : Nat → Volume}

theorem exec_states {m0 m : Machine V} {tr : List (MLab V)} (h : MExec env host m0 tr m) :
    ∃ f : Nat → Machine V, f 0 = m0 ∧ (∀ i l, tr[i]? = some l → MStep env host (f i) l (f (i + 1))) ∧ ∀ i, tr.length ≤ i → f i = m := by
  induction h with
  | nil => exact ⟨fun _ => _, rfl, by simp, fun _ _ => rfl⟩
  | @snoc tr m1 l m2 h1 h2 ih =>
    obtain ⟨f, f0, f1, f2⟩ := ih
    refine ⟨fun i => if i ≤ tr.length then f i else m2, by simp [f0], fun i x hx => ?_, fun i hi => ?_⟩
    · by_cases hi : i < tr.length
      · rw [List.getElem?_append_left hi] at hx
        have := f1 i x hx
        simp only
        rw [if_pos (by omega), if_pos (by omega)]; exact this
      · rw [List.getElem?_append_right (by omega)] at hx
        have : i = tr.length := by
          have := (List.getElem?_eq_some_iff.mp hx).1
          simp at this; omega
        subst this
        simp at hx; subst hx
        simp only [Nat.le_refl, if_true]
        rw [if_neg (by omega), f2 _ (Nat.le_refl _)]
        exact h2
    · simp at hi
      simp only
      rw [if_neg (by omega)]

/-- A program after which nothing happens any more. -/
theorem exec_forever {m0 m : Machine V} {tr : List (MLab V)} (h : MExec env host m0 tr m) :
    ∃ r : Forever env host m0, (∀ i, r.lab i = tr[i]?) ∧ (∀ n, r.trace n = tr.take n) ∧ ∀ i, tr.length ≤ i → r.at_ i = m := by
  obtain ⟨f, f0, f1, f2⟩ := exec_states h
  refine ⟨⟨f, fun i => tr[i]?, f0, fun n => ?_⟩, fun _ => rfl, fun n => ?_, f2⟩
  · cases e : tr[n]? with
    | some l => exact f1 n l e
    | none =>
      have := List.getElem?_eq_none_iff.mp e
      simp only
      rw [f2 _ this, f2 _ (by omega)]
  · induction n with
    | zero => rfl
    | succ n ih =>
      show _ ++ (tr[n]?).toList = _
      rw [ih, List.take_add_one]

theorem prog_mem {tr : List (MLab V)} {l : PLab V} (h : l ∈ progOf tr) : ∃ (i : Nat) (x : MLab V), tr[i]? = some x ∧ progOf [x] = [l] := by
  obtain ⟨x, h1, h2⟩ := List.mem_flatMap.mp h
  obtain ⟨i, h3⟩ := List.getElem?_of_mem h1
  refine ⟨i, x, h3, ?_⟩
  cases x <;> simp_all [progOf]

theorem returned_nil (t : Nat) : Returned t ([] : List (PLab V)) := fun x l y e => by simp at e

theorem returned_cons {t : Nat} {l : PLab V} {tr : List (PLab V)} (h1 : Begins t l → .ret t ∈ tr) (h2 : Returned t tr) : Returned t (l :: tr) := by
  intro x l' y e hb
  cases x with
  | nil => simp at e; obtain ⟨rfl, rfl⟩ := e; exact h1 hb
  | cons a x => simp at e; exact h2 x l' y e.2 hb

/-- A program in which nothing has panicked. -/
theorem unpanicked {s0 s : PState V} {tr : List (PLab V)} (h : PExec env s0 tr s) (h0 : s0.panicked = false) (h1 : ∀ t, .panic t ∉ tr)
    (h2 : ∀ o t, .out o (.panic t) ∉ tr) (h3 : ∀ o, .out o .workerPanic ∉ tr) : s.panicked = false := by
  cases h with
  | nil => exact h0
  | @snoc tr s1 l _ _ h =>
    have hp := h.1
    have g1 : ∀ t, l ≠ .panic t := fun t e => h1 t (by simp [e])
    have g2 : ∀ o t, l ≠ .out o (.panic t) := fun o t e => h2 o t (by simp [e])
    have g3 : ∀ o, l ≠ .out o .workerPanic := fun o e => h3 o (by simp [e])
    clear h1 h2 h3
    cases h.2 with
    | actPanic _ => exact absurd rfl (g1 _)
    | logPanic _ _ _ => exact absurd rfl (g1 _)
    | @out o l x cfg hc hx =>
      show x.panicked = false
      have hq := hx.1
      have k := hx.2
      clear h hx
      cases k <;> first | exact hq | exact absurd rfl (g2 o _) | exact absurd rfl (g3 o) | (simp only [AState.handle]; split <;> (try split) <;> exact hq)
    | _ => exact hp

/-- Nothing is going on. -/
structure AtRest (env : PEnv V) (m : Machine V) : Prop where
  calls : ∀ t, (m.p.th t).call = none
  workers : ∀ o cfg, m.p.w.asyncOf env o = some cfg → (m.p.a o).worker ≠ .starting ∧ ((m.p.a o).worker = .stopped ∨ (m.p.a o).chan = [] ∧ (m.p.a o).chanClosed = false)
  writers : ∀ o, (m.wr o).job = none

theorem begins_needs {s s' : PState V} {o : Nat} (h : PStep env s (.out o .begin) s') : s.w.asyncOf env o ≠ none ∧ (s.a o).worker = .starting := by
  cases h.2 with
  | out hc hx => cases hx.2 with
    | begin k => exact ⟨by rw [hc]; simp, k⟩

theorem takes_needs {s s' : PState V} {o : Nat} {e : Option (Event V)} (h : PStep env s (.out o (.took e)) s') :
    s.w.asyncOf env o ≠ none ∧ (s.a o).worker = .running ∧ ((s.a o).chan ≠ [] ∨ (s.a o).chanClosed = true) := by
  cases h.2 with
  | out hc hx =>
    refine ⟨by rw [hc]; simp, ?_⟩
    cases hx.2 with
    | takeEvent k1 k2 _ => exact ⟨k1, .inl (by rw [k2]; simp)⟩
    | takeIgnored k1 k2 _ _ => exact ⟨k1, .inl (by rw [k2]; simp)⟩
    | takeNil k1 k2 => exact ⟨k1, .inl (by rw [k2]; simp)⟩
    | takeClosed k1 k2 k3 => exact ⟨k1, .inr k3⟩

theorem goes_needs {tr : List (PLab V)} {s s' : PState V} {l : PLab V} {t : Nat} (inv : PInv env tr s) (h : PStep env s l s') (ht : l.goroutine = some t) (h1 : ¬ Begins t l) (h2 : l ≠ .panic t) :
    (s.th t).call ≠ none := by
  intro hc
  have rest := inv.rest t hc
  cases h.2 with
  | act _ _ _ _ => cases ht
  | actPanic _ => cases ht; exact h2 rfl
  | logPanic _ _ _ => cases ht; exact h2 rfl
  | log _ _ _ => cases ht; exact h1 (.inl ⟨_, rfl⟩)
  | close _ _ _ => cases ht; exact h1 (.inr (.inl ⟨_, rfl⟩))
  | direct _ _ => cases ht; exact h1 (.inr (.inr ⟨_, _, rfl⟩))
  | ret e => cases ht; rw [rest] at e; simp at e
  | enter e _ => cases ht; rw [rest] at e; simp at e
  | leave e _ => cases ht; rw [rest] at e; simp at e
  | send _ e _ => cases ht; rw [rest] at e; simp at e
  | closed e _ => cases ht; rw [rest] at e; simp at e
  | @out o l x cfg _ hx =>
    rw [goroutine_out] at ht
    have away := inv.away t o (by rw [rest]; simp)
    cases hx.2 <;> cases ht <;> simp_all

/-- A program that has come to rest is fair to everybody. -/
theorem rest_fair {m : Machine V} {tr : List (MLab V)} (h : MExec env host (newMachine up v0) tr m) (hr : AtRest env m) {r : Forever env host (newMachine up v0)}
    {N : Nat} (he : ∀ i, N ≤ i → r.at_ i = m) (t : Nat) : r.fairTo t := by
  have inv := mexec_inv h
  have no : ∀ {who : MLab V → Prop}, (∀ x m', who x → ¬ MStep env host m x m') → r.fair who := by
    intro who hno ho
    obtain ⟨i, h1, x, m', h2, h3⟩ := ho N
    rw [he i h1] at h3
    exact absurd h3 (hno x m' h2)
  refine ⟨no ?_, fun o => no ?_, fun o => no ?_, fun o => no ?_⟩
  · rintro x m' ⟨l, h1, h2, h3, h4⟩ hs
    rcases mstep_prog hs with ⟨l', k1, k2⟩ | ⟨k, _⟩
    · rw [h1] at k1; cases k1
      exact goes_needs (pexec_inv inv.prog) k2 h2 h3 h4 (hr.calls t)
    · rw [h1] at k; cases k
  · intro x m' h1 hs
    rcases mstep_prog hs with ⟨l', k1, k2⟩ | ⟨k, _⟩
    · rw [h1] at k1; cases k1
      obtain ⟨g1, g2⟩ := begins_needs k2
      cases hc : m.p.w.asyncOf env o with
      | none => exact g1 hc
      | some cfg => exact (hr.workers o cfg hc).1 g2
    · rw [h1] at k; cases k
  · rintro x m' ⟨e, h1⟩ hs
    rcases mstep_prog hs with ⟨l', k1, k2⟩ | ⟨k, _⟩
    · rw [h1] at k1; cases k1
      obtain ⟨g1, g2, g3⟩ := takes_needs k2
      cases hc : m.p.w.asyncOf env o with
      | none => exact g1 hc
      | some cfg =>
        rcases (hr.workers o cfg hc).2 with k | ⟨k, k'⟩
        · rw [g2] at k; cases k
        · rcases g3 with g3 | g3
          · exact g3 k
          · rw [g3] at k'; cases k'
    · rw [h1] at k; cases k
  · intro x m' h1 hs
    cases hs with
    | prog _ _ _ => exact h1
    | write _ _ _ _ _ _ => exact h1
    | sys _ _ hj _ => rw [hr.writers] at hj; cases hj
    | done _ _ hj => rw [hr.writers] at hj; cases hj

/-- Panics are for ever. -/
theorem panic_stays {m0 m : Machine V} {tr : List (MLab V)} (h : MExec env host m0 tr m) (hp : m.p.panicked = false) : m0.p.panicked = false := by
  induction h with
  | nil => exact hp
  | snoc _ hs ih =>
    apply ih
    cases hs with
    | prog hs _ _ => exact hs.1
    | write hs _ _ _ _ _ => exact hs.1
    | sys hp _ _ _ => exact hp
    | done hp _ _ => exact hp

theorem earlier_well (r : Forever env host (newMachine up v0)) {i j : Nat} (h : i ≤ j) : (r.at_ j).p.panicked = false → (r.at_ i).p.panicked = false := by
  induction h with
  | refl => exact id
  | step h ih =>
    intro k
    apply ih
    rcases moment r _ with ⟨_, _, _, _, g⟩ | g
    · exact g.1
    · rw [← g]; exact k

/-- What holds at the end held before. -/
theorem rest_before {m : Machine V} {r : Forever env host (newMachine up v0)} {N : Nat} (he : ∀ i, N ≤ i → r.at_ i = m) (hp : m.p.panicked = false)
    (n : Nat) : (r.at_ n).p.panicked = false := by
  have e := he (max n N) (Nat.le_max_right _ _)
  exact earlier_well r (Nat.le_max_left _ _) (by rw [e]; exact hp)

end Log4g
