import Verif.Lemmas.FairRuns

/-! # Programs that go on for ever: those that do the same again and again -/

namespace Log4g
open Spec Strconv
open scoped List
variable {V : Type} {env : PEnv V} {host : Host} {up : Nat → Bool} {v0 : Nat → Volume}

/-- The states on the way. -/
def Chain (env : PEnv V) (host : Host) : Machine V → List (MLab V × Machine V) → Machine V → Prop
  | m, [], m' => m = m'
  | m, (l, m1) :: ps, m' => MStep env host m l m1 ∧ Chain env host m1 ps m'

theorem chain_snoc {m m1 m' : Machine V} {ps : List (MLab V × Machine V)} {l : MLab V} (h : Chain env host m ps m1) (hs : MStep env host m1 l m') :
    Chain env host m (ps ++ [(l, m')]) m' := by
  induction ps generalizing m with
  | nil => cases h; exact ⟨hs, rfl⟩
  | cons p ps ih => exact ⟨h.1, ih h.2⟩

theorem chain_of {m m' : Machine V} {tr : List (MLab V)} (h : MExec env host m tr m') : ∃ ps, ps.map (·.1) = tr ∧ Chain env host m ps m' := by
  induction h with
  | nil => exact ⟨[], rfl, rfl⟩
  | snoc _ hs ih =>
    obtain ⟨ps, e, h⟩ := ih
    exact ⟨_, by rw [List.map_append, e]; rfl, chain_snoc h hs⟩

/-- A program that can do the same again and again. -/
theorem loop_forever {K : Machine V → Prop} {A T : MLab V → Prop}
    (hk : ∀ m, K m → ∃ tr m', MExec env host m tr m' ∧ (∃ x ∈ tr, T x) ∧ (∀ y ∈ tr, A y) ∧ K m') {m0 : Machine V} (h0 : K m0) :
    ∃ r : Forever env host m0, (∀ n, ∃ x, r.lab n = some x ∧ A x) ∧ (Often fun n => K (r.at_ n)) ∧ Often fun n => ∃ x, r.lab n = some x ∧ T x := by
  let S := { x : Machine V × List (MLab V × Machine V) // ∃ m', Chain env host x.1 x.2 m' ∧ K m' ∧ ∀ p ∈ x.2, A p.1 }
  have next : ∀ s : S, ∃ q : MLab V × S, MStep env host s.1.1 q.1 q.2.1.1 ∧ A q.1 ∧ (s.1.2 = [] → T q.1 ∨ ∃ p ∈ q.2.1.2, T p.1) ∧ (∀ p ps, s.1.2 = p :: ps → q.1 = p.1 ∧ q.2.1.2 = ps) := by
    rintro ⟨⟨m, ps⟩, m', h1, h2, h3⟩
    cases ps with
    | nil =>
      cases h1
      obtain ⟨tr, m', g1, ⟨x, hx, g2⟩, g3, g4⟩ := hk m h2
      obtain ⟨ps, e, h⟩ := chain_of g1
      subst e
      cases ps with
      | nil => simp at hx
      | cons p ps =>
        obtain ⟨l, m1⟩ := p
        refine ⟨(l, ⟨(m1, ps), m', h.2, g4, fun p hp => g3 _ (List.mem_map.mpr ⟨p, by simp [hp], rfl⟩)⟩), h.1, g3 _ (by simp), fun _ => ?_, fun _ _ k => by simp at k⟩
        rcases List.mem_cons.mp hx with rfl | hx
        · exact .inl g2
        · obtain ⟨p, k1, rfl⟩ := List.mem_map.mp hx
          exact .inr ⟨p, k1, g2⟩
    | cons p ps =>
      obtain ⟨l, m1⟩ := p
      exact ⟨(l, ⟨(m1, ps), m', h1.2, h2, fun p hp => h3 p (by simp [hp])⟩), h1.1, h3 (l, m1) (by simp), fun k => by simp at k, fun _ _ k => by cases k; exact ⟨rfl, rfl⟩⟩
  let step : S → MLab V × S := fun s => (next s).choose
  have hstep : ∀ s : S, _ := fun s => (next s).choose_spec
  let σ : Nat → S := fun n => Nat.rec ⟨(m0, []), m0, rfl, h0, by simp⟩ (fun _ s => (step s).2) n
  have empties : ∀ k n, (σ n).1.2.length ≤ k → ∃ m, n ≤ m ∧ (σ m).1.2 = [] := by
    intro k
    induction k with
    | zero => exact fun n h => ⟨n, Nat.le_refl _, List.length_eq_zero_iff.mp (by omega)⟩
    | succ k ih =>
      intro n h
      cases e : (σ n).1.2 with
      | nil => exact ⟨n, Nat.le_refl _, e⟩
      | cons p ps =>
        have e2 : (σ (n + 1)).1.2 = ps := ((hstep (σ n)).2.2.2 p ps e).2
        rw [e] at h; simp at h
        obtain ⟨m, h1, h2⟩ := ih (n + 1) (by rw [e2]; exact h)
        exact ⟨m, by omega, h2⟩
  have comes : ∀ k n, (σ n).1.2.length ≤ k → (∃ p ∈ (σ n).1.2, T p.1) → ∃ m, n ≤ m ∧ T (step (σ m)).1 := by
    intro k
    induction k with
    | zero =>
      rintro n h ⟨p, hp, _⟩
      rw [List.length_eq_zero_iff.mp (show (σ n).1.2.length = 0 by omega)] at hp; simp at hp
    | succ k ih =>
      rintro n h ⟨p, hp, ht⟩
      cases e : (σ n).1.2 with
      | nil => rw [e] at hp; simp at hp
      | cons p' ps =>
        obtain ⟨e1, e2⟩ : (step (σ n)).1 = p'.1 ∧ (σ (n + 1)).1.2 = ps := (hstep (σ n)).2.2.2 p' ps e
        rw [e] at hp h; simp at h
        rcases List.mem_cons.mp hp with rfl | hp
        · exact ⟨n, Nat.le_refl _, by rw [e1]; exact ht⟩
        · obtain ⟨m, h1, h2⟩ := ih (n + 1) (by rw [e2]; exact h) ⟨p, by rw [e2]; exact hp, ht⟩
          exact ⟨m, by omega, h2⟩
  refine ⟨⟨fun n => (σ n).1.1, fun n => some (step (σ n)).1, rfl, fun n => (hstep (σ n)).1⟩, fun n => ⟨_, rfl, (hstep (σ n)).2.1⟩, fun n => ?_, fun n => ?_⟩
  · obtain ⟨m, h1, h2⟩ := empties _ n (Nat.le_refl _)
    refine ⟨m, h1, ?_⟩
    obtain ⟨m', k1, k2, _⟩ := (σ m).2
    rw [h2] at k1
    cases k1; exact k2
  · obtain ⟨m, h1, h2⟩ := empties _ n (Nat.le_refl _)
    rcases (hstep (σ m)).2.2.1 h2 with k | k
    · exact ⟨m, h1, _, rfl, k⟩
    · obtain ⟨m2, h3, h4⟩ := comes _ (m + 1) (Nat.le_refl _) k
      exact ⟨m2, by omega, _, rfl, h4⟩

/-- First one thing, then another for ever. -/
theorem forever_after {m0 m : Machine V} {tr : List (MLab V)} (h : MExec env host m0 tr m) (r : Forever env host m) :
    ∃ r' : Forever env host m0, (∀ i, r'.lab (tr.length + i) = r.lab i) ∧ (∀ i, r'.at_ (tr.length + i) = r.at_ i) ∧ (∀ n, n ≤ tr.length → r'.trace n = tr.take n) ∧
      (∀ i, i < tr.length → r'.lab i = tr[i]?) ∧ ∀ i, r'.trace (tr.length + i) = tr ++ r.trace i := by
  obtain ⟨f, f0, f1, f2⟩ := exec_states h
  let at' : Nat → Machine V := fun i => if i ≤ tr.length then f i else r.at_ (i - tr.length)
  let lab' : Nat → Option (MLab V) := fun i => if i < tr.length then tr[i]? else r.lab (i - tr.length)
  have hat : ∀ i, at' (tr.length + i) = r.at_ i := fun i => by
    simp only [at']
    split
    · have : i = 0 := by omega
      subst this
      rw [f2 _ (by omega), r.init]
    · rw [Nat.add_sub_cancel_left]
  have hlab : ∀ i, lab' (tr.length + i) = r.lab i := fun i => by
    simp only [lab']
    rw [if_neg (by omega), Nat.add_sub_cancel_left]
  have hs : ∀ n, match lab' n with
    | some l => MStep env host (at' n) l (at' (n + 1))
    | none => at' (n + 1) = at' n := fun n => by
    by_cases hn : n < tr.length
    · have e : lab' n = tr[n]? := by simp [lab', hn]
      have := f1 n tr[n] (List.getElem?_eq_getElem hn)
      rw [e, List.getElem?_eq_getElem hn]
      simp only [at']
      rw [if_pos (by omega), if_pos (by omega)]
      exact this
    · obtain ⟨i, rfl⟩ := Nat.le.dest (Nat.le_of_not_lt hn)
      rw [hlab, hat, Nat.add_assoc, hat]
      exact r.step i
  let r' : Forever env host m0 := ⟨at', lab', by simp [at', f0], hs⟩
  have first : ∀ i, i < tr.length → r'.lab i = tr[i]? := fun i hi => by simp [r', lab', hi]
  have before : ∀ n, n ≤ tr.length → r'.trace n = tr.take n := fun n hn => by
    induction n with
    | zero => rfl
    | succ n ih =>
      show _ ++ (r'.lab n).toList = _
      rw [ih (by omega), first n (by omega), List.take_add_one]
  refine ⟨r', hlab, hat, before, first, fun i => ?_⟩
  induction i with
  | zero => rw [Nat.add_zero, before _ (Nat.le_refl _), List.take_length]; simp [Forever.trace]
  | succ i ih =>
    show r'.trace (tr.length + i) ++ (r'.lab (tr.length + i)).toList = _ ++ (r.trace i ++ (r.lab i).toList)
    rw [ih, show r'.lab (tr.length + i) = r.lab i from hlab i, List.append_assoc]

/-- If its writes end again and again, the scheduler is fair to a writer. -/
theorem writer_fair (r : Forever env host (newMachine up v0)) {o : Nat} (h : Often fun n => ((r.at_ n).wr o).job = none) : r.fair (writerSteps o) := by
  intro ho n
  obtain ⟨n1, h1, x, m', h2, h3⟩ := ho n
  have hj : ((r.at_ n1).wr o).job ≠ none := by
    generalize r.at_ n1 = a at h3
    cases h3 with
    | prog _ _ _ => exact h2.elim
    | write _ _ _ _ _ _ => exact h2.elim
    | sys _ _ hj _ => cases h2; rw [hj]; simp
    | done _ _ hj => cases h2; rw [hj]; simp
  apply Classical.byContradiction
  intro hno
  have still : ∀ m, n1 ≤ m → ((r.at_ m).wr o).job ≠ none := by
    intro m hm
    induction hm with
    | refl => exact hj
    | @step m hm ih =>
      have hm : n1 ≤ m := hm
      rw [writer_still r o m ih (fun ⟨l, k1, k2⟩ => hno ⟨m, by omega, l, k1, k2⟩)]; exact ih
  obtain ⟨m, h4, h5⟩ := h n1
  exact still m h4 h5

theorem ticks_needs {s s' : PState V} {o : Nat} (h : PStep env s (.out o .tick) s') : s.w.asyncOf env o ≠ none := by
  cases h.2 with
  | out hc hx => rw [hc]; simp

end Log4g
