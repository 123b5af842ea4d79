import Verif.Lemmas.MachineLive
import Verif.Lemmas.SystemReturns
import Verif.Spec.Fair

/-! # Programs that go on for ever -/

namespace Log4g
open Spec Strconv
open scoped List
variable {V : Type} {env : PEnv V} {host : Host} {up : Nat → Bool} {v0 : Nat → Volume} {r : Forever env host (newMachine up v0)}

theorem forever_exec (r : Forever env host (newMachine up v0)) (n : Nat) : MExec env host (newMachine up v0) (r.trace n) (r.at_ n) := by
  induction n with
  | zero => rw [r.init]; exact .nil
  | succ n ih =>
    have := r.step n
    show MExec env host _ (r.trace n ++ (r.lab n).toList) _
    cases e : r.lab n with
    | none => rw [e] at this; simp only at this; rw [this]; simpa using ih
    | some l => rw [e] at this; exact ih.snoc this

theorem forever_prog (r : Forever env host (newMachine up v0)) (n : Nat) : PExec env (newProgram up) (progOf (r.trace n)) (r.at_ n).p := (mexec_inv (forever_exec r n)).prog

theorem trace_add (r : Forever env host (newMachine up v0)) (n : Nat) {m : Nat} (h : n ≤ m) : ∃ l, r.trace m = r.trace n ++ l := by
  induction h with
  | refl => exact ⟨[], by simp⟩
  | step _ ih =>
    obtain ⟨l, e⟩ := ih
    exact ⟨l ++ (r.lab _).toList, by rw [← List.append_assoc, ← e]; rfl⟩

/-- The steps of the program in one step of the machine. -/
theorem mstep_prog {m m' : Machine V} {x : MLab V} (h : MStep env host m x m') : (∃ l, progOf [x] = [l] ∧ PStep env m.p l m'.p) ∨ (progOf [x] = [] ∧ m'.p = m.p) := by
  cases h with
  | prog hp _ _ => exact .inl ⟨_, rfl, hp⟩
  | write hp _ _ _ _ _ => exact .inl ⟨_, rfl, hp⟩
  | sys _ _ _ _ => exact .inr ⟨rfl, rfl⟩
  | done _ _ _ => exact .inr ⟨rfl, rfl⟩

/-- In each moment, at most one step of the program. -/
theorem moment (r : Forever env host (newMachine up v0)) (n : Nat) :
    (∃ x l, r.lab n = some x ∧ progOf [x] = [l] ∧ PStep env (r.at_ n).p l (r.at_ (n + 1)).p) ∨ (r.at_ (n + 1)).p = (r.at_ n).p := by
  have := r.step n
  cases e : r.lab n with
  | none => rw [e] at this; simp only at this; rw [this]; exact .inr rfl
  | some x =>
    rw [e] at this
    rcases mstep_prog this with ⟨l, h1, h2⟩ | ⟨_, h⟩
    · exact .inl ⟨x, l, rfl, h1, h2⟩
    · exact .inr h

theorem forever_ext (r : Forever env host (newMachine up v0)) {n m : Nat} (h : n ≤ m) : Ext (r.at_ n).p.w (r.at_ m).p.w := by
  induction h with
  | refl => exact .refl _
  | step _ ih =>
    refine ih.trans ?_
    rcases moment r _ with ⟨_, _, _, _, k⟩ | k
    · exact ext_step (pexec_inv (forever_prog r _)) k
    · rw [k]; exact .refl _

theorem forever_async (r : Forever env host (newMachine up v0)) {n m o : Nat} {cfg : ACfg V} (h : n ≤ m) (hc : (r.at_ n).p.w.asyncOf env o = some cfg) :
    (r.at_ m).p.w.asyncOf env o = some cfg := by
  rw [ext_asyncOf env (pexec_inv (forever_prog r n)).world (forever_ext r h) (asyncOf_lt hc)]; exact hc

/-- Something that holds and is kept, unless something else happens. -/
theorem until_ {P Q : Nat → Prop} {n : Nat} (h0 : P n) (hs : ∀ m, n ≤ m → P m → P (m + 1) ∨ Q m) (hq : ∀ m, n ≤ m → ¬ Q m) : ∀ m, n ≤ m → P m := by
  intro m h
  induction h with
  | refl => exact h0
  | step h ih => exact (hs _ h ih).resolve_right (hq _ h)

/-- If something happens later, there is a first time. -/
theorem first_time {Q : Nat → Prop} {n : Nat} (h : ∃ m, n ≤ m ∧ Q m) : ∃ m, n ≤ m ∧ Q m ∧ ∀ i, n ≤ i → i < m → ¬ Q i := by
  obtain ⟨m, h1, h2⟩ := h
  obtain ⟨d, rfl⟩ := Nat.le.dest h1
  induction d using Nat.strongRecOn with
  | _ d ih =>
    by_cases hh : ∃ j, j < d ∧ Q (n + j)
    · obtain ⟨j, k1, k2⟩ := hh
      exact ih j k1 (by omega) k2
    · refine ⟨n + d, by omega, h2, fun i hi hid hq => hh ⟨i - n, by omega, ?_⟩⟩
      rw [show n + (i - n) = i by omega]; exact hq

/-! ## Writes end -/

/-- No step of the writer of `q`: it stays where it is, if it is writing. -/
theorem writer_still (r : Forever env host (newMachine up v0)) (q m : Nat) (hj : ((r.at_ m).wr q).job ≠ none) (hq : ¬ ∃ l, r.lab m = some l ∧ writerSteps q l) :
    (r.at_ (m + 1)).wr q = (r.at_ m).wr q := by
  have st := r.step m
  cases e : r.lab m with
  | none => rw [e] at st; simp only at st; rw [st]
  | some x =>
    rw [e] at st hq
    simp only at st
    generalize r.at_ m = a at st hj ⊢
    generalize r.at_ (m + 1) = b at st ⊢
    cases st with
    | prog _ _ _ => rfl
    | @write l p o c bs _ _ _ _ _ hj' =>
      simp only [Machine.setWr]
      split
      · rename_i e; subst e; exact absurd hj' hj
      · rfl
    | @sys o c msg op k r v' h' _ _ _ _ =>
      simp only [Machine.setWr]
      split
      · rename_i e; subst e; exact absurd ⟨_, rfl, rfl⟩ hq
      · rfl
    | @done o c msg res rw' _ _ _ =>
      simp only [Machine.setWr]
      split
      · rename_i e; subst e; exact absurd ⟨_, rfl, rfl⟩ hq
      · rfl

/-- The step of a writer. -/
theorem writer_step (r : Forever env host (newMachine up v0)) {q m : Nat} {x : MLab V} (hl : r.lab m = some x) (hx : writerSteps q x) :
    (∃ msg op k y, ((r.at_ m).wr q).job = some (msg, .call op k) ∧ ((r.at_ (m + 1)).wr q).job = some (msg, k y)) ∨ ((r.at_ (m + 1)).wr q).job = none := by
  have st := r.step m
  rw [hl] at st
  simp only at st
  generalize r.at_ m = a at st ⊢
  generalize r.at_ (m + 1) = b at st ⊢
  cases st with
  | prog _ _ _ => exact hx.elim
  | write _ _ _ _ _ _ => exact hx.elim
  | @sys o c msg op k y v' h' _ _ hj _ =>
    have : o = q := hx
    subst this
    exact .inl ⟨msg, op, k, y, hj, by simp [Machine.setWr]⟩
  | @done o c msg res rw' _ _ _ =>
    have : o = q := hx
    subst this
    exact .inr (by simp [Machine.setWr])

/-- A writer that is writing can make a step. -/
theorem writer_can {tr : List (MLab V)} {m : Machine V} (h : MExec env host (newMachine up v0) tr m) (hp : m.p.panicked = false) {q : Nat}
    (hj : (m.wr q).job ≠ none) : ∃ l m', writerSteps q l ∧ MStep env host m l m' := by
  have inv := mexec_inv h
  cases hr : m.p.w.rollOf env.tc q with
  | none => rw [(inv.idle q hr).1] at hj; exact absurd rfl hj
  | some c =>
    cases e : (m.wr q).job with
    | none => exact absurd e hj
    | some x =>
      obtain ⟨msg, p⟩ := x
      cases p with
      | ret y =>
        have st := MStep.done (env := env) (host := host) hp hr e
        exact ⟨_, _, by simp [writerSteps], st⟩
      | call op k =>
        obtain ⟨b, k1, k2⟩ := ready_exec h q c hr
        rw [e] at k2
        obtain ⟨y, v', h', hv⟩ := vol_answers (umask := host.umask) (m.vol (host.place c.dirPath)) k2.1 k1
        have st := MStep.sys (env := env) (host := host) hp hr e hv
        exact ⟨_, _, by simp [writerSteps], st⟩

variable (hp : ∀ n, (r.at_ n).p.panicked = false)
include hp

/-- Every write ends. -/
theorem job_often {q : Nat} (hf : r.fair (writerSteps q)) : Often fun m => ((r.at_ m).wr q).job = none := by
  have key : ∀ (p : Prog ((Nat × Bool) × RW)) n msg, ((r.at_ n).wr q).job = some (msg, p) → ∃ m, n ≤ m ∧ ((r.at_ m).wr q).job = none := by
    intro p
    induction p with
    | ret y =>
      intro n msg hj
      have hex : ∃ m, n ≤ m ∧ ∃ l, r.lab m = some l ∧ writerSteps q l := by
        apply Classical.byContradiction
        intro hn
        have still : ∀ m, n ≤ m → ((r.at_ m).wr q).job = some (msg, .ret y) :=
          until_ (Q := fun m => ∃ l, r.lab m = some l ∧ writerSteps q l) hj (fun m _ hm => by
            by_cases hq : ∃ l, r.lab m = some l ∧ writerSteps q l
            · exact .inr hq
            · exact .inl (by rw [writer_still r q m (by rw [hm]; simp) hq]; exact hm)) (fun m h hq => hn ⟨m, h, hq⟩)
        obtain ⟨m, h1, h2⟩ := hf (fun i => ⟨max n i, Nat.le_max_right _ _, writer_can (forever_exec r _) (hp _) (by rw [still _ (Nat.le_max_left _ _)]; simp)⟩) n
        exact hn ⟨m, h1, h2⟩
      obtain ⟨m, h1, ⟨l, h2, h3⟩, h4⟩ := first_time hex
      have hj' : ∀ i, n ≤ i → i ≤ m → ((r.at_ i).wr q).job = some (msg, .ret y) := by
        intro i hi him
        induction hi with
        | refl => exact hj
        | @step i hi ih =>
          have := ih (by omega)
          rw [writer_still r q i (by rw [this]; simp) (h4 i hi (by omega))]; exact this
      rcases writer_step r h2 h3 with ⟨msg', op, k, y', k1, k2⟩ | k
      · rw [hj' m h1 (Nat.le_refl _)] at k1; cases k1
      · exact ⟨m + 1, by omega, k⟩
    | call op k ih =>
      intro n msg hj
      have hex : ∃ m, n ≤ m ∧ ∃ l, r.lab m = some l ∧ writerSteps q l := by
        apply Classical.byContradiction
        intro hn
        have still : ∀ m, n ≤ m → ((r.at_ m).wr q).job = some (msg, .call op k) :=
          until_ (Q := fun m => ∃ l, r.lab m = some l ∧ writerSteps q l) hj (fun m _ hm => by
            by_cases hq : ∃ l, r.lab m = some l ∧ writerSteps q l
            · exact .inr hq
            · exact .inl (by rw [writer_still r q m (by rw [hm]; simp) hq]; exact hm)) (fun m h hq => hn ⟨m, h, hq⟩)
        obtain ⟨m, h1, h2⟩ := hf (fun i => ⟨max n i, Nat.le_max_right _ _, writer_can (forever_exec r _) (hp _) (by rw [still _ (Nat.le_max_left _ _)]; simp)⟩) n
        exact hn ⟨m, h1, h2⟩
      obtain ⟨m, h1, ⟨l, h2, h3⟩, h4⟩ := first_time hex
      have hj' : ∀ i, n ≤ i → i ≤ m → ((r.at_ i).wr q).job = some (msg, .call op k) := by
        intro i hi him
        induction hi with
        | refl => exact hj
        | @step i hi ih =>
          have := ih (by omega)
          rw [writer_still r q i (by rw [this]; simp) (h4 i hi (by omega))]; exact this
      rcases writer_step r h2 h3 with ⟨msg', op', k', y', k1, k2⟩ | hk
      · rw [hj' m h1 (Nat.le_refl _)] at k1; cases k1
        obtain ⟨m', g1, g2⟩ := ih y' (m + 1) msg k2
        exact ⟨m', by omega, g2⟩
      · exact ⟨m + 1, by omega, hk⟩
  intro n
  cases e : ((r.at_ n).wr q).job with
  | none => exact ⟨n, Nat.le_refl _, e⟩
  | some x => exact key x.2 n x.1 e

end Log4g
