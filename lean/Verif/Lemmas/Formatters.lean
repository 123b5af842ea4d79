import Verif.Spec.Formatters
import Verif.Lemmas.Async

/-! # Outputs whose formatter is set anew -/

namespace Log4g
open Spec
open scoped List
variable {V : Type}

/-- The formatter after some steps. -/
def lastOf (f : Option (Formatter V)) : List (RefLab V) → Option (Formatter V)
  | [] => f
  | .set g :: tr => lastOf g tr
  | .step _ :: tr => lastOf f tr

theorem lastOf_append (f : Option (Formatter V)) (a b : List (RefLab V)) : lastOf f (a ++ b) = lastOf (lastOf f a) b := by
  induction a generalizing f with
  | nil => rfl
  | cons l a ih => cases l <;> simp [lastOf, ih]

theorem queuedWith_append (f : Option (Formatter V)) (a b : List (RefLab V)) :
    queuedWith f (a ++ b) = queuedWith f a ++ queuedWith (lastOf f a) b := by
  induction a generalizing f with
  | nil => rfl
  | cons l a ih =>
    cases l with
    | set g => simp [lastOf, queuedWith, ih]
    | step l => cases l <;> simp [lastOf, queuedWith, ih]

theorem takenWith_append (f : Option (Formatter V)) (a b : List (RefLab V)) :
    takenWith f (a ++ b) = takenWith f a ++ takenWith (lastOf f a) b := by
  induction a generalizing f with
  | nil => rfl
  | cons l a ih =>
    cases l with
    | set g => simp [lastOf, takenWith, ih]
    | step l =>
      cases l with
      | took x => cases x <;> simp [lastOf, takenWith, ih]
      | _ => simp [lastOf, takenWith, ih]

/-- The events are the same whatever formatter there was first. -/
theorem queuedWith_events (f g : Option (Formatter V)) (tr : List (RefLab V)) :
    (queuedWith f tr).map Prod.snd = (queuedWith g tr).map Prod.snd := by
  induction tr generalizing f g with
  | nil => rfl
  | cons l tr ih =>
    cases l with
    | set h => rfl
    | step l => cases l <;> simp [queuedWith, ih f g]

theorem takenWith_events (f g : Option (Formatter V)) (tr : List (RefLab V)) :
    (takenWith f tr).map Prod.snd = (takenWith g tr).map Prod.snd := by
  induction tr generalizing f g with
  | nil => rfl
  | cons l tr ih =>
    cases l with
    | set h => rfl
    | step l =>
      cases l with
      | took x => cases x <;> simp [takenWith, ih f g]
      | _ => simp [takenWith, ih f g]

theorem passing_append (t : Level) (a b : List (Option (Formatter V) × Event V)) : passing t (a ++ b) = passing t a ++ passing t b := by
  simp [passing]

/-! ## Synchronous outputs -/

theorem base_calls (lib : Lib V) (o : BaseOutput V) (cs : List (OutCall V)) :
    (cs.foldl (BaseOutput.call lib) o).w = o.w ++ (passing o.t (sentWith o.f cs)).map (fun p => textOf lib p.1 p.2) ∧
    (cs.foldl (BaseOutput.call lib) o).f = lastSet o.f cs := by
  induction cs generalizing o with
  | nil => simp [passing, sentWith, lastSet]
  | cons c cs ih =>
    rw [List.foldl_cons]
    cases c with
    | setFormatter g =>
      obtain ⟨a, b⟩ := ih (o.setFormatter g)
      exact ⟨a, b⟩
    | send e =>
      obtain ⟨k1, k2, k3⟩ := base_sends lib o [e]
      simp only [List.foldl_cons, List.foldl_nil] at k1 k2 k3
      obtain ⟨a, b⟩ := ih (o.send lib e)
      simp only [BaseOutput.call]
      rw [a, b, k1, k2, k3]
      refine ⟨?_, rfl⟩
      by_cases h : o.t ≤ e.level <;> simp [sentWith, passing, accepted, h]

/-! ## Asynchronous outputs -/

/-- What is in the queue is what has been queued and not taken; what has been written and what is in the buffer are the
texts of what has been taken. -/
structure RInv (cfg : ACfg V) (tr : List (RefLab V)) (s : Refitted V) : Prop where
  f : s.f = lastOf cfg.f tr
  events : ∃ lost, (queuedWith cfg.f tr).map Prod.snd = (takenWith cfg.f tr).map Prod.snd ++ lost ++ eventsOf s.a.chan ∧
    (s.a.panicked = false → lost = [])
  content : s.a.panicked = false → s.a.writes.flatten ++ s.a.buf = (passing cfg.t (takenWith cfg.f tr)).flatMap writtenAs

theorem flush_content (a : AState V) : a.flush.writes.flatten ++ a.flush.buf = a.writes.flatten ++ a.buf := by
  simp [AState.flush]

theorem handle_content (cfg : ACfg V) (f : Formatter V) (a : AState V) (e : Event V) :
    (a.handle cfg f e).writes.flatten ++ (a.handle cfg f e).buf =
      a.writes.flatten ++ a.buf ++ (passing cfg.t [(some f, e)]).flatMap writtenAs := by
  by_cases h : cfg.t ≤ e.level
  · simp only [AState.handle, if_pos h]
    split
    · rw [flush_content]; simp [passing, h, writtenAs]
    · simp [passing, h, writtenAs]
  · simp [AState.handle, h, passing]

theorem refit_chan (cfg : ACfg V) (f : Formatter V) (a : AState V) (e : Event V) :
    (a.handle cfg f e).chan = a.chan := by
  simp only [AState.handle]
  split
  · split <;> rfl
  · rfl

theorem rinv_step {cfg : ACfg V} {tr : List (RefLab V)} {s s' : Refitted V} {l : RefLab V} (h : RInv cfg tr s)
    (hs : RefStep cfg s l s') : RInv cfg (tr ++ [l]) s' := by
  have q := queuedWith_append cfg.f tr [l]
  have t := takenWith_append cfg.f tr [l]
  have f := lastOf_append cfg.f tr [l]
  rw [← h.f] at q t f
  cases hs with
  | set hp =>
    simp only [queuedWith, takenWith, lastOf, List.append_nil] at q t f
    exact ⟨f.symm, by rw [q, t]; exact h.events, fun _ => by rw [t]; exact h.content hp⟩
  | step ha =>
    obtain ⟨hp, ha⟩ := ha
    have hc := h.content hp
    obtain ⟨lost, he, hl⟩ := h.events
    obtain rfl := hl hp
    rw [List.append_nil] at he
    refine ⟨f.symm, ?_, ?_⟩
    · rw [q, t]
      cases ha with
      | takeEvent h1 h2 h3 =>
        rw [h2] at he
        exact ⟨[], by simpa [queuedWith, takenWith, refit_chan, eventsOf] using he, fun _ => rfl⟩
      | takeIgnored h1 h2 h3 h4 =>
        rw [h2] at he
        exact ⟨[], by simpa [queuedWith, takenWith, eventsOf] using he, fun _ => rfl⟩
      | @takePanic e rest h1 h2 h3 h4 =>
        rw [h2] at he
        exact ⟨[e], by simpa [queuedWith, takenWith, eventsOf] using he, by simp⟩
      | takeNil h1 h2 =>
        rw [h2] at he
        exact ⟨[], by simpa [queuedWith, takenWith, eventsOf, AState.flush] using he, fun _ => rfl⟩
      | sendQueue h1 h2 h3 => exact ⟨[], by simp [queuedWith, takenWith, eventsOf, AState.set, he], fun _ => rfl⟩
      | _ => exact ⟨[], by simpa [queuedWith, takenWith, eventsOf, AState.set, AState.flush] using he, fun _ => rfl⟩
    · intro hp'
      rw [t]
      cases ha with
      | @takeEvent e rest g h1 h2 h3 =>
        have h3 : s.f = some g := h3
        rw [handle_content]
        simp only [takenWith, h3, passing_append, List.flatMap_append]
        rw [← hc]
      | @takeIgnored e rest h1 h2 h3 h4 =>
        have : ¬ cfg.t ≤ e.level := Int.not_le.mpr h4
        simpa [takenWith, passing, this] using hc
      | takePanic h1 h2 h3 h4 => simp at hp'
      | takeNil h1 h2 => rw [← flush_content] at hc; simpa [takenWith, AState.flush] using hc
      | takeClosed h1 h2 => rw [← flush_content] at hc; simpa [takenWith, AState.flush] using hc
      | tick h1 => rw [← flush_content] at hc; simpa [takenWith, AState.flush] using hc
      | _ => simpa [takenWith, AState.set] using hc

theorem refexec_inv {cfg : ACfg V} {prog : Nat → List (ACall V)} {tr : List (RefLab V)} {s : Refitted V}
    (h : RefExec cfg (newRefitted cfg prog) tr s) : RInv cfg tr s := by
  generalize hs0 : newRefitted cfg prog = s0 at h
  induction h with
  | nil => subst hs0; exact ⟨rfl, ⟨[], by simp [queuedWith, takenWith, newRefitted, newAsync, eventsOf], fun _ => rfl⟩, fun _ => rfl⟩
  | snoc _ hs ih => exact rinv_step ih hs

/-- A formatter is set when nothing is queued that has not been taken: what is taken has the formatter it was queued with. -/
structure IdleInv (cfg : ACfg V) (tr : List (RefLab V)) (s : Refitted V) : Prop where
  pre : takenWith cfg.f tr <+: queuedWith cfg.f tr
  same : ∀ p ∈ (queuedWith cfg.f tr).drop (takenWith cfg.f tr).length, p.1 = s.f

theorem setWhenIdle_init {tr : List (RefLab V)} {l : RefLab V} (h : SetWhenIdle (tr ++ [l])) : SetWhenIdle tr := by
  intro x f y e
  exact h x f (y ++ [l]) (by rw [e]; simp)

theorem with_lengths (f : Option (Formatter V)) (tr : List (RefLab V)) :
    (takenWith f tr).length = (takenWith none tr).length ∧ (queuedWith f tr).length = (queuedWith none tr).length := by
  have h1 := congrArg List.length (takenWith_events f none tr)
  have h2 := congrArg List.length (queuedWith_events f none tr)
  simp only [List.length_map] at h1 h2
  exact ⟨h1, h2⟩

theorem idle_step {cfg : ACfg V} {tr : List (RefLab V)} {s s' : Refitted V} {l : RefLab V} (inv : RInv cfg tr s)
    (h : IdleInv cfg tr s) (hidle : SetWhenIdle (tr ++ [l])) (hs : RefStep cfg s l s') : IdleInv cfg (tr ++ [l]) s' := by
  have q := queuedWith_append cfg.f tr [l]
  have t := takenWith_append cfg.f tr [l]
  rw [← inv.f] at q t
  obtain ⟨rest, hr⟩ := h.pre
  have hd : (queuedWith cfg.f tr).drop (takenWith cfg.f tr).length = rest := by rw [← hr]; simp
  have hsame := h.same
  rw [hd] at hsame
  have keep : queuedWith s.f [l] = [] → takenWith s.f [l] = [] → s'.f = s.f → IdleInv cfg (tr ++ [l]) s' := by
    intro h1 h2 h3
    rw [h1, List.append_nil] at q
    rw [h2, List.append_nil] at t
    exact ⟨by rw [q, t]; exact h.pre, by rw [q, t, h3, hd]; exact hsame⟩
  obtain ⟨lost, he, hl⟩ := inv.events
  cases hs with
  | @set f hp =>
    have hlen := hidle tr f [] rfl
    have hw := with_lengths cfg.f tr
    rw [← hw.1, ← hw.2, ← hr, List.length_append] at hlen
    have hnil : rest = [] := List.length_eq_zero_iff.mp (by omega)
    subst hnil
    simp only [queuedWith, takenWith, List.append_nil] at q t hr
    refine ⟨by rw [q, t]; exact h.pre, ?_⟩
    rw [q, t, hr]; simp
  | @step l a' ha =>
    obtain ⟨hp, ha⟩ := ha
    obtain rfl := hl hp
    rw [List.append_nil, ← hr, List.map_append] at he
    have he := List.append_cancel_left he
    have took : ∀ e rest', s.a.chan = some e :: rest' → takenWith s.f [.step l] = [(s.f, e)] → queuedWith s.f [.step l] = [] →
        IdleInv cfg (tr ++ [.step l]) { s with a := a' } := by
      intro e rest' h2 h3 h4
      rw [h2] at he
      cases rest with
      | nil => simp [eventsOf] at he
      | cons p rest =>
        have hp1 : p.1 = s.f := hsame p (by simp)
        have hp2 : p.2 = e := by simp [eventsOf] at he; exact he.1
        have hpe : p = (s.f, e) := by cases p; simp_all
        subst hpe
        rw [h4, List.append_nil] at q
        rw [h3] at t
        refine ⟨by rw [q, t]; exact ⟨rest, by rw [← hr]; simp⟩, ?_⟩
        rw [q, t, ← hr]
        intro p hp
        exact hsame p (by simp at hp; exact List.mem_cons_of_mem _ hp)
    cases ha with
    | @sendQueue u e cs h1 h2 h3 =>
      simp only [queuedWith, takenWith, List.append_nil] at q t
      refine ⟨by rw [q, t]; exact h.pre.trans (List.prefix_append _ _), ?_⟩
      rw [q, t, ← hr]
      intro p hp
      simp at hp
      cases hp with
      | inl hp => exact hsame p hp
      | inr hp => rw [hp]
    | takeEvent h1 h2 h3 => exact took _ _ h2 rfl rfl
    | takeIgnored h1 h2 h3 h4 => exact took _ _ h2 rfl rfl
    | _ => exact keep rfl rfl rfl

theorem refexec_idle {cfg : ACfg V} {prog : Nat → List (ACall V)} {tr : List (RefLab V)} {s : Refitted V}
    (h : RefExec cfg (newRefitted cfg prog) tr s) (hidle : SetWhenIdle tr) : IdleInv cfg tr s := by
  generalize hs0 : newRefitted cfg prog = s0 at h
  induction h with
  | nil => subst hs0; exact ⟨List.prefix_refl _, by simp [queuedWith]⟩
  | snoc he hs ih =>
    subst hs0
    exact idle_step (refexec_inv he) (ih (setWhenIdle_init hidle)) hidle hs

theorem refexec_passes {cfg : ACfg V} {s s' s'' : Refitted V} {tr tr' : List (RefLab V)} (h : RefExec cfg s tr s')
    (h' : RefExec cfg s' tr' s'') : RefExec cfg s (tr ++ tr') s'' := by
  induction h' with
  | nil => simpa using h
  | snoc _ hs ih => rw [← List.append_assoc]; exact .snoc ih hs

end Log4g
