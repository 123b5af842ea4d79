import Verif.Spec.Output
import Verif.Lemmas.Format

/-! # Invariants of asynchronous outputs -/

namespace Log4g
open Spec
open scoped List
variable {V : Type}

/-- Strings are UTF-8. -/
theorem bytes_eq (s : Str) : Str.bytes s = utf8 s := by
  simp [Str.bytes, utf8, String.ofList, List.utf8Encode]

theorem queuedOf_append (a b : List (ALab V)) : queuedOf (a ++ b) = queuedOf a ++ queuedOf b := by
  induction a with
  | nil => rfl
  | cons x xs ih => cases x <;> simp [queuedOf, ih]

theorem takenOf_append (a b : List (ALab V)) : takenOf (a ++ b) = takenOf a ++ takenOf b := by
  induction a with
  | nil => rfl
  | cons x xs ih => cases x <;> simp [takenOf, ih]

theorem queuedBy_append (t : Nat) (a b : List (ALab V)) : queuedBy t (a ++ b) = queuedBy t a ++ queuedBy t b := by
  induction a with
  | nil => rfl
  | cons x xs ih =>
    cases x <;> simp only [List.cons_append, queuedBy, ih]
    split <;> simp

theorem eventsOf_append (a b : List (Option (Event V))) : eventsOf (a ++ b) = eventsOf a ++ eventsOf b := by
  simp [eventsOf]

theorem accepted_append (l : Level) (a b : List (Event V)) : accepted l (a ++ b) = accepted l a ++ accepted l b := by
  simp [accepted]

/-- A goroutine has got past the queueing of its close request. -/
def Past (x : Pc V) : Prop := x = .waiting ∨ x = .storing ∨ x = .closing

/-- What holds of the queue, the worker and the flags, in every state that is not a panic. -/
structure AInv (cfg : ACfg V) (tr : List (ALab V)) (s : AState V) : Prop where
  queue : queuedOf tr = takenOf tr ++ s.chan
  size : s.chan.length ≤ cfg.queueSize
  starting : s.worker = .starting → takenOf tr = []
  running : s.worker = .running → none ∉ takenOf tr
  stopped : s.worker = .stopped → ∃ pre, takenOf tr = pre ++ [none] ∧ none ∉ pre
  wait : s.wait = if s.worker = .running then 1 else 0
  request : (∃ t, Past (s.th t).pc) ∨ s.closed = true ∨ s.chanClosed = true → none ∈ queuedOf tr

theorem set_th (s : AState V) (t : Nat) (x : Thread V) (u : Nat) : (s.set t x).th u = if u = t then x else s.th u := rfl

theorem past_set {s : AState V} {t : Nat} {x : Thread V} (h : ∃ u, Past ((s.set t x).th u).pc) (hx : ¬ Past x.pc) :
    ∃ u, Past (s.th u).pc := by
  obtain ⟨u, hu⟩ := h
  rw [set_th] at hu
  split at hu
  · exact absurd hu hx
  · exact ⟨u, hu⟩

theorem handle_same (cfg : ACfg V) (f : Formatter V) (s : AState V) (e : Event V) :
    (s.handle cfg f e).chan = s.chan ∧ (s.handle cfg f e).worker = s.worker ∧ (s.handle cfg f e).wait = s.wait ∧
    (s.handle cfg f e).closed = s.closed ∧ (s.handle cfg f e).chanClosed = s.chanClosed ∧ (s.handle cfg f e).th = s.th ∧
    (s.handle cfg f e).panicked = s.panicked := by
  simp only [AState.handle]
  split
  · split <;> simp [AState.flush]
  · simp

theorem ainv_init (cfg : ACfg V) (prog : Nat → List (ACall V)) : AInv cfg [] (newAsync prog) := by
  refine ⟨rfl, by simp [newAsync], fun _ => rfl, by simp [newAsync], by simp [newAsync], rfl, ?_⟩
  rintro (⟨t, h⟩ | h | h)
  · simp [newAsync, Past] at h
  · simp [newAsync] at h
  · simp [newAsync] at h

/-- A step that changes only goroutines. -/
theorem AInv.move {cfg : ACfg V} {tr : List (ALab V)} {s : AState V} (h : AInv cfg tr s) {l : ALab V} {s' : AState V}
    (hq : queuedOf (tr ++ [l]) = queuedOf tr) (ht : takenOf (tr ++ [l]) = takenOf tr)
    (hc : s'.chan = s.chan) (hw : s'.worker = s.worker) (hwa : s'.wait = s.wait)
    (hr : (∃ t, Past (s'.th t).pc) ∨ s'.closed = true ∨ s'.chanClosed = true →
      (∃ t, Past (s.th t).pc) ∨ s.closed = true ∨ s.chanClosed = true) : AInv cfg (tr ++ [l]) s' :=
  ⟨by rw [hq, ht, hc]; exact h.queue, by rw [hc]; exact h.size, by rw [hw, ht]; exact h.starting, by rw [hw, ht]; exact h.running,
    by rw [hw, ht]; exact h.stopped, by rw [hwa, hw]; exact h.wait, fun hh => by rw [hq]; exact h.request (hr hh)⟩

theorem ainv_step {cfg : ACfg V} {tr : List (ALab V)} {s s' : AState V} {l : ALab V} (h : AInv cfg tr s)
    (hs : AAct cfg s l s') (hp : s'.panicked = false) : AInv cfg (tr ++ [l]) s' := by
  have q0 : ∀ l : ALab V, queuedOf [l] = [] → queuedOf (tr ++ [l]) = queuedOf tr := fun l e => by rw [queuedOf_append, e, List.append_nil]
  have t0 : ∀ l : ALab V, takenOf [l] = [] → takenOf (tr ++ [l]) = takenOf tr := fun l e => by rw [takenOf_append, e, List.append_nil]
  have hnil : ∀ {t x}, s.th t = x → Past x.pc → none ∈ queuedOf tr := fun {t x} e hx => h.request (.inl ⟨t, by rw [e]; exact hx⟩)
  have np : ∀ {x : Pc V}, (x = .idle ∨ x = .requesting ∨ ∃ e, x = .sending e) → ¬ Past x := by
    rintro x (rfl | rfl | ⟨e, rfl⟩) <;> simp [Past]
  cases hs with
  | @sendStart t e cs h1 h2 =>
    refine h.move (q0 _ rfl) (t0 _ rfl) rfl rfl rfl ?_
    rintro (hh | hh | hh)
    · exact .inl (past_set hh (np (.inr (.inr ⟨e, rfl⟩))))
    · exact .inr (.inl hh)
    · exact .inr (.inr hh)
  | @sendSkip t e cs h1 h2 =>
    refine h.move (q0 _ rfl) (t0 _ rfl) rfl rfl rfl ?_
    rintro (hh | hh | hh)
    · exact .inl (past_set hh (np (.inl rfl)))
    · exact .inr (.inl hh)
    · exact .inr (.inr hh)
  | @sendQueue t e cs h1 h2 h3 =>
    have qe : queuedOf (tr ++ [ALab.queued t e]) = queuedOf tr ++ [some e] := by rw [queuedOf_append]; rfl
    have te := t0 (.queued t e) rfl
    refine ⟨?_, ?_, ?_, ?_, ?_, h.wait, ?_⟩
    · rw [qe, te, h.queue, List.append_assoc]; rfl
    · show (s.chan ++ [some e]).length ≤ _
      simp only [List.length_append, List.length_singleton]; omega
    · rw [te]; exact h.starting
    · rw [te]; exact h.running
    · rw [te]; exact h.stopped
    · intro hh
      rw [qe]
      refine List.mem_append_left _ (h.request ?_)
      rcases hh with hh | hh | hh
      · exact .inl (past_set hh (np (.inl rfl)))
      · exact .inr (.inl hh)
      · exact .inr (.inr hh)
  | @sendPanic t e cs h1 h2 => simp at hp
  | @closeStart t cs h1 h2 =>
    refine h.move (q0 _ rfl) (t0 _ rfl) rfl rfl rfl ?_
    rintro (hh | hh | hh)
    · exact .inl (past_set hh (np (.inr (.inl rfl))))
    · exact .inr (.inl hh)
    · exact .inr (.inr hh)
  | @closeSkip t cs h1 h2 =>
    refine h.move (q0 _ rfl) (t0 _ rfl) rfl rfl rfl ?_
    rintro (hh | hh | hh)
    · exact .inl (past_set hh (np (.inl rfl)))
    · exact .inr (.inl hh)
    · exact .inr (.inr hh)
  | @closeRequest t cs h1 h2 h3 =>
    have qe : queuedOf (tr ++ [ALab.requested t]) = queuedOf tr ++ [none] := by rw [queuedOf_append]; rfl
    have te := t0 (ALab.requested t) rfl
    refine ⟨?_, ?_, ?_, ?_, ?_, h.wait, ?_⟩
    · rw [qe, te, h.queue, List.append_assoc]; rfl
    · show (s.chan ++ [none]).length ≤ _
      simp only [List.length_append, List.length_singleton]; omega
    · rw [te]; exact h.starting
    · rw [te]; exact h.running
    · rw [te]; exact h.stopped
    · intro _; rw [qe]; simp
  | @requestPanic t cs h1 h2 => simp at hp
  | @closeWait t cs h1 h2 =>
    exact h.move (q0 _ rfl) (t0 _ rfl) rfl rfl rfl fun _ => .inl ⟨t, by rw [h1]; exact .inl rfl⟩
  | @closeStore t cs h1 =>
    exact h.move (q0 _ rfl) (t0 _ rfl) rfl rfl rfl fun _ => .inl ⟨t, by rw [h1]; exact .inr (.inl rfl)⟩
  | @closeChan t cs h1 h2 =>
    exact h.move (q0 _ rfl) (t0 _ rfl) rfl rfl rfl fun _ => .inl ⟨t, by rw [h1]; exact .inr (.inr rfl)⟩
  | @closePanic t cs h1 h2 => simp at hp
  | begin h1 =>
    have te := t0 .begin rfl
    have qe := q0 .begin rfl
    refine ⟨by rw [qe, te]; exact h.queue, h.size, by simp, ?_, by simp, ?_, by rw [qe]; exact h.request⟩
    · intro _; rw [te, h.starting h1]; simp
    · have := h.wait; rw [h1] at this
      simp only [this]; rfl
  | tick h1 => exact h.move (q0 _ rfl) (t0 _ rfl) rfl rfl rfl fun hh => hh
  | @takeEvent e rest f h1 h2 h3 =>
    obtain ⟨a, b, c, d, e', g, _⟩ := handle_same cfg f { s with chan := rest } e
    have te : takenOf (tr ++ [ALab.took (some e)]) = takenOf tr ++ [some e] := by rw [takenOf_append]; rfl
    have qe := q0 (.took (some e)) rfl
    have hq := h.queue
    have hsz := h.size
    rw [h2] at hsz hq
    refine ⟨by rw [qe, te, a, hq]; simp, by rw [a]; simp at hsz ⊢; omega, ?_, ?_, ?_, ?_, ?_⟩
    · rw [b]; simp [h1]
    · rw [b]; intro hh; rw [te]; simpa using h.running h1
    · rw [b]; simp [h1]
    · rw [c, b]; exact h.wait
    · rw [qe, d, e', g]; exact h.request
  | @takeIgnored e rest h1 h2 h3 h4 =>
    have te : takenOf (tr ++ [ALab.took (some e)]) = takenOf tr ++ [some e] := by rw [takenOf_append]; rfl
    have qe := q0 (.took (some e)) rfl
    have hq := h.queue
    have hsz := h.size
    rw [h2] at hsz hq
    refine ⟨by rw [qe, te, hq]; simp, by simp at hsz ⊢; omega, by simp [h1], ?_, by simp [h1], h.wait, by rw [qe]; exact h.request⟩
    intro hh; rw [te]; simpa using h.running h1
  | takePanic h1 h2 h3 h4 => simp at hp
  | @takeNil rest h1 h2 =>
    have te : takenOf (tr ++ [ALab.took (V := V) none]) = takenOf tr ++ [none] := by rw [takenOf_append]; rfl
    have qe := q0 (.took none) rfl
    have hq := h.queue
    have hsz := h.size
    rw [h2] at hsz hq
    refine ⟨by rw [qe, te, hq]; simp [AState.flush], by simp [AState.flush] at hsz ⊢; omega, by simp, by simp, ?_, ?_, by rw [qe]; exact h.request⟩
    · intro _; exact ⟨_, te, h.running h1⟩
    · have := h.wait; rw [h1] at this; simp [this]
  | takeClosed h1 h2 h3 =>
    have := h.request (.inr (.inr h3))
    rw [h.queue, h2, List.append_nil] at this
    exact absurd this (h.running h1)

theorem aexec_inv {cfg : ACfg V} {prog : Nat → List (ACall V)} {tr : List (ALab V)} {s : AState V}
    (h : AExec cfg (newAsync prog) tr s) : s.panicked = false → AInv cfg tr s := by
  generalize h0 : newAsync prog = s0 at h
  induction h with
  | nil => subst h0; exact fun _ => ainv_init cfg prog
  | snoc _ hs ih => subst h0; intro hp; exact ainv_step (ih hs.1) hs.2 hp

/-- What has been written, one group of events for each write, and what waits in the buffer. -/
structure BInv (cfg : ACfg V) (f : Formatter V) (tr : List (ALab V)) (s : AState V) (flushed : List (List (Event V))) (pending : List (Event V)) : Prop where
  split : accepted cfg.t (eventsOf (takenOf tr)) = flushed.flatten ++ pending
  groups : s.writes = flushed.map (·.flatMap f)
  buf : s.buf = pending.flatMap f
  num : s.currNum = pending.length
  batch : 1 ≤ cfg.batchNum → s.currNum < cfg.batchNum
  idle : s.worker ≠ .running → pending = []
  sizes : 1 ≤ cfg.batchNum → ∀ g ∈ flushed, g.length ≤ cfg.batchNum

theorem BInv.writes {cfg : ACfg V} {f : Formatter V} {tr : List (ALab V)} {s : AState V} {a : List (List (Event V))} {b : List (Event V)}
    (h : BInv cfg f tr s a b) : s.writes.flatten = a.flatten.flatMap f := by
  rw [h.groups]
  clear h
  induction a with
  | nil => rfl
  | cons x a ih => rw [List.map_cons, List.flatten_cons, ih, List.flatten_cons, List.flatMap_append]

theorem BInv.flush {cfg : ACfg V} {f : Formatter V} {tr : List (ALab V)} {s : AState V} {a : List (List (Event V))} {b : List (Event V)}
    (h : BInv cfg f tr s a b) {l : ALab V} (hl : accepted cfg.t (eventsOf (takenOf [l])) = []) : BInv cfg f (tr ++ [l]) s.flush (a ++ [b]) [] :=
  ⟨by rw [takenOf_append, eventsOf_append, accepted_append, hl, h.split]; simp,
    by simp [AState.flush, h.groups, h.buf], rfl, rfl, fun hb => hb, fun _ => rfl, fun hb g hg => by
      rcases List.mem_append.mp hg with hg | hg
      · exact h.sizes hb g hg
      · obtain rfl := List.mem_singleton.mp hg
        rw [← h.num]; exact Nat.le_of_lt (h.batch hb)⟩

theorem BInv.same {cfg : ACfg V} {f : Formatter V} {tr : List (ALab V)} {s s' : AState V} {a : List (List (Event V))} {b : List (Event V)}
    (h : BInv cfg f tr s a b) {l : ALab V} (hl : accepted cfg.t (eventsOf (takenOf [l])) = [])
    (h1 : s'.writes = s.writes) (h2 : s'.buf = s.buf) (h3 : s'.currNum = s.currNum) (h4 : s'.worker ≠ .running → s.worker ≠ .running) :
    BInv cfg f (tr ++ [l]) s' a b :=
  ⟨by rw [takenOf_append, eventsOf_append, accepted_append, hl, h.split]; simp,
    by rw [h1]; exact h.groups, by rw [h2]; exact h.buf, by rw [h3]; exact h.num, by rw [h3]; exact h.batch, fun hh => h.idle (h4 hh), h.sizes⟩

theorem binv_step {cfg : ACfg V} {f : Formatter V} (hf : cfg.f = some f) {tr : List (ALab V)} {s s' : AState V} {l : ALab V}
    {a : List (List (Event V))} {b : List (Event V)} (h : BInv cfg f tr s a b) (hs : AAct cfg s l s') : ∃ a' b', BInv cfg f (tr ++ [l]) s' a' b' := by
  cases hs with
  | sendStart h1 h2 => exact ⟨a, b, h.same rfl rfl rfl rfl id⟩
  | sendSkip h1 h2 => exact ⟨a, b, h.same rfl rfl rfl rfl id⟩
  | sendQueue h1 h2 h3 => exact ⟨a, b, h.same rfl rfl rfl rfl id⟩
  | sendPanic h1 h2 => exact ⟨a, b, h.same rfl rfl rfl rfl id⟩
  | closeStart h1 h2 => exact ⟨a, b, h.same rfl rfl rfl rfl id⟩
  | closeSkip h1 h2 => exact ⟨a, b, h.same rfl rfl rfl rfl id⟩
  | closeRequest h1 h2 h3 => exact ⟨a, b, h.same rfl rfl rfl rfl id⟩
  | requestPanic h1 h2 => exact ⟨a, b, h.same rfl rfl rfl rfl id⟩
  | closeWait h1 h2 => exact ⟨a, b, h.same rfl rfl rfl rfl id⟩
  | closeStore h1 => exact ⟨a, b, h.same rfl rfl rfl rfl id⟩
  | closeChan h1 h2 => exact ⟨a, b, h.same rfl rfl rfl rfl id⟩
  | closePanic h1 h2 => exact ⟨a, b, h.same rfl rfl rfl rfl id⟩
  | begin h1 =>
    have := h.idle (by simp [h1])
    exact ⟨a, b, h.same rfl rfl rfl rfl (fun hh => absurd rfl hh)⟩
  | tick h1 => exact ⟨_, _, h.flush rfl⟩
  | @takeEvent e rest f' h1 h2 h3 =>
    have : f' = f := by rw [hf] at h3; exact (Option.some.inj h3).symm
    subst this
    simp only [AState.handle]
    by_cases hl : cfg.t ≤ e.level
    · have hacc : accepted cfg.t (eventsOf (takenOf [ALab.took (some e)])) = [e] := by simp [takenOf, eventsOf, accepted, hl]
      have key : BInv cfg f' (tr ++ [.took (some e)]) ({ s with chan := rest, buf := s.buf ++ f' e, currNum := s.currNum + 1 } : AState V) a (b ++ [e]) ∨ cfg.batchNum ≤ s.currNum + 1 := by
        by_cases hb : cfg.batchNum ≤ s.currNum + 1
        · exact .inr hb
        · left
          refine ⟨by rw [takenOf_append, eventsOf_append, accepted_append, hacc, h.split]; simp, h.groups, by simp [h.buf], by simp [h.num], fun _ => by simp only; omega, fun hh => absurd h1 hh, h.sizes⟩
      simp only [hl, if_true]
      by_cases hb : cfg.batchNum ≤ s.currNum + 1
      · simp only [hb, if_true]
        refine ⟨a ++ [b ++ [e]], [], ⟨?_, ?_, rfl, rfl, fun hb => hb, fun _ => rfl, ?_⟩⟩
        · rw [takenOf_append, eventsOf_append, accepted_append, hacc, h.split]; simp
        · simp [AState.flush, h.groups, h.buf]
        · intro hb1 g hg
          rcases List.mem_append.mp hg with hg | hg
          · exact h.sizes hb1 g hg
          · obtain rfl := List.mem_singleton.mp hg
            have := h.batch hb1
            have := h.num
            simp only [List.length_append, List.length_singleton]
            omega
      · simp only [hb, if_false]
        rcases key with k | k
        · exact ⟨_, _, k⟩
        · exact absurd k hb
    · have hacc : accepted cfg.t (eventsOf (takenOf [ALab.took (some e)])) = [] := by simp [takenOf, eventsOf, accepted, hl]
      simp only [hl, if_false]
      exact ⟨a, b, h.same hacc rfl rfl rfl id⟩
  | takeIgnored h1 h2 h3 h4 => rw [hf] at h3; simp at h3
  | takePanic h1 h2 h3 h4 => rw [hf] at h3; simp at h3
  | takeNil h1 h2 =>
    have k := h.flush (l := ALab.took (V := V) none) rfl
    exact ⟨_, _, k.split, k.groups, k.buf, k.num, k.batch, fun _ => rfl, k.sizes⟩
  | takeClosed h1 h2 h3 =>
    have k := h.flush (l := ALab.took (V := V) none) rfl
    exact ⟨_, _, k.split, k.groups, k.buf, k.num, k.batch, fun _ => rfl, k.sizes⟩

theorem aexec_binv {cfg : ACfg V} {f : Formatter V} (hf : cfg.f = some f) {prog : Nat → List (ACall V)} {tr : List (ALab V)} {s : AState V}
    (h : AExec cfg (newAsync prog) tr s) : ∃ a b, BInv cfg f tr s a b := by
  generalize h0 : newAsync prog = s0 at h
  induction h with
  | nil => subst h0; exact ⟨[], [], rfl, rfl, rfl, rfl, fun hb => hb, fun _ => rfl, fun _ _ hg => absurd hg List.not_mem_nil⟩
  | snoc _ hs ih => subst h0; obtain ⟨a, b, k⟩ := ih; exact binv_step hf k hs.2

/-- What goroutine `t` has queued, is about to queue and has yet to send. -/
def flight (x : Thread V) : List (Event V) :=
  (match x.pc with | .sending e => [e] | _ => []) ++ sendsOf x.todo

theorem order_step {cfg : ACfg V} {tr : List (ALab V)} {s s' : AState V} {l : ALab V} {es : List (Event V)} (t : Nat)
    (h : (queuedBy t tr ++ flight (s.th t)) <+ es ∧ ((∀ c, .skip t c ∉ tr) → queuedBy t tr ++ flight (s.th t) = es))
    (hs : AAct cfg s l s') :
    (queuedBy t (tr ++ [l]) ++ flight (s'.th t)) <+ es ∧
      ((∀ c, .skip t c ∉ tr ++ [l]) → queuedBy t (tr ++ [l]) ++ flight (s'.th t) = es) := by
  have key : (queuedBy t [l] ++ flight (s'.th t)) <+ flight (s.th t) ∧ ((∀ c, .skip t c ≠ l) → queuedBy t [l] ++ flight (s'.th t) = flight (s.th t)) := by
    have same : s'.th t = s.th t → queuedBy t [l] = [] → (queuedBy t [l] ++ flight (s'.th t)) <+ flight (s.th t) ∧ ((∀ c, .skip t c ≠ l) → queuedBy t [l] ++ flight (s'.th t) = flight (s.th t)) := by
      intro h1 h2; rw [h1, h2]; exact ⟨List.Sublist.refl _, fun _ => rfl⟩
    have other : ∀ {s1 : AState V} {u x}, s1.th = s.th → s' = s1.set u x → u ≠ t → s'.th t = s.th t := by
      intro s1 u x h1 h2 h3
      rw [h2, set_th, if_neg (fun e => h3 e.symm), h1]
    cases hs with
    | @sendStart u e cs h1 h2 =>
      by_cases hu : u = t
      · subst hu; simp [set_th, h1, flight, queuedBy, sendsOf]
      · exact same (other rfl rfl hu) rfl
    | @sendSkip u e cs h1 h2 =>
      by_cases hu : u = t
      · subst hu; simp [set_th, h1, flight, queuedBy, sendsOf]
      · exact same (other rfl rfl hu) rfl
    | @sendQueue u e cs h1 h2 h3 =>
      by_cases hu : u = t
      · subst hu; simp [set_th, h1, flight, queuedBy]
      · exact same (other (s1 := { s with chan := s.chan ++ [some e] }) rfl rfl hu) (by simp [queuedBy, hu])
    | sendPanic h1 h2 => exact same rfl rfl
    | @closeStart u cs h1 h2 =>
      by_cases hu : u = t
      · subst hu; simp [set_th, h1, flight, queuedBy, sendsOf]
      · exact same (other rfl rfl hu) rfl
    | @closeSkip u cs h1 h2 =>
      by_cases hu : u = t
      · subst hu; simp [set_th, h1, flight, queuedBy, sendsOf]
      · exact same (other rfl rfl hu) rfl
    | @closeRequest u cs h1 h2 h3 =>
      by_cases hu : u = t
      · subst hu; simp [set_th, h1, flight, queuedBy]
      · exact same (other (s1 := { s with chan := s.chan ++ [none] }) rfl rfl hu) rfl
    | requestPanic h1 h2 => exact same rfl rfl
    | @closeWait u cs h1 h2 =>
      by_cases hu : u = t
      · subst hu; simp [set_th, h1, flight, queuedBy]
      · exact same (other rfl rfl hu) rfl
    | @closeStore u cs h1 =>
      by_cases hu : u = t
      · subst hu; simp [set_th, h1, flight, queuedBy]
      · exact same (other (s1 := { s with closed := true }) rfl rfl hu) rfl
    | @closeChan u cs h1 h2 =>
      by_cases hu : u = t
      · subst hu; simp [set_th, h1, flight, queuedBy]
      · exact same (other (s1 := { s with chanClosed := true }) rfl rfl hu) rfl
    | closePanic h1 h2 => exact same rfl rfl
    | begin h1 => exact same rfl rfl
    | tick h1 => exact same rfl rfl
    | @takeEvent e rest f h1 h2 h3 => exact same (by rw [(handle_same cfg f _ e).2.2.2.2.2.1]) rfl
    | takeIgnored h1 h2 h3 h4 => exact same rfl rfl
    | takePanic h1 h2 h3 h4 => exact same rfl rfl
    | takeNil h1 h2 => exact same rfl rfl
    | takeClosed h1 h2 h3 => exact same rfl rfl
  rw [queuedBy_append, List.append_assoc]
  refine ⟨((List.Sublist.refl _).append key.1).trans h.1, fun hh => ?_⟩
  rw [key.2 (fun c e => hh c (by simp [e])), h.2 (fun c hc => hh c (by simp [hc]))]

theorem aexec_order {cfg : ACfg V} {prog : Nat → List (ACall V)} {tr : List (ALab V)} {s : AState V}
    (h : AExec cfg (newAsync prog) tr s) (t : Nat) :
    (queuedBy t tr ++ flight (s.th t)) <+ sendsOf (prog t) ∧
      ((∀ c, .skip t c ∉ tr) → queuedBy t tr ++ flight (s.th t) = sendsOf (prog t)) := by
  generalize h0 : newAsync prog = s0 at h
  induction h with
  | nil => subst h0; exact ⟨List.Sublist.refl _, fun _ => rfl⟩
  | snoc _ hs ih => subst h0; exact order_step t ih hs.2

end Log4g

namespace Log4g
open Spec
open scoped List
variable {V : Type}

theorem AExec.trans {cfg : ACfg V} {s s' s'' : AState V} {tr tr' : List (ALab V)} (h : AExec cfg s tr s') (h' : AExec cfg s' tr' s'') :
    AExec cfg s (tr ++ tr') s'' := by
  induction h' with
  | nil => simpa using h
  | snoc _ hs ih => rw [← List.append_assoc]; exact .snoc ih hs

theorem AExec.one {cfg : ACfg V} {s s' : AState V} {l : ALab V} (h : AStep cfg s l s') : AExec cfg s [l] s' := .snoc .nil h

/-- The end of a call. -/
def Returns (t : Nat) (l : ALab V) : Prop := l = .closed t ∨ (∃ e, l = .queued t e) ∨ ∃ c, l = .skip t c

/-- What the calls under way have in common. -/
structure CloseInv (tr : List (ALab V)) (s : AState V) : Prop where
  closing : ∀ t, (s.th t).pc = .closing → s.closed = true
  flag : s.chanClosed = true → s.closed = true ∧ ∃ t, .closed t ∈ tr
  none : ∀ t, .closed t ∈ tr → s.chanClosed = true
  skip : ∀ t c, .skip t c ∈ tr → s.closed = true
  call : ∀ t, (s.th t).pc ≠ .idle → ∃ a c b, tr = a ++ .start t c :: b ∧ (∀ l ∈ b, ¬ Returns t l) ∧ ∀ u, .closed u ∉ a

theorem closeinv_init (prog : Nat → List (ACall V)) : CloseInv [] (newAsync prog) :=
  ⟨by simp [newAsync], by simp [newAsync], by simp, by simp, by simp [newAsync]⟩

/-- A step that does not change the flags, and of the goroutines at most the place of one inside a call. -/
theorem CloseInv.same {tr : List (ALab V)} {s s' : AState V} {l : ALab V} (h : CloseInv tr s)
    (h1 : s'.closed = s.closed) (h2 : s'.chanClosed = s.chanClosed) (hl : ∀ t, ¬ Returns t l)
    (h3 : ∀ t, (s'.th t).pc ≠ .idle → (s.th t).pc ≠ .idle) (h4 : ∀ t, (s'.th t).pc = .closing → (s.th t).pc = .closing) : CloseInv (tr ++ [l]) s' := by
  refine ⟨fun t ht => by rw [h1]; exact h.closing t (h4 t ht), ?_, ?_, ?_, ?_⟩
  · rw [h1, h2]; intro hh
    obtain ⟨a, t, b⟩ := h.flag hh
    exact ⟨a, t, by simp [b]⟩
  · intro t ht
    rw [h2]
    rcases List.mem_append.mp ht with ht | ht
    · exact h.none t ht
    · simp only [List.mem_singleton] at ht
      exact absurd (.inl ht.symm) (hl t)
  · intro t c ht
    rw [h1]
    rcases List.mem_append.mp ht with ht | ht
    · exact h.skip t c ht
    · simp only [List.mem_singleton] at ht
      exact absurd (.inr (.inr ⟨c, ht.symm⟩)) (hl t)
  · intro t ht
    obtain ⟨a, c, b, e, hb, ha⟩ := h.call t (h3 t ht)
    refine ⟨a, c, b ++ [l], by rw [e]; simp, ?_, ha⟩
    intro l' hl'
    rcases List.mem_append.mp hl' with hl' | hl'
    · exact hb l' hl'
    · simp only [List.mem_singleton] at hl'
      rw [hl']; exact hl t

/-- The place of one goroutine inside its call. -/
theorem move_inside {s s1 : AState V} {t : Nat} {x y : Thread V} (hs1 : s1.th = s.th) (h : s.th t = x) (hx : x.pc ≠ .idle) :
    (∀ u, ((s1.set t y).th u).pc ≠ .idle → (s.th u).pc ≠ .idle) ∧
    (y.pc ≠ .closing → ∀ u, ((s1.set t y).th u).pc = .closing → (s.th u).pc = .closing) := by
  constructor
  · intro u hu
    rw [set_th] at hu
    split at hu
    · rename_i e; subst e; rw [h]; exact hx
    · rw [hs1] at hu; exact hu
  · intro hy u hu
    rw [set_th] at hu
    split at hu
    · exact absurd hu hy
    · rw [hs1] at hu; exact hu

theorem closeinv_step {cfg : ACfg V} {tr : List (ALab V)} {s s' : AState V} {l : ALab V} (h : CloseInv tr s) (hs : AAct cfg s l s') :
    CloseInv (tr ++ [l]) s' := by
  have noRet : ∀ {l : ALab V}, (∀ t, l ≠ .closed t) → (∀ t e, l ≠ .queued t e) → (∀ t c, l ≠ .skip t c) → ∀ t, ¬ Returns t l := by
    intro l h1 h2 h3 t hh
    rcases hh with hh | ⟨e, hh⟩ | ⟨c, hh⟩
    · exact h1 _ hh
    · exact h2 _ _ hh
    · exact h3 _ _ hh
  -- a goroutine starts a call
  have start : ∀ {t c y}, s.closed = false → y ≠ .closing → s' = s.set t { pc := y, todo := (s'.th t).todo } → l = .start t c → CloseInv (tr ++ [l]) s' := by
    intro t c y hc hy he hl
    subst hl
    have nochan : ∀ u, ALab.closed u ∉ tr := by
      intro u hu
      have := (h.flag (h.none u hu)).1
      rw [hc] at this; simp at this
    have e1 : s'.closed = s.closed := by rw [he]; rfl
    have e2 : s'.chanClosed = s.chanClosed := by rw [he]; rfl
    have eth : ∀ u, u ≠ t → s'.th u = s.th u := by intro u hu; rw [he, set_th, if_neg hu]
    have etp : (s'.th t).pc = y := by rw [he, set_th, if_pos rfl]
    refine ⟨?_, ?_, ?_, ?_, ?_⟩
    · intro u hu
      by_cases hut : u = t
      · subst hut; rw [etp] at hu; exact absurd hu hy
      · rw [e1]; exact h.closing u (by rw [← eth u hut]; exact hu)
    · rw [e2, e1]; intro hh
      obtain ⟨a, u, b⟩ := h.flag hh
      exact ⟨a, u, by simp [b]⟩
    · intro u hu
      rw [e2]
      exact h.none u (by simpa using hu)
    · intro u c hu
      rw [e1]
      exact h.skip u c (by simpa using hu)
    · intro u hu
      by_cases hut : u = t
      · subst hut; exact ⟨tr, c, [], rfl, by simp, nochan⟩
      · obtain ⟨a, c', b, e, hb, ha⟩ := h.call u (by rw [← eth u hut]; exact hu)
        refine ⟨a, c', b ++ [.start t c], by rw [e]; simp, ?_, ha⟩
        intro l' hl'
        rcases List.mem_append.mp hl' with hl' | hl'
        · exact hb l' hl'
        · simp only [List.mem_singleton] at hl'
          rw [hl']; exact noRet (by simp) (by simp) (by simp) u
  -- a goroutine ends a call
  have ret : ∀ {t x}, (∀ u, Returns u l → u = t) → s.th t = x → (s'.th t).pc = .idle → (∀ u, u ≠ t → s'.th u = s.th u) →
      (s.closed = true → s'.closed = true) → (s'.chanClosed = true → s'.closed = true ∧ ∃ u, .closed u ∈ tr ++ [l]) → (∀ u, ALab.closed u ∈ tr ++ [l] → s'.chanClosed = true) →
      (∀ u c, ALab.skip u c = l → s'.closed = true) → CloseInv (tr ++ [l]) s' := by
    intro t x hl hx hi ho hc h1 h2 h3
    refine ⟨?_, h1, h2, ?_, ?_⟩
    · intro u hu
      by_cases hut : u = t
      · subst hut; rw [hi] at hu; simp at hu
      · exact hc (h.closing u (by rw [← ho u hut]; exact hu))
    · intro u c hu
      rcases List.mem_append.mp hu with hu | hu
      · exact hc (h.skip u c hu)
      · exact h3 u c (by simpa using hu)
    · intro u hu
      by_cases hut : u = t
      · subst hut; exact absurd hi hu
      · obtain ⟨a, c', b, e, hb, ha⟩ := h.call u (by rw [← ho u hut]; exact hu)
        refine ⟨a, c', b ++ [l], by rw [e]; simp, ?_, ha⟩
        intro l' hl'
        rcases List.mem_append.mp hl' with hl' | hl'
        · exact hb l' hl'
        · simp only [List.mem_singleton] at hl'
          rw [hl']; exact fun hr => hut (hl u hr)
  have keep : ∀ {l : ALab V}, s.chanClosed = true → s.closed = true ∧ ∃ u, .closed u ∈ tr ++ [l] := by
    intro l hh
    obtain ⟨a, u, b⟩ := h.flag hh
    exact ⟨a, u, by simp [b]⟩
  have others : ∀ {s1 : AState V} {t : Nat} {y : Thread V}, s1.th = s.th → ∀ u, u ≠ t → (s1.set t y).th u = s.th u := by
    intro s1 t y he u hu; rw [set_th, if_neg hu, he]
  cases hs with
  | @sendStart t e cs h1 h2 => exact start (t := t) (y := .sending e) h2 (by simp) (by simp [set_th]) rfl
  | @closeStart t cs h1 h2 => exact start (t := t) (y := .requesting) h2 (by simp) (by simp [set_th]) rfl
  | @sendSkip t e cs h1 h2 =>
    exact ret (t := t) (by rintro u (hh | ⟨e, hh⟩ | ⟨c, hh⟩) <;> simp at hh; exact hh.1.symm) h1 (by simp [set_th]) (others rfl)
      (fun hh => hh) keep (fun u hu => h.none u (by simpa using hu)) (fun _ _ _ => h2)
  | @closeSkip t cs h1 h2 =>
    exact ret (t := t) (by rintro u (hh | ⟨e, hh⟩ | ⟨c, hh⟩) <;> simp at hh; exact hh.1.symm) h1 (by simp [set_th]) (others rfl)
      (fun hh => hh) keep (fun u hu => h.none u (by simpa using hu)) (fun _ _ _ => h2)
  | @sendQueue t e cs h1 h2 h3 =>
    exact ret (t := t) (by rintro u (hh | ⟨e, hh⟩ | ⟨c, hh⟩) <;> simp at hh; exact hh.1.symm) h1 (by simp [set_th])
      (others (s1 := { s with chan := s.chan ++ [some e] }) rfl) (fun hh => hh) keep (fun u hu => h.none u (by simpa using hu)) (fun _ _ hh => by simp at hh)
  | @closeChan t cs h1 h2 =>
    have hc : s.closed = true := h.closing t (by rw [h1])
    exact ret (t := t) (by rintro u (hh | ⟨e, hh⟩ | ⟨c, hh⟩) <;> simp at hh; exact hh.symm) h1 (by simp [set_th])
      (others (s1 := { s with chanClosed := true }) rfl) (fun hh => hh) (fun _ => ⟨hc, t, by simp⟩) (fun u hu => rfl) (fun _ _ hh => by simp at hh)
  | @closeStore t cs h1 =>
    have mi := move_inside (s := s) (s1 := { s with closed := true }) (y := { pc := .closing, todo := cs }) rfl h1 (by simp)
    refine ⟨fun _ _ => rfl, fun hh => ⟨rfl, (keep hh).2⟩, fun u hu => h.none u (by simpa using hu), fun _ _ _ => rfl, ?_⟩
    intro u hu
    obtain ⟨a, c', b, e, hb, ha⟩ := h.call u (mi.1 u hu)
    refine ⟨a, c', b ++ [.stored t], by rw [e]; simp, ?_, ha⟩
    intro l' hl'
    rcases List.mem_append.mp hl' with hl' | hl'
    · exact hb l' hl'
    · simp only [List.mem_singleton] at hl'
      rw [hl']; exact noRet (by simp) (by simp) (by simp) u
  | @closeRequest t cs h1 h2 h3 =>
    have mi := move_inside (s := s) (s1 := { s with chan := s.chan ++ [none] }) (y := { pc := .waiting, todo := cs }) rfl h1 (by simp)
    exact h.same rfl rfl (noRet (by simp) (by simp) (by simp)) mi.1 (mi.2 (by simp))
  | @closeWait t cs h1 h2 =>
    have mi := move_inside (s := s) (s1 := s) (y := { pc := .storing, todo := cs }) rfl h1 (by simp)
    exact h.same rfl rfl (noRet (by simp) (by simp) (by simp)) mi.1 (mi.2 (by simp))
  | sendPanic h1 h2 => exact h.same rfl rfl (noRet (by simp) (by simp) (by simp)) (fun _ => id) (fun _ => id)
  | requestPanic h1 h2 => exact h.same rfl rfl (noRet (by simp) (by simp) (by simp)) (fun _ => id) (fun _ => id)
  | closePanic h1 h2 => exact h.same rfl rfl (noRet (by simp) (by simp) (by simp)) (fun _ => id) (fun _ => id)
  | begin h1 => exact h.same rfl rfl (noRet (by simp) (by simp) (by simp)) (fun _ => id) (fun _ => id)
  | tick h1 => exact h.same rfl rfl (noRet (by simp) (by simp) (by simp)) (fun _ => id) (fun _ => id)
  | @takeEvent e rest f h1 h2 h3 =>
    obtain ⟨_, _, _, d, e', g, _⟩ := handle_same cfg f { s with chan := rest } e
    exact h.same d e' (noRet (by simp) (by simp) (by simp)) (by rw [g]; exact fun _ => id) (by rw [g]; exact fun _ => id)
  | takeIgnored h1 h2 h3 h4 => exact h.same rfl rfl (noRet (by simp) (by simp) (by simp)) (fun _ => id) (fun _ => id)
  | takePanic h1 h2 h3 h4 => exact h.same rfl rfl (noRet (by simp) (by simp) (by simp)) (fun _ => id) (fun _ => id)
  | takeNil h1 h2 => exact h.same rfl rfl (noRet (by simp) (by simp) (by simp)) (fun _ => id) (fun _ => id)
  | takeClosed h1 h2 h3 => exact h.same rfl rfl (noRet (by simp) (by simp) (by simp)) (fun _ => id) (fun _ => id)

theorem aexec_closeinv {cfg : ACfg V} {prog : Nat → List (ACall V)} {tr : List (ALab V)} {s : AState V}
    (h : AExec cfg (newAsync prog) tr s) : CloseInv tr s := by
  generalize h0 : newAsync prog = s0 at h
  induction h with
  | nil => subst h0; exact closeinv_init prog
  | snoc _ hs ih => subst h0; exact closeinv_step ih hs.2

theorem closed_of_returned {tr : List (ALab V)} {s : AState V} (h : CloseInv tr s) (hc : CloseReturned tr) : s.closed = true := by
  obtain ⟨t, hc | hc⟩ := hc
  · exact (h.flag (h.none t hc)).1
  · exact h.skip t _ hc

/-- The only goroutine that closes is `t`. -/
structure OInv (t : Nat) (tr : List (ALab V)) (s : AState V) : Prop where
  others : ∀ u, u ≠ t → ((s.th u).pc = .idle ∨ ∃ e, (s.th u).pc = .sending e) ∧ ACall.close ∉ (s.th u).todo
  chan : s.closed = false → s.chanClosed = false
  early : (s.th t).pc = .requesting ∨ (s.th t).pc = .waiting ∨ (s.th t).pc = .storing → s.closed = false
  late : (s.th t).pc = .closing → s.chanClosed = false
  request : none ∈ queuedOf tr → Past (s.th t).pc ∨ s.closed = true

theorem OInv.same {t : Nat} {tr : List (ALab V)} {s s' : AState V} {l : ALab V} (h : OInv t tr s) (hq : queuedOf [l] = [])
    (h1 : s'.th = s.th) (h2 : s'.closed = s.closed) (h3 : s'.chanClosed = s.chanClosed) : OInv t (tr ++ [l]) s' :=
  ⟨by rw [h1]; exact h.others, by rw [h2, h3]; exact h.chan, by rw [h1, h2]; exact h.early, by rw [h1, h3]; exact h.late,
    by rw [queuedOf_append, hq, List.append_nil, h1, h2]; exact h.request⟩

/-- A step of a goroutine other than `t`. -/
theorem OInv.other {t : Nat} {tr : List (ALab V)} {s s1 : AState V} {l : ALab V} (h : OInv t tr s) {u : Nat} {y : Thread V} (hu : u ≠ t)
    (hq : none ∉ queuedOf [l]) (h1 : s1.th = s.th) (h2 : s1.closed = s.closed) (h3 : s1.chanClosed = s.chanClosed)
    (hy : (y.pc = .idle ∨ ∃ e, y.pc = .sending e) ∧ ACall.close ∉ y.todo) : OInv t (tr ++ [l]) (s1.set u y) := by
  have et : (s1.set u y).th t = s.th t := by rw [set_th, if_neg (fun e => hu e.symm), h1]
  refine ⟨?_, by show s1.closed = false → s1.chanClosed = false; rw [h2, h3]; exact h.chan, ?_, ?_, ?_⟩
  · intro v hv
    rw [set_th]
    split
    · exact hy
    · rw [h1]; exact h.others v hv
  · rw [et]; show _ → s1.closed = false; rw [h2]; exact h.early
  · rw [et]; show _ → s1.chanClosed = false; rw [h3]; exact h.late
  · rw [et, queuedOf_append]
    show _ → _ ∨ s1.closed = true
    rw [h2]
    intro hh
    rcases List.mem_append.mp hh with hh | hh
    · exact h.request hh
    · exact absurd hh hq

theorem oinv_step {cfg : ACfg V} {t : Nat} {tr : List (ALab V)} {s s' : AState V} {l : ALab V} (hci : CloseInv tr s) (h : OInv t tr s)
    (hs : AAct cfg s l s') : OInv t (tr ++ [l]) s' := by
  have oth : ∀ {s1 : AState V} {y : Thread V}, s1.th = s.th → ∀ u, u ≠ t → (((s1.set t y).th u).pc = .idle ∨ ∃ e, ((s1.set t y).th u).pc = .sending e) ∧ ACall.close ∉ ((s1.set t y).th u).todo := by
    intro s1 y he u hu
    rw [set_th, if_neg hu, he]; exact h.others u hu
  have me : ∀ {s1 : AState V} {y : Thread V}, (s1.set t y).th t = y := by intro s1 y; rw [set_th, if_pos rfl]
  cases hs with
  | @sendStart u e cs h1 h2 =>
    by_cases hu : u = t
    · subst hu
      refine ⟨oth rfl, h.chan, by rw [me]; simp, by rw [me]; simp, ?_⟩
      rw [queuedOf_append]
      intro hh
      rcases h.request (by simpa [queuedOf] using hh) with k | k
      · rw [h1] at k; simp [Past] at k
      · exact .inr k
    · have := (h.others u hu).2
      rw [h1] at this
      exact h.other hu (by simp [queuedOf]) rfl rfl rfl ⟨.inr ⟨e, rfl⟩, by simpa using this⟩
  | @sendSkip u e cs h1 h2 =>
    by_cases hu : u = t
    · subst hu
      exact ⟨oth rfl, h.chan, by rw [me]; simp, by rw [me]; simp, fun _ => .inr h2⟩
    · have := (h.others u hu).2
      rw [h1] at this
      exact h.other hu (by simp [queuedOf]) rfl rfl rfl ⟨.inl rfl, by simpa using this⟩
  | @sendQueue u e cs h1 h2 h3 =>
    by_cases hu : u = t
    · subst hu
      refine ⟨oth (s1 := { s with chan := s.chan ++ [some e] }) rfl, h.chan, by rw [me]; simp, by rw [me]; simp, ?_⟩
      rw [queuedOf_append]
      intro hh
      rcases h.request (by simpa [queuedOf] using hh) with k | k
      · rw [h1] at k; simp [Past] at k
      · exact .inr k
    · have := (h.others u hu).2
      rw [h1] at this
      exact h.other (s1 := { s with chan := s.chan ++ [some e] }) hu (by simp [queuedOf]) rfl rfl rfl ⟨.inl rfl, by simpa using this⟩
  | sendPanic h1 h2 => exact h.same rfl rfl rfl rfl
  | @closeStart u cs h1 h2 =>
    by_cases hu : u = t
    · subst hu
      refine ⟨oth rfl, h.chan, fun _ => h2, by rw [me]; simp, ?_⟩
      rw [queuedOf_append]
      intro hh
      rcases h.request (by simpa [queuedOf] using hh) with k | k
      · rw [h1] at k; simp [Past] at k
      · exact .inr k
    · have := (h.others u hu).2
      rw [h1] at this; simp at this
  | @closeSkip u cs h1 h2 =>
    by_cases hu : u = t
    · subst hu
      exact ⟨oth rfl, h.chan, by rw [me]; simp, by rw [me]; simp, fun _ => .inr h2⟩
    · have := (h.others u hu).2
      rw [h1] at this; simp at this
  | @closeRequest u cs h1 h2 h3 =>
    by_cases hu : u = t
    · subst hu
      exact ⟨oth (s1 := { s with chan := s.chan ++ [none] }) rfl, h.chan, fun _ => h.early (by rw [h1]; simp), by rw [me]; simp, fun _ => .inl (by rw [me]; exact .inl rfl)⟩
    · have := (h.others u hu).1
      rw [h1] at this; simp at this
  | requestPanic h1 h2 => exact h.same rfl rfl rfl rfl
  | @closeWait u cs h1 h2 =>
    by_cases hu : u = t
    · subst hu
      exact ⟨oth rfl, h.chan, fun _ => h.early (by rw [h1]; simp), by rw [me]; simp, fun _ => .inl (by rw [me]; exact .inr (.inl rfl))⟩
    · have := (h.others u hu).1
      rw [h1] at this; simp at this
  | @closeStore u cs h1 =>
    by_cases hu : u = t
    · subst hu
      refine ⟨oth (s1 := { s with closed := true }) rfl, fun hh => by simp [AState.set] at hh, by rw [me]; simp, fun _ => h.chan (h.early (by rw [h1]; simp)), fun _ => .inr rfl⟩
    · have := (h.others u hu).1
      rw [h1] at this; simp at this
  | @closeChan u cs h1 h2 =>
    by_cases hu : u = t
    · subst hu
      have hr : s.closed = true := hci.closing u (by rw [h1])
      refine ⟨oth (s1 := { s with chanClosed := true }) rfl, ?_, by rw [me]; simp, by rw [me]; simp, fun _ => .inr hr⟩
      show s.closed = false → _
      rw [hr]; simp
    · have := (h.others u hu).1
      rw [h1] at this; simp at this
  | closePanic h1 h2 => exact h.same rfl rfl rfl rfl
  | begin h1 => exact h.same rfl rfl rfl rfl
  | tick h1 => exact h.same rfl rfl rfl rfl
  | @takeEvent e rest f h1 h2 h3 =>
    obtain ⟨_, _, _, d, e', g, _⟩ := handle_same cfg f { s with chan := rest } e
    exact h.same rfl g d e'
  | takeIgnored h1 h2 h3 h4 => exact h.same rfl rfl rfl rfl
  | takePanic h1 h2 h3 h4 => exact h.same rfl rfl rfl rfl
  | takeNil h1 h2 => exact h.same rfl rfl rfl rfl
  | takeClosed h1 h2 h3 => exact h.same rfl rfl rfl rfl

theorem aexec_oinv {cfg : ACfg V} {prog : Nat → List (ACall V)} {tr : List (ALab V)} {s : AState V} {t : Nat}
    (hp : ∀ u, u ≠ t → ACall.close ∉ prog u) (h : AExec cfg (newAsync prog) tr s) : OInv t tr s := by
  generalize h0 : newAsync prog = s0 at h
  induction h with
  | nil => subst h0; exact ⟨fun u hu => ⟨.inl rfl, hp u hu⟩, fun _ => rfl, by simp [newAsync], by simp [newAsync], by simp [queuedOf]⟩
  | snoc he hs ih => subst h0; exact oinv_step (aexec_closeinv he) ih hs.2

/-- The worker takes events. -/
theorem drain {cfg : ACfg V} {f : Formatter V} (hf : cfg.f = some f) (pre : List (Event V)) (rest : List (Option (Event V))) (s : AState V)
    (hp : s.panicked = false) (hw : s.worker = .running) (hc : s.chan = pre.map some ++ rest) :
    ∃ tr s', AExec cfg s tr s' ∧ s'.panicked = false ∧ s'.worker = .running ∧ s'.chan = rest ∧ s'.th = s.th ∧ s'.closed = s.closed ∧
      s'.chanClosed = s.chanClosed ∧ s'.wait = s.wait ∧ (∀ l ∈ tr, stepOf l = none) := by
  induction pre generalizing s with
  | nil => exact ⟨[], s, .nil, hp, hw, hc, rfl, rfl, rfl, rfl, by simp⟩
  | cons e es ih =>
    obtain ⟨a, b, c, d, e', g, k⟩ := handle_same cfg f { s with chan := es.map some ++ rest } e
    have st : AStep cfg s (.took (some e)) (({ s with chan := es.map some ++ rest } : AState V).handle cfg f e) := ⟨hp, .takeEvent hw hc hf⟩
    obtain ⟨tr, s', h1, h2, h3, h4, h5, h6, h7, h9, h8⟩ := ih _ (by rw [k]; exact hp) (by rw [b]; exact hw) a
    refine ⟨[.took (some e)] ++ tr, s', (AExec.one st).trans h1, h2, h3, h4, by rw [h5, g], by rw [h6, d], by rw [h7, e'], by rw [h9, c], ?_⟩
    intro l hl
    rcases List.mem_append.mp hl with hl | hl
    · simp only [List.mem_singleton] at hl; rw [hl]; rfl
    · exact h8 l hl

theorem all_some (xs : List (Option (Event V))) (h : none ∉ xs) : ∃ es : List (Event V), xs = es.map some := by
  induction xs with
  | nil => exact ⟨[], rfl⟩
  | cons x xs ih =>
    obtain ⟨es, rfl⟩ := ih (fun hh => h (by simp [hh]))
    cases x with
    | none => simp at h
    | some e => exact ⟨e :: es, rfl⟩

theorem split_none (xs : List (Option (Event V))) (h : none ∈ xs) : ∃ (es : List (Event V)) (rest : List (Option (Event V))), xs = es.map some ++ none :: rest := by
  induction xs with
  | nil => simp at h
  | cons x xs ih =>
    cases x with
    | none => exact ⟨[], xs, rfl⟩
    | some e =>
      obtain ⟨es, rest, rfl⟩ := ih (by simpa using h)
      exact ⟨e :: es, rest, rfl⟩

/-- A goroutine at `storing` or `closing` returns. -/
theorem finish_close {cfg : ACfg V} {s : AState V} {t : Nat} (hp : s.panicked = false) (hc : s.chanClosed = false)
    (h : (s.th t).pc = .storing ∨ (s.th t).pc = .closing) :
    ∃ tr s', AExec cfg s tr s' ∧ s'.panicked = false ∧ (s'.th t).pc = .idle ∧ ∀ l ∈ tr, stepOf l = some t := by
  have fin : ∀ s : AState V, s.panicked = false → s.chanClosed = false → (s.th t).pc = .closing →
      ∃ tr s', AExec cfg s tr s' ∧ s'.panicked = false ∧ (s'.th t).pc = .idle ∧ ∀ l ∈ tr, stepOf l = some t := by
    intro s hp hc h
    have e : s.th t = { pc := .closing, todo := (s.th t).todo } := by rw [← h]
    exact ⟨_, _, .one ⟨hp, .closeChan e hc⟩, hp, by simp [set_th], by simp [stepOf]⟩
  rcases h with h | h
  · have e : s.th t = { pc := .storing, todo := (s.th t).todo } := by rw [← h]
    obtain ⟨tr, s', h1, h2, h3, h4⟩ := fin (({ s with closed := true } : AState V).set t { pc := .closing, todo := (s.th t).todo }) hp hc (by simp [set_th])
    refine ⟨[.stored t] ++ tr, s', (AExec.one ⟨hp, .closeStore e⟩).trans h1, h2, h3, ?_⟩
    intro l hl
    rcases List.mem_append.mp hl with hl | hl
    · simp only [List.mem_singleton] at hl; rw [hl]; rfl
    · exact h4 l hl
  · exact fin s hp hc h

/-- A goroutine at `waiting` returns. -/
theorem finish_wait {cfg : ACfg V} {f : Formatter V} (hf : cfg.f = some f) {tr0 : List (ALab V)} {s : AState V} {t : Nat} (inv : AInv cfg tr0 s)
    (hp : s.panicked = false) (hc : s.chanClosed = false) (h : (s.th t).pc = .waiting) :
    ∃ tr s', AExec cfg s tr s' ∧ s'.panicked = false ∧ (s'.th t).pc = .idle ∧ ∀ l ∈ tr, stepOf l = some t ∨ stepOf l = none := by
  have go : ∀ s : AState V, s.panicked = false → s.chanClosed = false → (s.th t).pc = .waiting → s.wait = 0 →
      ∃ tr s', AExec cfg s tr s' ∧ s'.panicked = false ∧ (s'.th t).pc = .idle ∧ ∀ l ∈ tr, stepOf l = some t ∨ stepOf l = none := by
    intro s hp hc h hw
    have e : s.th t = { pc := .waiting, todo := (s.th t).todo } := by rw [← h]
    obtain ⟨tr, s', h1, h2, h3, h4⟩ := finish_close (cfg := cfg) (s := s.set t { pc := .storing, todo := (s.th t).todo }) (t := t) hp hc (by simp [set_th])
    refine ⟨[.waited t] ++ tr, s', (AExec.one ⟨hp, .closeWait e hw⟩).trans h1, h2, h3, ?_⟩
    intro l hl
    rcases List.mem_append.mp hl with hl | hl
    · simp only [List.mem_singleton] at hl; rw [hl]; exact .inl rfl
    · exact .inl (h4 l hl)
  cases hw : s.worker with
  | starting => exact go s hp hc h (by rw [inv.wait, hw]; rfl)
  | stopped => exact go s hp hc h (by rw [inv.wait, hw]; rfl)
  | running =>
    have hn := inv.request (.inl ⟨t, .inl h⟩)
    rw [inv.queue] at hn
    have hn' : none ∈ s.chan := by
      rcases List.mem_append.mp hn with k | k
      · exact absurd k (inv.running hw)
      · exact k
    obtain ⟨es, rest, he⟩ := split_none s.chan hn'
    obtain ⟨tr, s1, h1, h2, h3, h4, h5, h6, h7, h9, h8⟩ := drain hf es (none :: rest) s hp hw he
    have hwait : s1.wait = 1 := by rw [h9, inv.wait, if_pos hw]
    have st : AStep cfg s1 (.took none) { ({ s1 with chan := rest } : AState V).flush with worker := .stopped, wait := s1.wait - 1 } := ⟨h2, .takeNil h3 h4⟩
    obtain ⟨tr', s', k1, k2, k3, k4⟩ := go { ({ s1 with chan := rest } : AState V).flush with worker := .stopped, wait := s1.wait - 1 } h2 (h7.trans hc) (by show (s1.th t).pc = _; rw [h5]; exact h) (by show s1.wait - 1 = 0; omega)
    refine ⟨tr ++ ([.took none] ++ tr'), s', h1.trans ((AExec.one st).trans k1), k2, k3, ?_⟩
    intro l hl
    rcases List.mem_append.mp hl with hl | hl
    · exact .inr (h8 l hl)
    · rcases List.mem_append.mp hl with hl | hl
      · simp only [List.mem_singleton] at hl; rw [hl]; exact .inr rfl
      · exact k4 l hl

/-- The only goroutine that closes can always return from `Close`. -/
theorem close_returns_inv {cfg : ACfg V} {f : Formatter V} (hf : cfg.f = some f) (hsize : 1 ≤ cfg.queueSize) {prog : Nat → List (ACall V)}
    {tr0 : List (ALab V)} {s : AState V} {t : Nat} (oinv : OInv t tr0 s) (he : AExec cfg (newAsync prog) tr0 s)
    (hp : s.panicked = false) (h : InClose s t) :
    ∃ tr s', AExec cfg s tr s' ∧ s'.panicked = false ∧ (s'.th t).pc = .idle ∧ ∀ l ∈ tr, stepOf l = some t ∨ stepOf l = none := by
  have inv := aexec_inv he hp
  rcases h with h | h | h | h
  · -- requesting: let the worker make room
    have hcl := oinv.early (.inl h)
    have hch := oinv.chan hcl
    have hno : none ∉ queuedOf tr0 := by
      intro hh
      rcases oinv.request hh with k | k
      · rw [h] at k; simp [Past] at k
      · rw [hcl] at k; simp at k
    rw [inv.queue] at hno
    have start : ∃ tr s1, AExec cfg s tr s1 ∧ s1.panicked = false ∧ s1.worker = .running ∧ s1.chan = s.chan ∧ s1.th = s.th ∧
        s1.closed = s.closed ∧ s1.chanClosed = s.chanClosed ∧ ∀ l ∈ tr, stepOf l = none := by
      cases hw : s.worker with
      | running => exact ⟨[], s, .nil, hp, hw, rfl, rfl, rfl, rfl, by simp⟩
      | starting => exact ⟨_, _, .one ⟨hp, .begin hw⟩, hp, rfl, rfl, rfl, rfl, rfl, by simp [stepOf]⟩
      | stopped =>
        obtain ⟨pre, k, _⟩ := inv.stopped hw
        rw [k] at hno; simp at hno
    obtain ⟨tr1, s1, a1, a2, a3, a4, a5, a6, a7, a8⟩ := start
    obtain ⟨es, hes⟩ := all_some s.chan (fun hh => hno (List.mem_append_right _ hh))
    obtain ⟨tr2, s2, b1, b2, b3, b4, b5, b6, b7, _, b8⟩ := drain hf es [] s1 a2 a3 (by rw [a4, hes]; simp)
    have e : s2.th t = { pc := .requesting, todo := (s.th t).todo } := by rw [b5, a5, ← h]
    have st : AStep cfg s2 (.requested t) (({ s2 with chan := s2.chan ++ [none] } : AState V).set t { pc := .waiting, todo := (s.th t).todo }) :=
      ⟨b2, .closeRequest e (by rw [b7, a7]; exact hch) (by rw [b4]; exact hsize)⟩
    have ex := he.trans (a1.trans (b1.trans (.one st)))
    obtain ⟨tr3, s3, c1, c2, c3, c4⟩ := finish_wait hf (aexec_inv ex b2) b2 (b7.trans (a7.trans hch)) (t := t) (by simp [set_th])
    refine ⟨tr1 ++ (tr2 ++ ([.requested t] ++ tr3)), s3, a1.trans (b1.trans ((AExec.one st).trans c1)), c2, c3, ?_⟩
    intro l hl
    simp only [List.mem_append, List.mem_singleton] at hl
    rcases hl with hl | hl | hl | hl
    · exact .inr (a8 l hl)
    · exact .inr (b8 l hl)
    · rw [hl]; exact .inl rfl
    · exact c4 l hl
  · exact finish_wait hf inv hp (oinv.chan (oinv.early (.inr (.inl h)))) h
  · obtain ⟨tr, s', a, b, c, d⟩ := finish_close (cfg := cfg) hp (oinv.chan (oinv.early (.inr (.inr h)))) (.inl h)
    exact ⟨tr, s', a, b, c, fun l hl => .inl (d l hl)⟩
  · obtain ⟨tr, s', a, b, c, d⟩ := finish_close (cfg := cfg) hp (oinv.late h) (.inr h)
    exact ⟨tr, s', a, b, c, fun l hl => .inl (d l hl)⟩

theorem close_returns {cfg : ACfg V} {f : Formatter V} (hf : cfg.f = some f) (hsize : 1 ≤ cfg.queueSize) {prog : Nat → List (ACall V)}
    {tr0 : List (ALab V)} {s : AState V} {t : Nat} (hprog : ∀ u, u ≠ t → ACall.close ∉ prog u) (he : AExec cfg (newAsync prog) tr0 s)
    (hp : s.panicked = false) (h : InClose s t) :
    ∃ tr s', AExec cfg s tr s' ∧ s'.panicked = false ∧ (s'.th t).pc = .idle ∧ ∀ l ∈ tr, stepOf l = some t ∨ stepOf l = none :=
  close_returns_inv hf hsize (aexec_oinv hprog he) he hp h

/-- A close request in the queue belongs to a `Close` that has not returned, or the channel is closed. -/
theorem request_owner {cfg : ACfg V} {prog : Nat → List (ACall V)} {tr : List (ALab V)} {s : AState V}
    (h : AExec cfg (newAsync prog) tr s) : none ∈ queuedOf tr → (∃ t, Past (s.th t).pc) ∨ s.chanClosed = true := by
  generalize h0 : newAsync prog = s0 at h
  induction h with
  | nil => simp [queuedOf]
  | @snoc tr s l s' he hs ih =>
    subst h0
    rw [queuedOf_append]
    have keep : ∀ {s1 : AState V} {t : Nat} {x y : Thread V}, s1.th = s.th → s1.chanClosed = s.chanClosed → s.th t = x → (Past x.pc → Past y.pc) →
        (∃ t, Past (s.th t).pc) ∨ s.chanClosed = true → (∃ u, Past ((s1.set t y).th u).pc) ∨ (s1.set t y).chanClosed = true := by
      rintro s1 t x y e1 e2 ex hxy (⟨u, hu⟩ | hu)
      · left
        by_cases hut : u = t
        · subst hut; exact ⟨u, by rw [set_th, if_pos rfl]; exact hxy (by rw [← ex]; exact hu)⟩
        · exact ⟨u, by rw [set_th, if_neg hut, e1]; exact hu⟩
      · right; exact e2.trans hu
    cases hs.2 with
    | @sendStart t e cs h1 h2 => exact fun hh => keep rfl rfl h1 (by simp [Past]) (ih (by simpa [queuedOf] using hh))
    | @sendSkip t e cs h1 h2 => exact fun hh => keep rfl rfl h1 (by simp [Past]) (ih (by simpa [queuedOf] using hh))
    | @sendQueue t e cs h1 h2 h3 =>
      exact fun hh => keep (s1 := { s with chan := s.chan ++ [some e] }) rfl rfl h1 (by simp [Past]) (ih (by simpa [queuedOf] using hh))
    | sendPanic h1 h2 => exact fun hh => ih (by simpa [queuedOf] using hh)
    | @closeStart t cs h1 h2 => exact fun hh => keep rfl rfl h1 (by simp [Past]) (ih (by simpa [queuedOf] using hh))
    | @closeSkip t cs h1 h2 => exact fun hh => keep rfl rfl h1 (by simp [Past]) (ih (by simpa [queuedOf] using hh))
    | @closeRequest t cs h1 h2 h3 => exact fun _ => .inl ⟨t, by simp [set_th, Past]⟩
    | requestPanic h1 h2 => exact fun hh => ih (by simpa [queuedOf] using hh)
    | @closeWait t cs h1 h2 => exact fun hh => keep rfl rfl h1 (by simp [Past]) (ih (by simpa [queuedOf] using hh))
    | @closeStore t cs h1 =>
      exact fun hh => keep (s1 := { s with closed := true }) rfl rfl h1 (by simp [Past]) (ih (by simpa [queuedOf] using hh))
    | @closeChan t cs h1 h2 => exact fun _ => .inr rfl
    | closePanic h1 h2 => exact fun hh => ih (by simpa [queuedOf] using hh)
    | begin h1 => exact fun hh => ih (by simpa [queuedOf] using hh)
    | tick h1 => exact fun hh => ih (by simpa [queuedOf] using hh)
    | @takeEvent e rest f h1 h2 h3 =>
      obtain ⟨_, _, _, _, e', g, _⟩ := handle_same cfg f { s with chan := rest } e
      rw [e', g]; exact fun hh => ih (by simpa [queuedOf] using hh)
    | takeIgnored h1 h2 h3 h4 => exact fun hh => ih (by simpa [queuedOf] using hh)
    | takePanic h1 h2 h3 h4 => exact fun hh => ih (by simpa [queuedOf] using hh)
    | takeNil h1 h2 => exact fun hh => ih (by simpa [queuedOf] using hh)
    | takeClosed h1 h2 h3 => exact fun hh => ih (by simpa [queuedOf] using hh)

/-- Without other goroutines than the worker, a `Close` whose request fits into the queue returns or panics. -/
theorem close_ends {cfg : ACfg V} {f : Formatter V} (hf : cfg.f = some f) (hsize : 1 ≤ cfg.queueSize) {prog : Nat → List (ACall V)}
    {tr0 : List (ALab V)} {s : AState V} {t : Nat} (he : AExec cfg (newAsync prog) tr0 s) (hp : s.panicked = false) (h : InClose s t) :
    ∃ tr s', AExec cfg s tr s' ∧ ((s'.th t).pc = .idle ∨ s'.panicked = true) := by
  have inv := aexec_inv he hp
  have pn : ∀ {s : AState V}, s.panicked = false → s.chanClosed = true → (s.th t).pc = .requesting ∨ (s.th t).pc = .closing →
      ∃ tr s', AExec cfg s tr s' ∧ ((s'.th t).pc = .idle ∨ s'.panicked = true) := by
    intro s hp hc h
    rcases h with h | h
    · exact ⟨_, _, .one ⟨hp, .requestPanic (t := t) (cs := (s.th t).todo) (by rw [← h]) hc⟩, .inr rfl⟩
    · exact ⟨_, _, .one ⟨hp, .closePanic (t := t) (cs := (s.th t).todo) (by rw [← h]) hc⟩, .inr rfl⟩
  -- from waiting, even if the channel is closed
  have wt : ∀ {tr1 : List (ALab V)} {s : AState V}, AExec cfg (newAsync prog) tr1 s → s.panicked = false → (s.th t).pc = .waiting →
      ∃ tr s', AExec cfg s tr s' ∧ ((s'.th t).pc = .idle ∨ s'.panicked = true) := by
    intro tr1 s he hp h
    cases hc : s.chanClosed with
    | false => obtain ⟨tr, s', a, _, b, _⟩ := finish_wait hf (aexec_inv he hp) hp hc h; exact ⟨tr, s', a, .inl b⟩
    | true =>
      have go : ∀ {s : AState V}, s.panicked = false → s.chanClosed = true → (s.th t).pc = .waiting → s.wait = 0 →
          ∃ tr s', AExec cfg s tr s' ∧ ((s'.th t).pc = .idle ∨ s'.panicked = true) := by
        intro s hp hc h hw
        have e : s.th t = { pc := .waiting, todo := (s.th t).todo } := by rw [← h]
        have st1 : AStep cfg s (.waited t) (s.set t { pc := .storing, todo := (s.th t).todo }) := ⟨hp, .closeWait e hw⟩
        have st2 : AStep cfg (s.set t { pc := .storing, todo := (s.th t).todo }) (.stored t)
            (({ s.set t { pc := .storing, todo := (s.th t).todo } with closed := true } : AState V).set t { pc := .closing, todo := (s.th t).todo }) :=
          ⟨hp, .closeStore (by simp [set_th])⟩
        obtain ⟨tr, s', a, b⟩ := pn (s := ({ s.set t { pc := .storing, todo := (s.th t).todo } with closed := true } : AState V).set t { pc := .closing, todo := (s.th t).todo })
          hp hc (.inr (by simp [set_th]))
        exact ⟨_, s', (AExec.one st1).trans ((AExec.one st2).trans a), b⟩
      have inv := aexec_inv he hp
      cases hw : s.worker with
      | starting => exact go hp hc h (by rw [inv.wait, hw]; rfl)
      | stopped => exact go hp hc h (by rw [inv.wait, hw]; rfl)
      | running =>
        have hn := inv.request (.inl ⟨t, .inl h⟩)
        rw [inv.queue] at hn
        have hn' : none ∈ s.chan := by
          rcases List.mem_append.mp hn with k | k
          · exact absurd k (inv.running hw)
          · exact k
        obtain ⟨es, rest, hes⟩ := split_none s.chan hn'
        obtain ⟨tr, s1, h1, h2, h3, h4, h5, h6, h7, h9, h8⟩ := drain hf es (none :: rest) s hp hw hes
        have hwait : s1.wait = 1 := by rw [h9, inv.wait, if_pos hw]
        have st : AStep cfg s1 (.took none) { ({ s1 with chan := rest } : AState V).flush with worker := .stopped, wait := s1.wait - 1 } := ⟨h2, .takeNil h3 h4⟩
        obtain ⟨tr', s', k1, k2⟩ := go (s := { ({ s1 with chan := rest } : AState V).flush with worker := .stopped, wait := s1.wait - 1 }) h2 (h7.trans hc)
          (by show (s1.th t).pc = _; rw [h5]; exact h) (by show s1.wait - 1 = 0; omega)
        exact ⟨_, s', h1.trans ((AExec.one st).trans k1), k2⟩
  rcases h with h | h | h | h
  · cases hc : s.chanClosed with
    | true => exact pn hp hc (.inl h)
    | false =>
      -- request into `s2`
      have req : ∀ {tr2 : List (ALab V)} {s2 : AState V}, AExec cfg s tr2 s2 → s2.panicked = false → s2.chanClosed = false → s2.th = s.th → s2.chan.length < cfg.queueSize →
          ∃ tr s', AExec cfg s tr s' ∧ ((s'.th t).pc = .idle ∨ s'.panicked = true) := by
        intro tr2 s2 hx hp2 hc2 hth hlen
        have e : s2.th t = { pc := .requesting, todo := (s.th t).todo } := by rw [hth, ← h]
        have st : AStep cfg s2 (.requested t) (({ s2 with chan := s2.chan ++ [none] } : AState V).set t { pc := .waiting, todo := (s.th t).todo }) :=
          ⟨hp2, .closeRequest e hc2 hlen⟩
        obtain ⟨tr3, s3, a, b⟩ := wt ((he.trans hx).trans (.one st)) hp2 (by simp [set_th])
        exact ⟨_, s3, hx.trans ((AExec.one st).trans a), b⟩
      by_cases hroom : s.chan.length < cfg.queueSize
      · exact req .nil hp hc rfl hroom
      · cases hw : s.worker with
        | stopped =>
          obtain ⟨pre, k, _⟩ := inv.stopped hw
          have hn : none ∈ queuedOf tr0 := by rw [inv.queue, k]; simp
          rcases request_owner he hn with ⟨u, hu⟩ | hh
          · -- let the other `Close` finish
            have hut : u ≠ t := by rintro rfl; rw [h] at hu; simp [Past] at hu
            have eu : ∃ tr1 s1, AExec cfg s tr1 s1 ∧ s1.panicked = false ∧ s1.chanClosed = true ∧ (s1.th t).pc = .requesting := by
              have e1 : ∀ {s : AState V}, s.panicked = false → s.chanClosed = false → (s.th u).pc = .closing → (s.th t).pc = .requesting →
                  ∃ tr1 s1, AExec cfg s tr1 s1 ∧ s1.panicked = false ∧ s1.chanClosed = true ∧ (s1.th t).pc = .requesting := by
                intro s hp hc hu h
                exact ⟨_, _, .one ⟨hp, .closeChan (t := u) (cs := (s.th u).todo) (by rw [← hu]) hc⟩, hp, rfl, by rw [set_th, if_neg (fun e => hut e.symm)]; exact h⟩
              have e2 : ∀ {s : AState V}, s.panicked = false → s.chanClosed = false → (s.th u).pc = .storing → (s.th t).pc = .requesting →
                  ∃ tr1 s1, AExec cfg s tr1 s1 ∧ s1.panicked = false ∧ s1.chanClosed = true ∧ (s1.th t).pc = .requesting := by
                intro s hp hc hu h
                have st : AStep cfg s (.stored u) (({ s with closed := true } : AState V).set u { pc := .closing, todo := (s.th u).todo }) := ⟨hp, .closeStore (by rw [← hu])⟩
                obtain ⟨tr1, s1, a, b, c, d⟩ := e1 (s := ({ s with closed := true } : AState V).set u { pc := .closing, todo := (s.th u).todo }) hp hc
                  (by simp [set_th]) (by rw [set_th, if_neg (fun e => hut e.symm)]; exact h)
                exact ⟨_, s1, (AExec.one st).trans a, b, c, d⟩
              rcases hu with hu | hu | hu
              · have st : AStep cfg s (.waited u) (s.set u { pc := .storing, todo := (s.th u).todo }) := ⟨hp, .closeWait (by rw [← hu]) (by rw [inv.wait, hw]; rfl)⟩
                obtain ⟨tr1, s1, a, b, c, d⟩ := e2 (s := s.set u { pc := .storing, todo := (s.th u).todo }) hp hc
                  (by simp [set_th]) (by rw [set_th, if_neg (fun e => hut e.symm)]; exact h)
                exact ⟨_, s1, (AExec.one st).trans a, b, c, d⟩
              · exact e2 hp hc hu h
              · exact e1 hp hc hu h
            obtain ⟨tr1, s1, a, b, c, d⟩ := eu
            obtain ⟨tr2, s2, a2, b2⟩ := pn b c (.inl d)
            exact ⟨_, s2, a.trans a2, b2⟩
          · rw [hc] at hh; simp at hh
        | running =>
          cases hch : s.chan with
          | nil => rw [hch] at hroom; simp at hroom; omega
          | cons x rest =>
            have hlen : rest.length < cfg.queueSize := by have := inv.size; rw [hch] at this; simp only [List.length_cons] at this; omega
            cases x with
            | none => exact req (.one ⟨hp, .takeNil hw hch⟩) hp hc rfl hlen
            | some e =>
              obtain ⟨a, b, c, d, e', g, k⟩ := handle_same cfg f { s with chan := rest } e
              exact req (.one ⟨hp, .takeEvent hw hch hf⟩) (by rw [k]; exact hp) (by rw [e']; exact hc) g (by rw [a]; exact hlen)
        | starting =>
          cases hch : s.chan with
          | nil => rw [hch] at hroom; simp at hroom; omega
          | cons x rest =>
            have hlen : rest.length < cfg.queueSize := by have := inv.size; rw [hch] at this; simp only [List.length_cons] at this; omega
            have st : AStep cfg s .begin { s with worker := .running, wait := s.wait + 1 } := ⟨hp, .begin hw⟩
            cases x with
            | none => exact req ((AExec.one st).trans (.one ⟨hp, .takeNil (s := { s with worker := .running, wait := s.wait + 1 }) rfl hch⟩)) hp hc rfl hlen
            | some e =>
              obtain ⟨a, b, c, d, e', g, k⟩ := handle_same cfg f { s with worker := .running, wait := s.wait + 1, chan := rest } e
              exact req ((AExec.one st).trans (.one ⟨hp, .takeEvent (s := { s with worker := .running, wait := s.wait + 1 }) rfl hch hf⟩))
                (by rw [k]; exact hp) (by rw [e']; exact hc) g (by rw [a]; exact hlen)
  · exact wt he hp h
  · cases hc : s.chanClosed with
    | false => obtain ⟨tr, s', a, _, c, _⟩ := finish_close (cfg := cfg) hp hc (.inl h); exact ⟨tr, s', a, .inl c⟩
    | true =>
      have st : AStep cfg s (.stored t) (({ s with closed := true } : AState V).set t { pc := .closing, todo := (s.th t).todo }) := ⟨hp, .closeStore (by rw [← h])⟩
      obtain ⟨tr, s', a, b⟩ := pn (s := ({ s with closed := true } : AState V).set t { pc := .closing, todo := (s.th t).todo }) hp hc (.inr (by simp [set_th]))
      exact ⟨_, s', (AExec.one st).trans a, b⟩
  · cases hc : s.chanClosed with
    | false => obtain ⟨tr, s', a, _, c, _⟩ := finish_close (cfg := cfg) hp hc (.inr h); exact ⟨tr, s', a, .inl c⟩
    | true => exact pn hp hc (.inr h)

end Log4g

namespace Log4g
open Spec
open scoped List
variable {V : Type}

theorem AExec.split {cfg : ACfg V} {s s'' : AState V} {a b : List (ALab V)} (h : AExec cfg s (a ++ b) s'') :
    ∃ s', AExec cfg s a s' ∧ AExec cfg s' b s'' := by
  generalize hx : a ++ b = tr at h
  induction h generalizing b with
  | nil =>
    have := List.append_eq_nil_iff.mp hx
    rw [this.1, this.2]; exact ⟨_, .nil, .nil⟩
  | @snoc tr s' l s'' he hs ih =>
    rcases List.eq_nil_or_concat b with rfl | ⟨b', l', rfl⟩
    · rw [List.append_nil] at hx
      rw [hx]; exact ⟨_, .snoc he hs, .nil⟩
    · rw [List.concat_eq_append, ← List.append_assoc] at hx
      rw [List.concat_eq_append]
      obtain ⟨h1, h2⟩ := List.append_inj' hx rfl
      obtain ⟨s1, h3, h4⟩ := ih h1
      injection h2 with h2
      subst h2
      exact ⟨s1, h3, .snoc h4 hs⟩

/-- A goroutine has got past `Wait`. -/
def Waited (s : AState V) : Prop := (∃ t, (s.th t).pc = .storing ∨ (s.th t).pc = .closing) ∨ s.closed = true

theorem waited_stopped {cfg : ACfg V} {s0 s : AState V} {tr0 tr : List (ALab V)} (hinv : AInv cfg tr0 s0) (h : AExec cfg s0 tr s)
    (hw : s0.worker ≠ .starting) (hn : ¬ Waited s0) (hp : s.panicked = false) :
    s.worker ≠ .starting ∧ (Waited s → s.worker = .stopped) ∧ AInv cfg (tr0 ++ tr) s := by
  induction h with
  | nil => exact ⟨hw, fun hh => absurd hh hn, by simpa using hinv⟩
  | @snoc tr s l s' he hs ih =>
    obtain ⟨i1, i2, i3⟩ := ih hs.1
    have inv' := ainv_step i3 hs.2 hp
    rw [List.append_assoc] at inv'
    have keep : ∀ {s1 : AState V} {t : Nat} {y : Thread V}, s1.th = s.th → s1.closed = s.closed → y.pc ≠ .storing → y.pc ≠ .closing →
        Waited (s1.set t y) → Waited s := by
      rintro s1 t y e1 e2 h1 h2 (⟨u, hu⟩ | hu)
      · rw [set_th] at hu
        split at hu
        · rcases hu with hu | hu
          · exact absurd hu h1
          · exact absurd hu h2
        · rw [e1] at hu; exact .inl ⟨u, hu⟩
      · exact .inr (e2 ▸ hu)
    refine ⟨?_, ?_, inv'⟩
    · cases hs.2 with
      | takeEvent _ _ _ => rw [(handle_same cfg _ _ _).2.1]; exact i1
      | begin _ => simp
      | takeNil _ _ => simp
      | takeClosed _ _ _ => simp
      | takePanic _ _ _ _ => exact i1
      | takeIgnored _ _ _ _ => exact i1
      | tick _ => exact i1
      | _ => exact i1
    · cases hs.2 with
      | sendStart _ _ => exact fun hh => i2 (keep rfl rfl (by simp) (by simp) hh)
      | sendSkip _ _ => exact fun hh => i2 (keep rfl rfl (by simp) (by simp) hh)
      | @sendQueue t e cs h1 h2 h3 => exact fun hh => i2 (keep (s1 := { s with chan := s.chan ++ [some e] }) rfl rfl (by simp) (by simp) hh)
      | sendPanic _ _ => exact i2
      | closeStart _ _ => exact fun hh => i2 (keep rfl rfl (by simp) (by simp) hh)
      | closeSkip _ _ => exact fun hh => i2 (keep rfl rfl (by simp) (by simp) hh)
      | @closeRequest t cs h1 h2 h3 => exact fun hh => i2 (keep (s1 := { s with chan := s.chan ++ [none] }) rfl rfl (by simp) (by simp) hh)
      | requestPanic _ _ => exact i2
      | @closeWait t cs h1 h2 =>
        intro _
        show s.worker = .stopped
        have := i3.wait
        rw [h2] at this
        cases hws : s.worker with
        | starting => exact absurd hws i1
        | running => rw [hws] at this; simp at this
        | stopped => rfl
      | @closeStore t cs h1 => exact fun _ => i2 (.inl ⟨t, by rw [h1]; exact .inl rfl⟩)
      | @closeChan t cs h1 h2 => exact fun _ => i2 (.inl ⟨t, by rw [h1]; exact .inr rfl⟩)
      | closePanic _ _ => exact i2
      | begin h1 => exact absurd h1 i1
      | tick _ => exact i2
      | @takeEvent e rest f h1 h2 h3 =>
        obtain ⟨_, b, _, d, _, g, _⟩ := handle_same cfg f { s with chan := rest } e
        rw [Waited, g, d, b]; exact i2
      | takeIgnored _ _ _ _ => exact i2
      | takePanic _ _ _ _ => exact i2
      | takeNil _ _ => exact fun _ => rfl
      | takeClosed _ _ _ => exact fun _ => rfl

theorem begun {cfg : ACfg V} {s0 s : AState V} {tr : List (ALab V)} (h : AExec cfg s0 tr s) : s0.worker ≠ .starting ∨ .begin ∈ tr → s.worker ≠ .starting := by
  induction h with
  | nil => simp
  | @snoc tr s l s' he hs ih =>
    intro hh
    have hh' : (s0.worker ≠ .starting ∨ .begin ∈ tr) ∨ l = .begin := by
      rcases hh with hh | hh
      · exact .inl (.inl hh)
      · rcases List.mem_append.mp hh with hh | hh
        · exact .inl (.inr hh)
        · exact .inr (by simpa using hh : ALab.begin = l).symm
    rcases hh' with hh | hh
    · have i1 := ih hh
      cases hs.2 with
      | takeEvent _ _ _ => rw [(handle_same cfg _ _ _).2.1]; exact i1
      | begin _ => simp
      | takeNil _ _ => simp
      | takeClosed _ _ _ => simp
      | _ => exact i1
    · subst hh
      cases hs.2 with
      | begin _ => simp

theorem not_begun {cfg : ACfg V} {prog : Nat → List (ACall V)} {tr : List (ALab V)} {s : AState V} (h : AExec cfg (newAsync prog) tr s)
    (hb : .begin ∉ tr) : s.worker = .starting ∧ s.writes = [] := by
  generalize h0 : newAsync prog = s0 at h
  induction h with
  | nil => subst h0; exact ⟨rfl, rfl⟩
  | @snoc tr s l s' he hs ih =>
    obtain ⟨i1, i2⟩ := ih (fun hm => hb (List.mem_append_left _ hm))
    cases hs.2 with
    | begin _ => exact absurd (by simp) hb
    | tick hr => rw [i1] at hr; cases hr
    | takeEvent hr _ _ => rw [i1] at hr; cases hr
    | takeIgnored hr _ _ _ => rw [i1] at hr; cases hr
    | takePanic hr _ _ _ => rw [i1] at hr; cases hr
    | takeNil hr _ => rw [i1] at hr; cases hr
    | takeClosed hr _ _ => rw [i1] at hr; cases hr
    | _ => exact ⟨i1, i2⟩

/-- Nobody gets past `Wait` but by waiting. -/
theorem waited_mem {cfg : ACfg V} {prog : Nat → List (ACall V)} {tr : List (ALab V)} {s : AState V} (h : AExec cfg (newAsync prog) tr s)
    (hw : Waited s) : ∃ t, .waited t ∈ tr := by
  generalize h0 : newAsync prog = s0 at h
  induction h with
  | nil =>
    subst h0
    rcases hw with ⟨t, ht | ht⟩ | ht <;> cases ht
  | @snoc tr s l s' he hs ih =>
    have old : Waited s → ∃ t, .waited t ∈ tr ++ [l] := fun k => (ih k).imp fun t ht => List.mem_append_left _ ht
    have keep : ∀ {s1 : AState V} {t : Nat} {y : Thread V}, s1.th = s.th → s1.closed = s.closed → y.pc ≠ .storing → y.pc ≠ .closing →
        Waited (s1.set t y) → Waited s := by
      rintro s1 t y e1 e2 h1 h2 (⟨u, hu⟩ | hu)
      · rw [set_th] at hu
        split at hu
        · rcases hu with hu | hu
          · exact absurd hu h1
          · exact absurd hu h2
        · rw [e1] at hu; exact .inl ⟨u, hu⟩
      · exact .inr (e2 ▸ hu)
    cases hs.2 with
    | sendStart _ _ => exact old (keep rfl rfl (by simp) (by simp) hw)
    | sendSkip _ _ => exact old (keep rfl rfl (by simp) (by simp) hw)
    | @sendQueue t e cs h1 h2 h3 => exact old (keep (s1 := { s with chan := s.chan ++ [some e] }) rfl rfl (by simp) (by simp) hw)
    | sendPanic _ _ => exact old hw
    | closeStart _ _ => exact old (keep rfl rfl (by simp) (by simp) hw)
    | closeSkip _ _ => exact old (keep rfl rfl (by simp) (by simp) hw)
    | @closeRequest t cs h1 h2 h3 => exact old (keep (s1 := { s with chan := s.chan ++ [none] }) rfl rfl (by simp) (by simp) hw)
    | requestPanic _ _ => exact old hw
    | @closeWait t cs h1 h2 => exact ⟨t, by simp⟩
    | @closeStore t cs h1 => exact old (.inl ⟨t, by rw [h1]; exact .inl rfl⟩)
    | @closeChan t cs h1 h2 => exact old (.inl ⟨t, by rw [h1]; exact .inr rfl⟩)
    | closePanic _ _ => exact old hw
    | begin h1 => exact old hw
    | tick _ => exact old hw
    | @takeEvent e rest f h1 h2 h3 =>
      obtain ⟨_, b, _, d, _, g, _⟩ := handle_same cfg f { s with chan := rest } e
      rw [Waited, g, d] at hw; exact old hw
    | takeIgnored _ _ _ _ => exact old hw
    | takePanic _ _ _ _ => exact old hw
    | takeNil _ _ => exact old hw
    | takeClosed _ _ _ => exact old hw

/-- What happens at all happens a first time. -/
theorem first_split {α : Type _} {P : α → Prop} : ∀ {l : List α}, (∃ z, z ∈ l ∧ P z) → ∃ x z y, l = x ++ z :: y ∧ P z ∧ ∀ w, w ∈ x → ¬ P w
  | [], h => by obtain ⟨_, h, _⟩ := h; cases h
  | a :: l, h => by
    by_cases ha : P a
    · exact ⟨[], a, l, rfl, ha, by simp⟩
    · have h' : ∃ z, z ∈ l ∧ P z := by
        obtain ⟨z, hz, hp⟩ := h
        rcases List.mem_cons.mp hz with rfl | hz
        · exact absurd hp ha
        · exact ⟨z, hz, hp⟩
      obtain ⟨x, z, y, rfl, hp, hx⟩ := first_split h'
      refine ⟨a :: x, z, y, rfl, hp, fun w hw => ?_⟩
      rcases List.mem_cons.mp hw with rfl | hw
      · exact ha
      · exact hx w hw

/-- A worker that had begun before anyone waited. -/
theorem begunFirst_of {a b : List (ALab V)} (hb : .begin ∈ a) (hn : ∀ t, .waited t ∉ a) : BegunFirst (a ++ b) := by
  intro x t y e
  rcases List.append_eq_append_iff.mp e with ⟨c, rfl, _⟩ | ⟨c, rfl, hc⟩
  · exact List.mem_append_left _ hb
  · cases c with
    | nil => simpa using hb
    | cons z c =>
      simp only [List.cons_append, List.cons.injEq] at hc
      obtain ⟨rfl, _⟩ := hc
      exact absurd (by simp) (hn t)

/-- With a stopped worker, everything queued before the first request has been written. -/
theorem stopped_written {cfg : ACfg V} {f : Formatter V} (hf : cfg.f = some f) {prog : Nat → List (ACall V)} {tr : List (ALab V)} {s : AState V}
    (h : AExec cfg (newAsync prog) tr s) (hp : s.panicked = false) (hw : s.worker = .stopped) :
    ∃ (es : List (Event V)) (post : List (Option (Event V))), queuedOf tr = es.map some ++ none :: post ∧ takenOf tr = es.map some ++ [none] ∧
      s.writes.flatten = (accepted cfg.t es).flatMap f := by
  have inv := aexec_inv h hp
  obtain ⟨pre, h1, h2⟩ := inv.stopped hw
  obtain ⟨es, rfl⟩ := all_some pre h2
  obtain ⟨a, b, bi⟩ := aexec_binv hf h
  have hb := bi.idle (by simp [hw])
  subst hb
  have := bi.split
  rw [h1, eventsOf_append] at this
  refine ⟨es, s.chan, by rw [inv.queue, h1]; simp, h1, ?_⟩
  rw [bi.writes]
  congr 1
  simp only [eventsOf, List.filterMap_map, List.filterMap_cons, List.filterMap_nil, List.append_nil, id] at this
  have e2 : List.filterMap (id ∘ some) es = es := by
    have : (id ∘ some : Event V → Option (Event V)) = some := rfl
    rw [this]; exact List.filterMap_some
  rw [e2] at this
  exact this.symm

/-- What comes first in front of the first request. -/
theorem prefix_before {xs ys : List (Option (Event V))} {es : List (Event V)} {post : List (Option (Event V))} (hx : none ∉ xs)
    (h : xs ++ ys = es.map some ++ none :: post) : ∃ zs, es.map some = xs ++ zs := by
  rcases List.append_eq_append_iff.mp h with ⟨as, h1, h2⟩ | ⟨as, h1, h2⟩
  · exact ⟨as, h1⟩
  · cases as with
    | nil => exact ⟨[], by simpa using h1.symm⟩
    | cons x xs' =>
      injection h2 with h3 h4
      rw [← h3] at h1
      rw [h1] at hx; simp at hx

theorem none_accepted {cfg : ACfg V} (hf : cfg.f = none) {prog : Nat → List (ACall V)} {tr : List (ALab V)} {s : AState V}
    (h : AExec cfg (newAsync prog) tr s) : accepted cfg.t (eventsOf (takenOf tr)) = [] ∧ s.buf = [] ∧ s.writes.flatten = [] := by
  generalize h0 : newAsync prog = s0 at h
  induction h with
  | nil => subst h0; exact ⟨rfl, rfl, rfl⟩
  | @snoc tr s l s' he hs ih =>
    subst h0
    obtain ⟨i1, i2, i3⟩ := ih
    rw [takenOf_append, eventsOf_append, accepted_append, i1, List.nil_append]
    cases hs.2 with
    | tick _ => exact ⟨rfl, rfl, by simp [AState.flush, i2, i3]⟩
    | takeEvent _ _ h3 => rw [hf] at h3; simp at h3
    | @takeIgnored e rest h1 h2 h3 h4 => exact ⟨by simp [takenOf, eventsOf, accepted]; exact h4, i2, i3⟩
    | takeNil _ _ => exact ⟨rfl, rfl, by simp [AState.flush, i2, i3]⟩
    | takeClosed _ _ _ => exact ⟨rfl, rfl, by simp [AState.flush, i2, i3]⟩
    | _ => exact ⟨rfl, i2, i3⟩

theorem base_sends (lib : Lib V) (o : BaseOutput V) (es : List (Event V)) :
    (es.foldl (BaseOutput.send lib) o).w = o.w ++ (accepted o.t es).map (textOf lib o.f) ∧
    (es.foldl (BaseOutput.send lib) o).f = o.f ∧ (es.foldl (BaseOutput.send lib) o).t = o.t := by
  induction es generalizing o with
  | nil => simp [accepted]
  | cons e es ih =>
    have hs : (o.send lib e).f = o.f ∧ (o.send lib e).t = o.t ∧ (o.send lib e).w = o.w ++ (accepted o.t [e]).map (textOf lib o.f) := by
      simp only [BaseOutput.send]
      by_cases hl : e.level < o.t
      · have hl' : ¬ o.t ≤ e.level := Int.not_le.mpr hl
        simp [hl, accepted, hl']
      · have hl' : o.t ≤ e.level := Int.not_lt.mp hl
        rw [if_neg hl]
        cases hf : o.f with
        | some f => simp [accepted, hl', textOf]
        | none => simp [accepted, hl', textOf, defaultFormat, defaultLayout, defaultTimeLayout, bytes_eq, longName_eq, messageText_eq]
    obtain ⟨a, b, c⟩ := ih (o.send lib e)
    rw [List.foldl_cons]
    refine ⟨?_, b.trans hs.1, c.trans hs.2.1⟩
    rw [a, hs.1, hs.2.1, hs.2.2, List.append_assoc, ← List.map_append, ← accepted_append]
    rfl

/-- The last step. -/
theorem AExec.last {cfg : ACfg V} {s s'' : AState V} {tr : List (ALab V)} {l : ALab V} (h : AExec cfg s (tr ++ [l]) s'') :
    ∃ s', AExec cfg s tr s' ∧ AStep cfg s' l s'' := by
  generalize hx : tr ++ [l] = tr' at h
  cases h with
  | nil => simp at hx
  | snoc h hs =>
    obtain ⟨rfl, h2⟩ := List.append_inj' hx rfl
    injection h2 with h2
    subst h2
    exact ⟨_, h, hs⟩

/-- The first step. -/
theorem AExec.first {cfg : ACfg V} {s s'' : AState V} {tr : List (ALab V)} {l : ALab V} (h : AExec cfg s (l :: tr) s'') :
    ∃ s', AStep cfg s l s' ∧ AExec cfg s' tr s'' := by
  obtain ⟨s', h1, h2⟩ := AExec.split (a := [l]) (b := tr) h
  obtain ⟨s0, h3, h4⟩ := AExec.last (tr := []) h1
  generalize hx : ([] : List (ALab V)) = e at h3
  cases h3 with
  | nil => exact ⟨s', h4, h2⟩
  | snoc _ _ => simp at hx

/-- There is no step after a panic. -/
theorem AExec.sound {cfg : ACfg V} {s s' : AState V} {tr : List (ALab V)} (h : AExec cfg s tr s') (hp : s'.panicked = false) :
    s.panicked = false := by
  induction h with
  | nil => exact hp
  | snoc _ hs ih => exact ih hs.1

/-- Once a `Close` has returned no call finds the output open. -/
theorem no_start {cfg : ACfg V} {prog : Nat → List (ACall V)} {a b : List (ALab V)} {s : AState V} (h : AExec cfg (newAsync prog) (a ++ b) s)
    (hc : CloseReturned a) (t : Nat) (c : ACall V) : .start t c ∉ b := by
  intro hm
  obtain ⟨b1, b2, rfl⟩ := List.append_of_mem hm
  rw [← List.append_assoc] at h
  obtain ⟨s1, h1, h2⟩ := h.split
  have hcl : s1.closed = true := by
    refine closed_of_returned (aexec_closeinv h1) ?_
    obtain ⟨u, hu⟩ := hc
    exact ⟨u, hu.imp (fun x => List.mem_append_left _ x) (fun x => List.mem_append_left _ x)⟩
  obtain ⟨s2, hs, _⟩ := h2.first
  have hs2 := hs.2
  cases hs2 with
  | sendStart _ hn => rw [hcl] at hn; simp at hn
  | closeStart _ hn => rw [hcl] at hn; simp at hn

/-- If a worker that had begun was waited for, it has stopped. -/
theorem begun_stopped {cfg : ACfg V} {prog : Nat → List (ACall V)} {tr : List (ALab V)} {s : AState V} (h : AExec cfg (newAsync prog) tr s)
    (hp : s.panicked = false) (hb : BegunFirst tr) (hw : Waited s) : s.worker = .stopped := by
  obtain ⟨t, ht⟩ := waited_mem h hw
  obtain ⟨x, z, y, rfl, ⟨u, rfl⟩, hx⟩ := first_split (P := fun l : ALab V => ∃ t, l = .waited t) ⟨_, ht, t, rfl⟩
  have hbx := hb x u y rfl
  obtain ⟨s1, h1, h2⟩ := h.split
  refine (waited_stopped (aexec_inv h1 (h2.sound hp)) h2 (begun h1 (.inr hbx)) (fun k => ?_) hp).2.1 hw
  obtain ⟨v, hv⟩ := waited_mem h1 k
  exact hx _ hv ⟨v, rfl⟩

end Log4g
