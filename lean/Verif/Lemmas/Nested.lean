import Verif.Spec.Nested
import Verif.Lemmas.Mutable

/-! # Helpers for C106 -/

namespace Log4g
open Spec
variable {V : Type} {cfg : ACfg V} {says : Event V → List (Event V)}

theorem enqueued_append (a b : List (NestLab V)) : enqueued (a ++ b) = enqueued a ++ enqueued b := by
  induction a with
  | nil => rfl
  | cons l a ih =>
    cases l with
    | out l => cases l <;> simp [enqueued, ih]
    | _ => simp [enqueued, ih]

theorem begunOf_append (a b : List (NestLab V)) : begunOf (a ++ b) = begunOf a ++ begunOf b := by
  induction a with
  | nil => rfl
  | cons l a ih => cases l <;> simp [begunOf, ih]

theorem innerOf_append (a b : List (NestLab V)) : innerOf (a ++ b) = innerOf a ++ innerOf b := by
  induction a with
  | nil => rfl
  | cons l a ih => cases l <;> simp [innerOf, ih]

theorem fromOutside_append (a b : List (NestLab V)) : fromOutside (a ++ b) = fromOutside a ++ fromOutside b := by
  induction a with
  | nil => rfl
  | cons l a ih => cases l <;> simp [fromOutside, ih]

/-- What has been written, and where everything that was queued is. -/
structure NestInv (cfg : ACfg V) (f : Formatter V) (says : Event V → List (Event V)) (tr : List (NestLab V)) (s : NestState V) (done : List (Event V)) : Prop where
  text : s.a.writes.flatten ++ s.a.buf = (accepted cfg.t done).flatMap f
  queue : enqueued tr = done ++ (s.fm.map (·.evt)).toList ++ eventsOf s.a.chan
  begun : begunOf tr = accepted cfg.t done ++ (s.fm.map (·.evt)).toList
  above : ∀ x, s.fm = some x → cfg.t ≤ x.evt.level
  inner : (begunOf tr).flatMap says = innerOf tr ++ (s.fm.map (·.todo)).getD []

theorem enqueued_out (l : ALab V) : enqueued [.out l] = eventsOf (queuedOf [l]) := by cases l <;> rfl

theorem taken_other {l : ALab V} (h : l.ofWorker = false) : takenOf [l] = [] := by cases l <;> first | rfl | cases h

theorem handle_chan (cfg : ACfg V) (f : Formatter V) (s : AState V) (e : Event V) : (s.handle cfg f e).chan = s.chan := by
  simp only [AState.handle]; split
  · split <;> rfl
  · rfl

theorem handle_text {cfg : ACfg V} (f : Formatter V) (s : AState V) {e : Event V} (h : cfg.t ≤ e.level) :
    (s.handle cfg f e).writes.flatten ++ (s.handle cfg f e).buf = s.writes.flatten ++ s.buf ++ f e := by
  simp only [AState.handle, h, if_true]; split <;> simp [AState.flush]

theorem nest_inv {f : Formatter V} (hf : cfg.f = some f) {prog : Nat → List (ACall V)} {tr : List (NestLab V)} {s : NestState V}
    (h : NestExec cfg says ⟨newAsync prog, none⟩ tr s) : ∃ done, NestInv cfg f says tr s done := by
  generalize h0 : (⟨newAsync prog, none⟩ : NestState V) = s0 at h
  induction h with
  | nil => subst h0; exact ⟨[], rfl, rfl, rfl, (by intro x h; cases h), rfl⟩
  | @snoc tr s' l s'' _ hst ih =>
    obtain ⟨done, i1, i2, i3, i4, i5⟩ := ih
    cases hst with
    | @out l a hs hw hl =>
      obtain ⟨e1, e2⟩ := act_effect hf hs.2
      have hb : begunOf (tr ++ [.out l]) = begunOf tr := by rw [begunOf_append]; simp [begunOf]
      have hi : innerOf (tr ++ [.out l]) = innerOf tr := by rw [innerOf_append]; simp [innerOf]
      have hacc : accepted cfg.t (eventsOf (takenOf [l])) = [] := by
        cases l with
        | took x =>
          cases x with
          | none => rfl
          | some e => simp [takenOf, eventsOf, accepted, Int.not_le.mpr (hl e rfl)]
        | _ => rfl
      refine ⟨done ++ eventsOf (takenOf [l]), ?_, ?_, ?_, i4, ?_⟩
      · rw [e1, i1, accepted_append, hacc]; simp
      · rw [enqueued_append, enqueued_out, i2]
        cases hfm : s'.fm with
        | none => simp only [Option.map_none, Option.toList_none, List.append_nil, List.append_assoc, e2]
        | some x =>
          have hn : l.ofWorker = false := by
            cases hlw : l.ofWorker with
            | false => rfl
            | true => rw [hw hlw] at hfm; cases hfm
          rw [taken_other hn] at e2 ⊢
          have e3 : eventsOf s'.a.chan ++ eventsOf (queuedOf [l]) = eventsOf a.chan := by simpa [eventsOf] using e2
          simp only [List.append_assoc, e3]
          simp [eventsOf]
      · rw [hb, accepted_append, hacc, List.append_nil]; exact i3
      · rw [hb, hi]; exact i5
    | @format e rest f' hp hfm hw hc hf' ht =>
      refine ⟨done, i1, ?_, ?_, ?_, ?_⟩
      · rw [enqueued_append, i2, hfm, hc]; simp [enqueued, eventsOf]
      · rw [begunOf_append, i3, hfm]; simp [begunOf]
      · intro x hx; cases hx; exact ht
      · rw [begunOf_append, List.flatMap_append, i5, hfm, innerOf_append]; simp [begunOf, innerOf]
    | @inner e x xs hp hfm hc =>
      rw [hfm] at i2 i3 i5
      refine ⟨done, i1, ?_, ?_, ?_, ?_⟩
      · rw [enqueued_append, i2]; simp [enqueued]
      · rw [begunOf_append, i3]; simp [begunOf]
      · intro y hy; cases hy; have := i4 _ hfm; exact this
      · rw [begunOf_append, innerOf_append]; simpa [begunOf, innerOf] using i5
    | @dropped e x xs hp hfm hc =>
      rw [hfm] at i2 i3 i5
      refine ⟨done, i1, ?_, ?_, ?_, ?_⟩
      · rw [enqueued_append, i2]; simp [enqueued]
      · rw [begunOf_append, i3]; simp [begunOf]
      · intro y hy; cases hy; have := i4 _ hfm; exact this
      · rw [begunOf_append, innerOf_append]; simpa [begunOf, innerOf] using i5
    | @queued e x xs hp hfm hc hl =>
      rw [hfm] at i2 i3 i5
      refine ⟨done, i1, ?_, ?_, ?_, ?_⟩
      · rw [enqueued_append, i2]; simp [enqueued, eventsOf]
      · rw [begunOf_append, i3]; simp [begunOf]
      · intro y hy; cases hy; have := i4 _ hfm; exact this
      · rw [begunOf_append, innerOf_append]; simpa [begunOf, innerOf] using i5
    | @panic e x xs hp hfm hc =>
      refine ⟨done, i1, ?_, ?_, i4, ?_⟩
      · rw [enqueued_append, i2]; simp [enqueued]
      · rw [begunOf_append, i3]; simp [begunOf]
      · rw [begunOf_append, innerOf_append]; simpa [begunOf, innerOf] using i5
    | @formatted e f' hp hfm hf' =>
      have : f' = f := by rw [hf] at hf'; exact (Option.some.inj hf').symm
      subst this
      have ht : cfg.t ≤ e.level := i4 _ hfm
      have ha : accepted cfg.t (done ++ [e]) = accepted cfg.t done ++ [e] := by simp [accepted, ht]
      rw [hfm] at i2 i3 i5
      refine ⟨done ++ [e], ?_, ?_, ?_, (by intro y hy; cases hy), ?_⟩
      · rw [handle_text f' _ ht, i1, ha]; simp
      · rw [enqueued_append, i2, handle_chan]; simp [enqueued]
      · rw [begunOf_append, i3, ha]; simp [begunOf]
      · rw [begunOf_append, innerOf_append]; simpa [begunOf, innerOf] using i5

/-- Before a `Close` is done waiting. -/
structure Unwaited (s : NestState V) : Prop where
  closed : s.a.closed = false
  chan : s.a.chanClosed = false
  pcs : ∀ t, (s.a.th t).pc ≠ .storing ∧ (s.a.th t).pc ≠ .closing
  running : s.a.worker = .running → s.a.wait ≠ 0
  fm : s.fm ≠ none → s.a.worker = .running

theorem handle_rest (cfg : ACfg V) (f : Formatter V) (s : AState V) (e : Event V) :
    (s.handle cfg f e).closed = s.closed ∧ (s.handle cfg f e).chanClosed = s.chanClosed ∧ (s.handle cfg f e).th = s.th ∧
    (s.handle cfg f e).worker = s.worker ∧ (s.handle cfg f e).wait = s.wait ∧ (s.handle cfg f e).panicked = s.panicked := by
  simp only [AState.handle]; split
  · split <;> exact ⟨rfl, rfl, rfl, rfl, rfl, rfl⟩
  · exact ⟨rfl, rfl, rfl, rfl, rfl, rfl⟩

theorem unwaited_step {s s' : NestState V} {l : NestLab V} (u : Unwaited s) (h : NestStep cfg says s l s') (hl : ∀ t, l ≠ .out (.waited t)) :
    Unwaited s' := by
  obtain ⟨u1, u2, u3, u4, u5⟩ := u
  cases h with
  | @out l a hs hw hlow =>
    have pcs : ∀ {s1 : AState V} {t : Nat} {x : Thread V}, s1.th = s.a.th → x.pc ≠ .storing → x.pc ≠ .closing →
        ∀ t', ((s1.set t x).th t').pc ≠ .storing ∧ ((s1.set t x).th t').pc ≠ .closing := by
      intro s1 t x h1 h2 h3 t'
      rw [set_th]; split
      · exact ⟨h2, h3⟩
      · rw [h1]; exact u3 t'
    have hno : ∀ {x : NestState V}, x = s → l.ofWorker = true → s.fm = none := fun _ h => hw h
    cases hs.2 with
    | sendStart h1 h2 => exact ⟨u1, u2, pcs rfl (by simp) (by simp), u4, u5⟩
    | sendSkip h1 h2 => exact ⟨u1, u2, pcs rfl (by simp) (by simp), u4, u5⟩
    | sendQueue h1 h2 h3 => exact ⟨u1, u2, pcs rfl (by simp) (by simp), u4, u5⟩
    | sendPanic h1 h2 => exact ⟨u1, u2, u3, u4, u5⟩
    | closeStart h1 h2 => exact ⟨u1, u2, pcs rfl (by simp) (by simp), u4, u5⟩
    | closeSkip h1 h2 => exact ⟨u1, u2, pcs rfl (by simp) (by simp), u4, u5⟩
    | closeRequest h1 h2 h3 => exact ⟨u1, u2, pcs rfl (by simp) (by simp), u4, u5⟩
    | requestPanic h1 h2 => exact ⟨u1, u2, u3, u4, u5⟩
    | @closeWait t cs h1 h2 => exact absurd rfl (hl t)
    | @closeStore t cs h1 => exact absurd (by rw [h1]) (u3 t).1
    | @closeChan t cs h1 h2 => exact absurd (by rw [h1]) (u3 t).2
    | closePanic h1 h2 => exact ⟨u1, u2, u3, u4, u5⟩
    | begin h1 => exact ⟨u1, u2, u3, fun _ => Nat.succ_ne_zero _, fun h => absurd (hw rfl) h⟩
    | tick h1 => exact ⟨u1, u2, u3, u4, u5⟩
    | takeEvent h1 h2 h3 =>
      obtain ⟨k1, k2, k3, k4, k5, _⟩ := handle_rest cfg _ { s.a with chan := _ } _
      exact ⟨by rw [k1]; exact u1, by rw [k2]; exact u2, by rw [k3]; exact u3, by rw [k4, k5]; exact u4, by rw [k4]; exact u5⟩
    | takeIgnored h1 h2 h3 h4 => exact ⟨u1, u2, u3, u4, u5⟩
    | takePanic h1 h2 h3 h4 => exact ⟨u1, u2, u3, u4, u5⟩
    | takeNil h1 h2 => exact ⟨u1, u2, u3, (by intro h; cases h), fun h => absurd (hw rfl) h⟩
    | takeClosed h1 h2 h3 => exact ⟨u1, u2, u3, (by intro h; cases h), fun h => absurd (hw rfl) h⟩
  | format hp hfm hw hc hf ht => exact ⟨u1, u2, u3, u4, fun _ => hw⟩
  | inner hp hfm hc => exact ⟨u1, u2, u3, u4, fun _ => u5 (by rw [hfm]; simp)⟩
  | dropped hp hfm hc => exact ⟨u1, u2, u3, u4, fun _ => u5 (by rw [hfm]; simp)⟩
  | queued hp hfm hc hl => exact ⟨u1, u2, u3, u4, fun _ => u5 (by rw [hfm]; simp)⟩
  | panic hp hfm hc => exact ⟨u1, u2, u3, u4, u5⟩
  | @formatted e f hp hfm hf =>
    obtain ⟨k1, k2, k3, k4, k5, _⟩ := handle_rest cfg f s.a e
    exact ⟨by rw [k1]; exact u1, by rw [k2]; exact u2, by rw [k3]; exact u3, by rw [k4, k5]; exact u4, fun h => absurd rfl h⟩

theorem unwaited {prog : Nat → List (ACall V)} {tr : List (NestLab V)} {s : NestState V}
    (h : NestExec cfg says ⟨newAsync prog, none⟩ tr s) (hn : NotWaited tr) : Unwaited s := by
  generalize h0 : (⟨newAsync prog, none⟩ : NestState V) = s0 at h
  induction h with
  | nil =>
    subst h0
    exact ⟨rfl, rfl, fun _ => by simp [newAsync], (by intro h; cases h), (by intro h; exact absurd rfl h)⟩
  | @snoc tr s' l s'' _ hst ih =>
    exact unwaited_step (ih fun t ht => hn t (by simp [ht])) hst fun t e => hn t (by simp [e])

/-- The worker stands before its own full queue. -/
structure Jammed (cfg : ACfg V) (s : NestState V) (x : Formatting V) : Prop where
  un : Unwaited s
  fm : s.fm = some x
  sending : x.sending = true
  full : cfg.queueSize ≤ s.a.chan.length

theorem jammed_step {s s' : NestState V} {l : NestLab V} {x : Formatting V} (j : Jammed cfg s x) (h : NestStep cfg says s l s') :
    Jammed cfg s' x ∧ s'.a.writes = s.a.writes ∧ s'.a.chan = s.a.chan ∧ s'.a.panicked = false ∧ ¬ GetsOn l := by
  obtain ⟨⟨u1, u2, u3, u4, u5⟩, j2, j3, j4⟩ := j
  have hrun : s.a.worker = .running := u5 (by rw [j2]; simp)
  have hl : ∀ t, l ≠ .out (.waited t) := by
    rintro t rfl
    cases h with
    | @out _ a hs hw hlow =>
      cases hs.2 with
      | closeWait h1 h2 => exact u4 hrun h2
  have un := unwaited_step ⟨u1, u2, u3, u4, u5⟩ h hl
  cases h with
  | @out l a hs hw hlow =>
    have hn : l.ofWorker = false := by
      cases hlw : l.ofWorker with
      | false => rfl
      | true => rw [hw hlw] at j2; cases j2
    have hp := hs.1
    cases hs.2 with
    | sendStart h1 h2 => exact ⟨⟨un, j2, j3, j4⟩, rfl, rfl, hp, id⟩
    | sendSkip h1 h2 => rw [u1] at h2; cases h2
    | sendQueue h1 h2 h3 => exact absurd h3 (Nat.not_lt.mpr j4)
    | sendPanic h1 h2 => rw [u2] at h2; cases h2
    | closeStart h1 h2 => exact ⟨⟨un, j2, j3, j4⟩, rfl, rfl, hp, id⟩
    | closeSkip h1 h2 => rw [u1] at h2; cases h2
    | closeRequest h1 h2 h3 => exact absurd h3 (Nat.not_lt.mpr j4)
    | requestPanic h1 h2 => rw [u2] at h2; cases h2
    | @closeWait t cs h1 h2 => exact absurd rfl (hl t)
    | @closeStore t cs h1 => exact absurd (by rw [h1]) (u3 t).1
    | @closeChan t cs h1 h2 => exact absurd (by rw [h1]) (u3 t).2
    | @closePanic t cs h1 h2 => rw [u2] at h2; cases h2
    | _ => cases hn
  | format hp hfm hw hc hf ht => rw [hfm] at j2; cases j2
  | inner hp hfm hc => rw [hfm] at j2; cases j2; cases j3
  | dropped hp hfm hc => rw [hfm] at j2; cases j2; cases j3
  | queued hp hfm hc hl' => exact absurd hl' (Nat.not_lt.mpr j4)
  | panic hp hfm hc => rw [u2] at hc; cases hc
  | formatted hp hfm hf => rw [hfm] at j2; cases j2; cases j3

theorem jammed_exec {s s' : NestState V} {tr : List (NestLab V)} {x : Formatting V} (j : Jammed cfg s x) (h : NestExec cfg says s tr s') :
    Jammed cfg s' x ∧ s'.a.writes = s.a.writes ∧ s'.a.chan = s.a.chan ∧ ∀ l ∈ tr, ¬ GetsOn l := by
  induction h with
  | nil => exact ⟨j, rfl, rfl, by simp⟩
  | @snoc tr s1 l s2 _ hst ih =>
    obtain ⟨i1, i2, i3, i4⟩ := ih
    obtain ⟨k1, k2, k3, _, k4⟩ := jammed_step i1 hst
    refine ⟨k1, k2.trans i2, k3.trans i3, fun l' hl' => ?_⟩
    rcases List.mem_append.mp hl' with h | h
    · exact i4 _ h
    · simp at h; subst h; exact k4

theorem NestExec.trans {s s' s'' : NestState V} {tr tr' : List (NestLab V)} (h : NestExec cfg says s tr s') (h' : NestExec cfg says s' tr' s'') :
    NestExec cfg says s (tr ++ tr') s'' := by
  induction h' with
  | nil => rw [List.append_nil]; exact h
  | snoc _ hst ih => rw [← List.append_assoc]; exact ih.snoc hst

/-- The worker can finish if there is room for what it sends. -/
theorem room_finish {f : Formatter V} (hf : cfg.f = some f) (e : Event V) :
    ∀ (todo : List (Event V)) (b : Bool) (s : NestState V), s.a.panicked = false → s.a.closed = false → s.a.chanClosed = false →
      s.fm = some ⟨e, todo, b⟩ → (b = true → todo ≠ []) → s.a.chan.length + todo.length ≤ cfg.queueSize →
      ∃ tr, (∀ l ∈ tr, ∀ l', l ≠ .out l') ∧
        NestExec cfg says s tr ⟨({ s.a with chan := s.a.chan ++ todo.map some } : AState V).handle cfg f e, none⟩
  | [], true, s, _, _, _, _, hb, _ => absurd rfl (hb rfl)
  | [], false, s, hp, _, _, hfm, _, _ => by
    refine ⟨[.formatted e], by simp, ?_⟩
    have := NestExec.snoc (says := says) .nil (NestStep.formatted hp hfm hf)
    simpa using this
  | x :: xs, false, s, hp, hc, hcc, hfm, _, hr => by
    have h1 := NestExec.snoc (says := says) .nil (NestStep.inner (cfg := cfg) hp hfm hc)
    obtain ⟨tr, ht, hx⟩ := room_sending hf e x xs { s with fm := some ⟨e, x :: xs, true⟩ } hp hc hcc rfl hr
    exact ⟨_, by intro l hl; rcases List.mem_append.mp hl with h | h; · simp at h; subst h; simp
                 · exact ht _ h, h1.trans hx⟩
  | x :: xs, true, s, hp, hc, hcc, hfm, _, hr => room_sending hf e x xs s hp hc hcc hfm hr
where
  room_sending {f : Formatter V} (hf : cfg.f = some f) (e x : Event V) (xs : List (Event V)) (s : NestState V) (hp : s.a.panicked = false)
      (hc : s.a.closed = false) (hcc : s.a.chanClosed = false) (hfm : s.fm = some ⟨e, x :: xs, true⟩)
      (hr : s.a.chan.length + (x :: xs).length ≤ cfg.queueSize) :
      ∃ tr, (∀ l ∈ tr, ∀ l', l ≠ .out l') ∧
        NestExec cfg says s tr ⟨({ s.a with chan := s.a.chan ++ (x :: xs).map some } : AState V).handle cfg f e, none⟩ := by
    have h1 := NestExec.snoc (says := says) .nil (NestStep.queued (cfg := cfg) hp hfm hcc (by simp at hr; omega))
    obtain ⟨tr, ht, hx⟩ := room_finish hf e xs false ⟨{ s.a with chan := s.a.chan ++ [some x] }, some ⟨e, xs, false⟩⟩ hp hc hcc rfl (by simp)
      (by simp at hr ⊢; omega)
    refine ⟨_, ?_, h1.trans (by simpa using hx)⟩
    intro l hl
    rcases List.mem_append.mp hl with h | h
    · simp at h; subst h; simp
    · exact ht _ h

/-- The part of the state only the worker uses. -/
def AState.put (s : AState V) (p : List Bytes × Bytes × Nat) : AState V := { s with writes := p.1, buf := p.2.1, currNum := p.2.2 }

theorem handle_put (cfg : ACfg V) (f : Formatter V) (e : Event V) :
    ∃ h : List Bytes × Bytes × Nat → List Bytes × Bytes × Nat, ∀ s : AState V, s.handle cfg f e = s.put (h (s.writes, s.buf, s.currNum)) := by
  refine ⟨fun p => if cfg.t ≤ e.level then
    if cfg.batchNum ≤ p.2.2 + 1 then (p.1 ++ [p.2.1 ++ f e], [], 0) else (p.1, p.2.1 ++ f e, p.2.2 + 1) else p, fun s => ?_⟩
  simp only [AState.handle]
  split
  · split <;> rfl
  · rfl

/-- What goroutines do is the same whether the worker has handled an event or not. -/
theorem handle_comm {f : Formatter V} {s s' : AState V} {l : ALab V} (e : Event V) (h : AAct cfg s l s') (hl : l.ofWorker = false) :
    AAct cfg (s.handle cfg f e) l (s'.handle cfg f e) := by
  obtain ⟨g, hg⟩ := handle_put cfg f e
  have key : ∀ p, s'.writes = s.writes → s'.buf = s.buf → s'.currNum = s.currNum → AAct cfg (s.put p) l (s'.put p) := by
    intro p _ _ _
    cases h with
    | sendStart h1 h2 => exact .sendStart (s := s.put p) h1 h2
    | sendSkip h1 h2 => exact .sendSkip (s := s.put p) h1 h2
    | sendQueue h1 h2 h3 => exact .sendQueue (s := s.put p) h1 h2 h3
    | sendPanic h1 h2 => exact .sendPanic (s := s.put p) h1 h2
    | closeStart h1 h2 => exact .closeStart (s := s.put p) h1 h2
    | closeSkip h1 h2 => exact .closeSkip (s := s.put p) h1 h2
    | closeRequest h1 h2 h3 => exact .closeRequest (s := s.put p) h1 h2 h3
    | requestPanic h1 h2 => exact .requestPanic (s := s.put p) h1 h2
    | closeWait h1 h2 => exact .closeWait (s := s.put p) h1 h2
    | closeStore h1 => exact .closeStore (s := s.put p) h1
    | closeChan h1 h2 => exact .closeChan (s := s.put p) h1 h2
    | closePanic h1 h2 => exact .closePanic (s := s.put p) h1 h2
    | _ => cases hl
  have same : s'.writes = s.writes ∧ s'.buf = s.buf ∧ s'.currNum = s.currNum := by
    cases h with
    | begin | tick | takeEvent | takeIgnored | takePanic | takeNil | takeClosed => cases hl
    | _ => exact ⟨rfl, rfl, rfl⟩
  obtain ⟨e1, e2, e3⟩ := same
  rw [hg, hg, e1, e2, e3]
  exact key _ e1 e2 e3

/-- The output as it is seen from outside while the worker formats. -/
def seen (cfg : ACfg V) (f : Formatter V) (s : NestState V) : AState V :=
  match s.fm with
  | none => s.a
  | some x => s.a.handle cfg f x.evt

theorem quiet_exec {f : Formatter V} (hf : cfg.f = some f) (hq : ∀ e, cfg.t ≤ e.level → says e = []) {prog : Nat → List (ACall V)}
    {tr : List (NestLab V)} {s : NestState V} (h : NestExec cfg says ⟨newAsync prog, none⟩ tr s) :
    AExec cfg (newAsync prog) (fromOutside tr) (seen cfg f s) ∧ ∀ x, s.fm = some x → x.todo = [] := by
  generalize h0 : (⟨newAsync prog, none⟩ : NestState V) = s0 at h
  induction h with
  | nil => subst h0; exact ⟨.nil, by intro x h; cases h⟩
  | @snoc tr s' l s'' _ hst ih =>
    obtain ⟨ih, hx⟩ := ih
    rw [fromOutside_append]
    cases hst with
    | @out l a hs hw hl =>
      refine ⟨ih.snoc ?_, hx⟩
      cases hfm : s'.fm with
      | none => simp only [seen, hfm]; exact hs
      | some x =>
        have hn : l.ofWorker = false := by
          cases hlw : l.ofWorker with
          | false => rfl
          | true => rw [hw hlw] at hfm; cases hfm
        simp only [seen, hfm]
        exact ⟨by rw [(handle_rest cfg f s'.a x.evt).2.2.2.2.2]; exact hs.1, handle_comm _ hs.2 hn⟩
    | @format e rest f' hp hfm hw hc hf' ht =>
      have : f' = f := by rw [hf] at hf'; exact (Option.some.inj hf').symm
      subst this
      refine ⟨ih.snoc ?_, by intro x h; cases h; exact hq e ht⟩
      have e1 : seen cfg f' s' = s'.a := by simp [seen, hfm]
      rw [e1]
      exact ⟨hp, .takeEvent hw hc hf⟩
    | inner hp hfm hc => have := hx _ hfm; cases this
    | dropped hp hfm hc => have := hx _ hfm; cases this
    | queued hp hfm hc hl => have := hx _ hfm; cases this
    | panic hp hfm hc => have := hx _ hfm; cases this
    | @formatted e f' hp hfm hf' =>
      have : f' = f := by rw [hf] at hf'; exact (Option.some.inj hf').symm
      subst this
      refine ⟨?_, by intro x h; cases h⟩
      simp only [fromOutside, List.append_nil]
      have e1 : seen cfg f' s' = seen cfg f' ⟨s'.a.handle cfg f' e, none⟩ := by simp [seen, hfm]
      rw [← e1]; exact ih

mutual
theorem nested_writes (lib : Lib V) (o : BaseOutput V) : ∀ n : Nested V,
    (o.sendNested lib n).w = o.w ++ (innerFirst o.t n).map (textOf lib o.f) ∧ (o.sendNested lib n).t = o.t ∧ (o.sendNested lib n).f = o.f
  | .evt e inner => by
    obtain ⟨h1, h2, h3⟩ := nested_all lib o inner
    by_cases ht : o.t ≤ e.level
    · have hb : ¬ e.level < o.t := Int.not_lt.mpr ht
      simp only [BaseOutput.sendNested, if_neg hb, innerFirst, if_pos ht]
      obtain ⟨s1, s2, s3⟩ := base_sends lib (BaseOutput.sendNested.sendAll lib o inner) [e]
      simp only [List.foldl_cons, List.foldl_nil, h1, h2, h3] at s1 s2 s3
      refine ⟨?_, s3, s2⟩
      rw [s1]
      simp [accepted, ht]
    · have hb : e.level < o.t := Int.not_le.mp ht
      simp [BaseOutput.sendNested, if_pos hb, innerFirst, if_neg ht]

theorem nested_all (lib : Lib V) (o : BaseOutput V) : ∀ ns : List (Nested V),
    (BaseOutput.sendNested.sendAll lib o ns).w = o.w ++ (innerFirsts o.t ns).map (textOf lib o.f) ∧
    (BaseOutput.sendNested.sendAll lib o ns).t = o.t ∧ (BaseOutput.sendNested.sendAll lib o ns).f = o.f
  | [] => by simp [BaseOutput.sendNested.sendAll, innerFirsts]
  | n :: ns => by
    obtain ⟨h1, h2, h3⟩ := nested_writes lib o n
    obtain ⟨k1, k2, k3⟩ := nested_all lib (o.sendNested lib n) ns
    simp only [BaseOutput.sendNested.sendAll, innerFirsts]
    refine ⟨?_, k2.trans h2, k3.trans h3⟩
    rw [k1, h1, h2, h3]; simp
end

end Log4g
