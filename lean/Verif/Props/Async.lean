import Verif.Props.Output

/-! # Asynchronous outputs: C44 – C53 -/

namespace Log4g
open Spec
open scoped List
variable {V : Type}

/-! ## Sample executions -/

namespace Demo

/-- An event at warn level with format "x", and its text. -/
def evt : Event Nat := { event with format := c!"x" }

def acfg : ACfg Nat := { queueSize := 2, batchNum := 2, t := Level.All, f := some fun _ => [120] }

/-- One goroutine sends and closes. -/
def prog1 : Nat → List (ACall Nat) := fun t => if t = 0 then [.send evt, .close] else []

/-- A tidy execution: the worker begins before `Close` is called. -/
theorem tidy : ∃ s, AExec acfg (newAsync prog1) ([.begin, .start 0 (.send evt), .queued 0 evt, .tick, .took (some evt)] ++ .start 0 .close ::
    [.requested 0, .took none, .waited 0, .stored 0] ++ [.closed 0]) s ∧ s.panicked = false ∧ s.worker = .stopped := by
  have h0 : AExec acfg (newAsync prog1) [] _ := .nil
  have h1 := h0.snoc ⟨rfl, .begin rfl⟩
  have h2 := h1.snoc ⟨rfl, .sendStart (t := 0) (e := evt) rfl rfl⟩
  have h3 := h2.snoc ⟨rfl, .sendQueue (t := 0) (e := evt) rfl rfl (by decide)⟩
  have h4 := h3.snoc ⟨rfl, .tick rfl⟩
  have h5 := h4.snoc ⟨rfl, .takeEvent rfl rfl rfl⟩
  have h6 := h5.snoc ⟨rfl, .closeStart (t := 0) rfl rfl⟩
  have h7 := h6.snoc ⟨rfl, .closeRequest (t := 0) rfl rfl (by decide)⟩
  have h8 := h7.snoc ⟨rfl, .takeNil rfl rfl⟩
  have h9 := h8.snoc ⟨rfl, .closeWait (t := 0) rfl rfl⟩
  have h10 := h9.snoc ⟨rfl, .closeStore (t := 0) rfl⟩
  have h11 := h10.snoc ⟨rfl, .closeChan (t := 0) rfl rfl⟩
  exact ⟨_, h11, rfl, rfl⟩

/-- The worker begins after `Close` is called, but before it has waited. -/
theorem late : ∃ s, AExec acfg (newAsync prog1) ([.start 0 (.send evt), .queued 0 evt] ++ .start 0 .close ::
    [.requested 0, .begin, .took (some evt), .took none, .waited 0, .stored 0] ++ [.closed 0]) s := by
  have h0 : AExec acfg (newAsync prog1) [] _ := .nil
  have h2 := h0.snoc ⟨rfl, .sendStart (t := 0) (e := evt) rfl rfl⟩
  have h3 := h2.snoc ⟨rfl, .sendQueue (t := 0) (e := evt) rfl rfl (by decide)⟩
  have h6 := h3.snoc ⟨rfl, .closeStart (t := 0) rfl rfl⟩
  have h7 := h6.snoc ⟨rfl, .closeRequest (t := 0) rfl rfl (by decide)⟩
  have h1 := h7.snoc ⟨rfl, .begin rfl⟩
  have h5 := h1.snoc ⟨rfl, .takeEvent rfl rfl rfl⟩
  have h8 := h5.snoc ⟨rfl, .takeNil rfl rfl⟩
  have h9 := h8.snoc ⟨rfl, .closeWait (t := 0) rfl rfl⟩
  have h10 := h9.snoc ⟨rfl, .closeStore (t := 0) rfl⟩
  have h11 := h10.snoc ⟨rfl, .closeChan (t := 0) rfl rfl⟩
  exact ⟨_, h11⟩

/-- `Close` before the worker has begun. -/
theorem hasty : ∃ s, AExec acfg (newAsync prog1) ([.start 0 (.send evt), .queued 0 evt] ++ .start 0 .close ::
    [.requested 0, .waited 0, .stored 0] ++ [.closed 0]) s ∧ s.panicked = false ∧ s.writes = [] := by
  have h0 : AExec acfg (newAsync prog1) [] _ := .nil
  have h2 := h0.snoc ⟨rfl, .sendStart (t := 0) (e := evt) rfl rfl⟩
  have h3 := h2.snoc ⟨rfl, .sendQueue (t := 0) (e := evt) rfl rfl (by decide)⟩
  have h6 := h3.snoc ⟨rfl, .closeStart (t := 0) rfl rfl⟩
  have h7 := h6.snoc ⟨rfl, .closeRequest (t := 0) rfl rfl (by decide)⟩
  have h9 := h7.snoc ⟨rfl, .closeWait (t := 0) rfl rfl⟩
  have h10 := h9.snoc ⟨rfl, .closeStore (t := 0) rfl⟩
  have h11 := h10.snoc ⟨rfl, .closeChan (t := 0) rfl rfl⟩
  exact ⟨_, h11, rfl, rfl⟩

/-- Goroutines 0 and 1 close, goroutine 1 sends before. -/
def prog2 : Nat → List (ACall Nat) := fun t => if t = 0 then [.close] else if t = 1 then [.send evt, .close] else []

/-- Two `Close` calls; the request of goroutine 0 comes in front of the event of goroutine 1.  Goroutine 1 returns first. -/
theorem twoClose : ∃ s, AExec acfg (newAsync prog2) ([.begin, .start 0 .close, .requested 0, .start 1 (.send evt), .queued 1 evt] ++ .start 1 .close ::
    [.took none, .requested 1, .waited 1, .stored 1] ++ [.closed 1]) s ∧ s.panicked = false ∧ s.writes = [[]] ∧
    (s.th 0).pc = .waiting ∧ s.chanClosed = true ∧ s.worker = .stopped := by
  have h0 : AExec acfg (newAsync prog2) [] _ := .nil
  have h1 := h0.snoc ⟨rfl, .begin rfl⟩
  have h2 := h1.snoc ⟨rfl, .closeStart (t := 0) rfl rfl⟩
  have h3 := h2.snoc ⟨rfl, .closeRequest (t := 0) rfl rfl (by decide)⟩
  have h4 := h3.snoc ⟨rfl, .sendStart (t := 1) (e := evt) rfl rfl⟩
  have h5 := h4.snoc ⟨rfl, .sendQueue (t := 1) (e := evt) rfl rfl (by decide)⟩
  have h6 := h5.snoc ⟨rfl, .closeStart (t := 1) rfl rfl⟩
  have h7 := h6.snoc ⟨rfl, .takeNil rfl rfl⟩
  have h8 := h7.snoc ⟨rfl, .closeRequest (t := 1) rfl rfl (by decide)⟩
  have h9 := h8.snoc ⟨rfl, .closeWait (t := 1) rfl rfl⟩
  have h10 := h9.snoc ⟨rfl, .closeStore (t := 1) rfl⟩
  have h11 := h10.snoc ⟨rfl, .closeChan (t := 1) rfl rfl⟩
  exact ⟨_, h11, rfl, rfl, rfl, rfl, rfl⟩

end Demo

/-! ## C44, C45, C46 -/

/-- C44: nothing is lost, doubled or reordered. -/
theorem C44_queue {cfg : ACfg V} {f : Formatter V} (hf : cfg.f = some f) {prog : Nat → List (ACall V)} {tr : List (ALab V)} {s : AState V}
    (h : AExec cfg (newAsync prog) tr s) :
    s.writes.flatten ++ s.buf = (accepted cfg.t (eventsOf (takenOf tr))).flatMap f ∧
    (s.panicked = false → queuedOf tr = takenOf tr ++ s.chan) := by
  obtain ⟨a, b, bi⟩ := aexec_binv hf h
  refine ⟨?_, fun hp => (aexec_inv h hp).queue⟩
  rw [bi.split, bi.writes, bi.buf, List.flatMap_append]

example : ∃ tr s, AExec Demo.acfg (newAsync Demo.prog1) tr s ∧ s.panicked = false ∧ takenOf tr = [some Demo.evt, none] ∧
    (accepted Demo.acfg.t (eventsOf (takenOf tr))).length = 1 := by
  obtain ⟨s, h, hp, _⟩ := Demo.tidy
  exact ⟨_, s, h, hp, rfl, rfl⟩

/-- C45: the events of one goroutine are queued in the order it sends them, and none is left out except by
calls that find the output closed. -/
theorem C45_fifo {cfg : ACfg V} {prog : Nat → List (ACall V)} {tr : List (ALab V)} {s : AState V}
    (h : AExec cfg (newAsync prog) tr s) (t : Nat) :
    queuedBy t tr <+ sendsOf (prog t) ∧ ((∀ c, .skip t c ∉ tr) → queuedBy t tr <+: sendsOf (prog t)) := by
  obtain ⟨h1, h2⟩ := aexec_order h t
  exact ⟨(List.sublist_append_left _ _).trans h1, fun hh => ⟨_, h2 hh⟩⟩

/-- The events of one goroutine are among those queued, in the same order. -/
theorem C45_fifo_queue (t : Nat) (tr : List (ALab V)) : queuedBy t tr <+ eventsOf (queuedOf tr) := by
  induction tr with
  | nil => exact List.Sublist.refl _
  | cons l tr ih =>
    cases l with
    | queued u e =>
      simp only [queuedBy, queuedOf, eventsOf, List.filterMap_cons, id]
      split
      · exact ih.cons₂ e
      · exact ih.cons e
    | requested u => simpa [queuedBy, queuedOf, eventsOf] using ih
    | _ => simpa [queuedBy, queuedOf] using ih

example : ∃ tr s, AExec Demo.acfg (newAsync Demo.prog1) tr s ∧ queuedBy 0 tr = [Demo.evt] ∧ sendsOf (Demo.prog1 0) = [Demo.evt] := by
  obtain ⟨s, h, _⟩ := Demo.tidy
  exact ⟨_, s, h, rfl, rfl⟩

/-- C46: each write is that of a group of at most `batch_num` whole events; the buffer holds fewer than `batch_num`
events; a tick writes them out.  The queue is never longer than configured. -/
theorem C46_batch {cfg : ACfg V} {f : Formatter V} (hf : cfg.f = some f) (hb : 1 ≤ cfg.batchNum) {prog : Nat → List (ACall V)}
    {tr : List (ALab V)} {s : AState V} (h : AExec cfg (newAsync prog) tr s) :
    (∃ (flushed : List (List (Event V))) (pending : List (Event V)), accepted cfg.t (eventsOf (takenOf tr)) = flushed.flatten ++ pending ∧
      pending.length < cfg.batchNum ∧ (∀ g ∈ flushed, g.length ≤ cfg.batchNum) ∧ s.writes = flushed.map (·.flatMap f) ∧ s.buf = pending.flatMap f) ∧
    (∀ s', AStep cfg s .tick s' → s'.buf = [] ∧ s'.writes.flatten = (accepted cfg.t (eventsOf (takenOf tr))).flatMap f) ∧
    (s.panicked = false → s.chan.length ≤ cfg.queueSize) := by
  obtain ⟨a, b, bi⟩ := aexec_binv hf h
  refine ⟨⟨a, b, bi.split, by rw [← bi.num]; exact bi.batch hb, bi.sizes hb, bi.groups, bi.buf⟩, ?_, fun hp => (aexec_inv h hp).size⟩
  intro s' hs
  have hs2 := hs.2
  cases hs2 with
  | tick _ => exact ⟨rfl, by simp [AState.flush, bi.split, bi.writes, bi.buf]⟩

example : 1 ≤ Demo.acfg.batchNum ∧ ∃ s', AStep Demo.acfg { newAsync Demo.prog1 with worker := .running, buf := [1] } .tick s' :=
  ⟨by decide, _, rfl, .tick rfl⟩

/-! ## C47 -/

/-- C47 is false: if the worker has not begun, `Close` does not wait for it. -/
theorem C47_flushed_refuted : ∃ (cfg : ACfg Nat) (f : Formatter Nat) (prog : Nat → List (ACall Nat)) (a b : List (ALab Nat)) (t : Nat) (e : Event Nat) (s : AState Nat),
    cfg.f = some f ∧ AExec cfg (newAsync prog) (a ++ .start t .close :: b ++ [.closed t]) s ∧
    .queued t e ∈ a ∧ cfg.t ≤ e.level ∧ f e ≠ [] ∧ s.writes = [] := by
  obtain ⟨s, h, _, hw⟩ := Demo.hasty
  exact ⟨Demo.acfg, _, _, _, _, 0, Demo.evt, s, rfl, h, by simp, by decide, by decide, hw⟩

/-- Even if it has, an earlier `Close` still under way takes the worker away. -/
theorem C47_two_closes_refuted : ∃ (cfg : ACfg Nat) (f : Formatter Nat) (prog : Nat → List (ACall Nat)) (a b : List (ALab Nat)) (t : Nat) (e : Event Nat) (s : AState Nat),
    cfg.f = some f ∧ AExec cfg (newAsync prog) (a ++ .start t .close :: b ++ [.closed t]) s ∧
    .begin ∈ a ∧ .queued t e ∈ a ∧ cfg.t ≤ e.level ∧ f e ≠ [] ∧ s.writes.flatten = [] := by
  obtain ⟨s, h, _, hw, _⟩ := Demo.twoClose
  exact ⟨Demo.acfg, _, _, _, _, 1, Demo.evt, s, rfl, h, by simp, by simp, by decide, by decide, by rw [hw]; rfl⟩

/-- C47, what holds: if no close request is queued when `Close` is called, and the worker has begun when `Close` is done waiting for
it, then everything queued before has been written when it returns, and the worker has stopped. -/
theorem C47_flushed_partial {cfg : ACfg V} {f : Formatter V} (hf : cfg.f = some f) {prog : Nat → List (ACall V)} {a b : List (ALab V)}
    {t : Nat} {s : AState V} (h : AExec cfg (newAsync prog) (a ++ .start t .close :: b ++ [.closed t]) s)
    (hbegin : BegunFirst (a ++ .start t .close :: b ++ [.closed t])) (hreq : none ∉ queuedOf a) :
    (accepted cfg.t (eventsOf (queuedOf a))).flatMap f <+: s.writes.flatten ∧ s.worker = .stopped := by
  have hp : s.panicked = false ∧ s.closed = true := by
    refine ⟨?_, closed_of_returned (aexec_closeinv h) ⟨t, .inl (by simp)⟩⟩
    obtain ⟨s2, _, hs, ha⟩ := h.last
    cases ha with
    | closeChan _ _ => exact hs
  have hw := begun_stopped h hp.1 hbegin (.inr hp.2)
  refine ⟨?_, hw⟩
  obtain ⟨es, post, e1, _, e3⟩ := stopped_written hf h hp.1 hw
  rw [List.append_assoc, queuedOf_append] at e1
  obtain ⟨zs, hz⟩ := prefix_before hreq e1
  rw [e3]
  have : es = eventsOf (queuedOf a) ++ eventsOf zs := by
    rw [← eventsOf_append, ← hz]
    simp [eventsOf]
  rw [this, accepted_append, List.flatMap_append]
  exact List.prefix_append _ _

/-- The hypotheses are met, also where the worker begins only after `Close` has been called. -/
example : ∃ a b s, AExec Demo.acfg (newAsync Demo.prog1) (a ++ .start 0 .close :: b ++ [.closed 0]) s ∧ .begin ∈ b ∧
    BegunFirst (a ++ .start 0 .close :: b ++ [.closed 0]) ∧ none ∉ queuedOf a ∧ (accepted Demo.acfg.t (eventsOf (queuedOf a))).length = 1 := by
  obtain ⟨s, h⟩ := Demo.late
  exact ⟨_, _, s, h, by simp, begunFirst_of (a := [.start 0 (.send Demo.evt), .queued 0 Demo.evt, .start 0 .close, .requested 0, .begin]) (by simp) (by simp),
    by simp [queuedOf], rfl⟩

/-- C47, and otherwise: as long as the worker has not begun nothing has been written, whatever was sent and whoever has waited. -/
theorem C47_not_begun {cfg : ACfg V} {prog : Nat → List (ACall V)} {tr : List (ALab V)} {s : AState V} (h : AExec cfg (newAsync prog) tr s)
    (hb : .begin ∉ tr) : s.writes = [] := (not_begun h hb).2

example : ∃ tr s, AExec Demo.acfg (newAsync Demo.prog1) tr s ∧ .begin ∉ tr ∧ CloseReturned tr ∧ .queued 0 Demo.evt ∈ tr := by
  obtain ⟨s, h, _⟩ := Demo.hasty
  exact ⟨_, s, h, by simp, ⟨0, .inl (by simp)⟩, by simp⟩

/-! ## C48, C49 -/

/-- C48: after `Close` has returned, a `Send` returns at once and does nothing. -/
theorem C48_send_after_close {cfg : ACfg V} {prog : Nat → List (ACall V)} {a b : List (ALab V)} {s : AState V}
    (h : AExec cfg (newAsync prog) (a ++ b) s) (hc : CloseReturned a) :
    (∀ t e, .start t (.send e) ∉ b) ∧
    ∀ t e cs, s.panicked = false → s.th t = { pc := .idle, todo := .send e :: cs } →
      AStep cfg s (.skip t (.send e)) (s.set t { pc := .idle, todo := cs }) ∧
      ∀ l s', AStep cfg s l s' → stepOf l = some t → l = .skip t (.send e) ∧ s' = s.set t { pc := .idle, todo := cs } := by
  refine ⟨fun t e => no_start h hc t _, fun t e cs hp ht => ?_⟩
  have hcl : s.closed = true := by
    refine closed_of_returned (aexec_closeinv h) ?_
    obtain ⟨u, hu⟩ := hc
    exact ⟨u, hu.imp (fun x => List.mem_append_left _ x) (fun x => List.mem_append_left _ x)⟩
  refine ⟨⟨hp, .sendSkip ht hcl⟩, fun l s' hs hl => ?_⟩
  have ha := hs.2
  cases ha <;> (try simp only [stepOf, Option.some.injEq] at hl) <;> (try subst hl) <;> simp_all

/-- C49: after `Close` has returned, a `Close` returns at once and does nothing. -/
theorem C49_close_again {cfg : ACfg V} {prog : Nat → List (ACall V)} {a b : List (ALab V)} {s : AState V}
    (h : AExec cfg (newAsync prog) (a ++ b) s) (hc : CloseReturned a) :
    (∀ t, .start t .close ∉ b) ∧
    ∀ t cs, s.panicked = false → s.th t = { pc := .idle, todo := .close :: cs } →
      AStep cfg s (.skip t .close) (s.set t { pc := .idle, todo := cs }) ∧
      ∀ l s', AStep cfg s l s' → stepOf l = some t → l = .skip t .close ∧ s' = s.set t { pc := .idle, todo := cs } := by
  refine ⟨fun t => no_start h hc t _, fun t cs hp ht => ?_⟩
  have hcl : s.closed = true := by
    refine closed_of_returned (aexec_closeinv h) ?_
    obtain ⟨u, hu⟩ := hc
    exact ⟨u, hu.imp (fun x => List.mem_append_left _ x) (fun x => List.mem_append_left _ x)⟩
  refine ⟨⟨hp, .closeSkip ht hcl⟩, fun l s' hs hl => ?_⟩
  have ha := hs.2
  cases ha <;> (try simp only [stepOf, Option.some.injEq] at hl) <;> (try subst hl) <;> simp_all

/-- One goroutine closes, sends and closes again. -/
def Demo.prog3 : Nat → List (ACall Nat) := fun t => if t = 0 then [.close, .send Demo.evt, .close] else []

theorem Demo.after : ∃ a s, AExec Demo.acfg (newAsync Demo.prog3) a s ∧ CloseReturned a ∧ s.panicked = false ∧
    s.th 0 = { pc := .idle, todo := [.send Demo.evt, .close] } := by
  have h0 : AExec Demo.acfg (newAsync Demo.prog3) [] _ := .nil
  have h1 := h0.snoc ⟨rfl, .begin rfl⟩
  have h2 := h1.snoc ⟨rfl, .closeStart (t := 0) rfl rfl⟩
  have h3 := h2.snoc ⟨rfl, .closeRequest (t := 0) rfl rfl (by decide)⟩
  have h4 := h3.snoc ⟨rfl, .takeNil rfl rfl⟩
  have h5 := h4.snoc ⟨rfl, .closeWait (t := 0) rfl rfl⟩
  have h6 := h5.snoc ⟨rfl, .closeStore (t := 0) rfl⟩
  have h7 := h6.snoc ⟨rfl, .closeChan (t := 0) rfl rfl⟩
  exact ⟨_, _, h7, ⟨0, .inl (by simp)⟩, rfl, rfl⟩

example : ∃ a b s, AExec Demo.acfg (newAsync Demo.prog3) (a ++ b) s ∧ CloseReturned a ∧ s.panicked = false ∧
    s.th 0 = { pc := .idle, todo := .close :: [] } := by
  obtain ⟨a, s, h, hc, hp, ht⟩ := Demo.after
  have hs := C48_send_after_close (b := []) (by simpa using h) hc
  exact ⟨a, _, _, h.snoc (hs.2 0 _ _ hp ht).1, hc, hp, by simp [set_th]⟩

/-! ## C50, C51 -/

/-- C50 is false: a `Send` that found the output open panics if a `Close` is quicker. -/
theorem C50_send_panics_refuted : ∃ (cfg : ACfg Nat) (prog : Nat → List (ACall Nat)) (tr : List (ALab Nat)) (s : AState Nat) (e : Event Nat),
    AExec cfg (newAsync prog) (.start 1 (.send e) :: tr ++ [.panic 1]) s ∧ cfg.f ≠ none := by
  have h0 : AExec Demo.acfg (newAsync fun t => if t = 0 then [.close] else if t = 1 then [.send Demo.evt] else []) [] _ := .nil
  have h1 := h0.snoc ⟨rfl, .sendStart (t := 1) rfl rfl⟩
  have h2 := h1.snoc ⟨rfl, .closeStart (t := 0) rfl rfl⟩
  have h3 := h2.snoc ⟨rfl, .closeRequest (t := 0) rfl rfl (by decide)⟩
  have h5 := h3.snoc ⟨rfl, .closeWait (t := 0) rfl rfl⟩
  have h6 := h5.snoc ⟨rfl, .closeStore (t := 0) rfl⟩
  have h7 := h6.snoc ⟨rfl, .closeChan (t := 0) rfl rfl⟩
  have h8 := h7.snoc ⟨rfl, .sendPanic (t := 1) rfl rfl⟩
  exact ⟨_, _, _, _, _, h8, by simp [Demo.acfg]⟩

/-- Two `Close` calls at the same time: the second to finish panics. -/
theorem C50_close_panics_refuted : ∃ (cfg : ACfg Nat) (prog : Nat → List (ACall Nat)) (tr : List (ALab Nat)) (s : AState Nat),
    AExec cfg (newAsync prog) (.begin :: tr ++ [.panic 0]) s ∧ .start 0 .close ∈ tr ∧ cfg.f ≠ none := by
  obtain ⟨s, h, hp, _, ht, hc, hw⟩ := Demo.twoClose
  have hinv := aexec_inv h hp
  have h1 := h.snoc ⟨hp, .closeWait (t := 0) (cs := (s.th 0).todo) (by rw [← ht]) (by rw [hinv.wait, hw]; rfl)⟩
  have h2 := h1.snoc ⟨hp, .closeStore (t := 0) (cs := (s.th 0).todo) (by simp [set_th])⟩
  have h3 := h2.snoc ⟨hp, .closePanic (t := 0) (cs := (s.th 0).todo) (by simp [set_th]) hc⟩
  exact ⟨_, _, _, _, h3, by simp, by simp [Demo.acfg]⟩

/-- C50, what holds: a call panics only if a `Close` of another goroutine returns during the call.  The worker
does not panic. -/
theorem C50_panics_partial {cfg : ACfg V} {prog : Nat → List (ACall V)} {tr : List (ALab V)} {l : ALab V} {s : AState V}
    (h : AExec cfg (newAsync prog) (tr ++ [l]) s) :
    (∀ t, l = .panic t → ∃ a c b u, tr = a ++ .start t c :: b ∧ (∀ x ∈ b, ¬ Returns t x) ∧ u ≠ t ∧ .closed u ∈ b) ∧
    (cfg.f ≠ none → l ≠ .workerPanic) ∧ (s.panicked = true → (∃ t, l = .panic t) ∨ l = .workerPanic) := by
  obtain ⟨s', h1, hs⟩ := h.last
  have ci := aexec_closeinv h1
  have key : ∀ t, (s'.th t).pc ≠ .idle → s'.chanClosed = true →
      ∃ a c b u, tr = a ++ .start t c :: b ∧ (∀ x ∈ b, ¬ Returns t x) ∧ u ≠ t ∧ .closed u ∈ b := by
    intro t ht hc
    obtain ⟨a, c, b, e1, e2, e3⟩ := ci.call t ht
    obtain ⟨_, u, hu⟩ := ci.flag hc
    rw [e1] at hu
    have hb : .closed u ∈ b := by
      rcases List.mem_append.mp hu with hu | hu
      · exact absurd hu (e3 u)
      · simpa using hu
    exact ⟨a, c, b, u, e1, e2, fun e => e2 _ hb (.inl (by rw [e])), hb⟩
  refine ⟨?_, ?_, ?_⟩
  · rintro t rfl
    have ha := hs.2
    cases ha with
    | sendPanic ht hc => exact key t (by simp [ht]) hc
    | requestPanic ht hc => exact key t (by simp [ht]) hc
    | closePanic ht hc => exact key t (by simp [ht]) hc
  · rintro hf rfl
    have ha := hs.2
    cases ha with
    | takePanic _ _ hn _ => exact hf hn
  · intro hp
    have hp' := hs.1
    have ha := hs.2
    cases ha with
    | sendPanic ht hc => exact .inl ⟨_, rfl⟩
    | requestPanic ht hc => exact .inl ⟨_, rfl⟩
    | closePanic ht hc => exact .inl ⟨_, rfl⟩
    | takePanic _ _ _ _ => exact .inr rfl
    | takeEvent h1 h2 h3 =>
      rw [(handle_same _ _ _ _).2.2.2.2.2.2] at hp
      rw [hp'] at hp; simp at hp
    | _ => simp_all [AState.set, AState.flush]

/-- C51 is false for two `Close` calls at the same time: one of them never returns. -/
theorem C51_close_refuted : ∃ (cfg : ACfg Nat) (prog : Nat → List (ACall Nat)) (tr : List (ALab Nat)) (s : AState Nat),
    AExec cfg (newAsync prog) tr s ∧ s.panicked = false ∧ cfg.f ≠ none ∧ .begin ∈ tr ∧ (s.th 0).pc = .closing ∧
    ∀ l s', AStep cfg s l s' → stepOf l = some 0 → s'.panicked = true := by
  obtain ⟨s, h, hp, _, ht, hc, hw⟩ := Demo.twoClose
  have hinv := aexec_inv h hp
  have h1 := h.snoc ⟨hp, .closeWait (t := 0) (cs := (s.th 0).todo) (by rw [← ht]) (by rw [hinv.wait, hw]; rfl)⟩
  have h2 := h1.snoc ⟨hp, .closeStore (t := 0) (cs := (s.th 0).todo) (by simp [set_th])⟩
  refine ⟨_, _, _, _, h2, hp, by simp [Demo.acfg], by simp, by simp [set_th], ?_⟩
  intro l s' hs hl
  have ha := hs.2
  cases ha with
  | sendPanic ht hc => rfl
  | requestPanic ht hc => rfl
  | closePanic ht hc => rfl
  | closeChan ht hc' => simp [AState.set, hc] at hc'
  | _ => simp_all [stepOf, set_th, AState.set]

/-- C51, what holds: if only one goroutine ever closes, its `Close` can complete without help of other
goroutines, from wherever it is; if more do, each can still return or end in a panic.  The worker
stops having handled exactly what was queued in front of the first request. -/
theorem C51_close_partial {cfg : ACfg V} {f : Formatter V} (hf : cfg.f = some f) (hsize : 1 ≤ cfg.queueSize) {prog : Nat → List (ACall V)}
    {tr : List (ALab V)} {s : AState V} (h : AExec cfg (newAsync prog) tr s) (hp : s.panicked = false) :
    (∀ t, InClose s t → (∀ u, u ≠ t → ACall.close ∉ prog u) →
      ∃ tr' s', AExec cfg s tr' s' ∧ s'.panicked = false ∧ (s'.th t).pc = .idle ∧ ∀ l ∈ tr', stepOf l = some t ∨ stepOf l = none) ∧
    (∀ t, InClose s t → ∃ tr' s', AExec cfg s tr' s' ∧ ((s'.th t).pc = .idle ∨ s'.panicked = true)) ∧
    (s.worker = .stopped → ∃ (es : List (Event V)) (post : List (Option (Event V))),
      queuedOf tr = es.map some ++ none :: post ∧ takenOf tr = es.map some ++ [none]) := by
  refine ⟨fun t ht hu => close_returns hf hsize hu h hp ht, fun t ht => close_ends hf hsize h hp ht, fun hw => ?_⟩
  obtain ⟨es, post, h1, h2, _⟩ := stopped_written hf h hp hw
  exact ⟨es, post, h1, h2⟩

example : ∃ tr s, AExec Demo.acfg (newAsync Demo.prog1) tr s ∧ s.panicked = false ∧ InClose s 0 ∧
    (∀ u, u ≠ 0 → ACall.close ∉ Demo.prog1 u) := by
  have h0 : AExec Demo.acfg (newAsync Demo.prog1) [] _ := .nil
  have h2 := h0.snoc ⟨rfl, .sendStart (t := 0) (e := Demo.evt) rfl rfl⟩
  have h3 := h2.snoc ⟨rfl, .sendQueue (t := 0) (e := Demo.evt) rfl rfl (by decide)⟩
  have h6 := h3.snoc ⟨rfl, .closeStart (t := 0) rfl rfl⟩
  exact ⟨_, _, h6, rfl, .inl rfl, fun u hu => by simp [Demo.prog1, hu]⟩

/-! ## C52, C53 -/

/-- C52: what an asynchronous output has written when its worker has stopped is what a synchronous output
writes that is sent the events queued in front of the first close request. -/
theorem C52_same_bytes (lib : Lib V) {cfg : ACfg V} {f : Formatter V} (hf : cfg.f = some f) {prog : Nat → List (ACall V)}
    {tr : List (ALab V)} {s : AState V} (h : AExec cfg (newAsync prog) tr s) (hp : s.panicked = false) (hw : s.worker = .stopped) :
    ∃ (es : List (Event V)) (post : List (Option (Event V))), queuedOf tr = es.map some ++ none :: post ∧
      s.writes.flatten = (es.foldl (BaseOutput.send lib) { f := cfg.f, t := cfg.t }).string := by
  obtain ⟨es, post, h1, _, h3⟩ := stopped_written hf h hp hw
  refine ⟨es, post, h1, ?_⟩
  rw [h3, BaseOutput.string, (base_sends lib _ es).1, hf, List.flatMap]
  rfl

example : ∃ tr s, AExec Demo.acfg (newAsync Demo.prog1) tr s ∧ s.panicked = false ∧ s.worker = .stopped := by
  obtain ⟨s, h, hp, hw⟩ := Demo.tidy
  exact ⟨_, s, h, hp, hw⟩

/-- C53 is false: without formatter the first accepted event ends the program. -/
theorem C53_no_formatter_refuted : ∃ (cfg : ACfg Nat) (prog : Nat → List (ACall Nat)) (tr : List (ALab Nat)) (s : AState Nat) (e : Event Nat),
    cfg.f = none ∧ cfg.t ≤ e.level ∧ AExec cfg (newAsync prog) tr s ∧ .queued 0 e ∈ tr ∧ s.panicked = true := by
  have h0 : AExec { Demo.acfg with f := none } (newAsync Demo.prog1) [] _ := .nil
  have h2 := h0.snoc ⟨rfl, .sendStart (t := 0) (e := Demo.evt) rfl rfl⟩
  have h3 := h2.snoc ⟨rfl, .sendQueue (t := 0) (e := Demo.evt) rfl rfl (by decide)⟩
  have h4 := h3.snoc ⟨rfl, .begin rfl⟩
  have h5 := h4.snoc ⟨rfl, .takePanic rfl rfl rfl (by decide)⟩
  exact ⟨_, _, _, _, Demo.evt, rfl, by decide, h5, by simp, rfl⟩

/-- C53, what holds: without formatter no accepted event is ever written; those below the threshold do no
harm. -/
theorem C53_no_formatter_partial {cfg : ACfg V} (hf : cfg.f = none) {prog : Nat → List (ACall V)} {tr : List (ALab V)} {s : AState V}
    (h : AExec cfg (newAsync prog) tr s) :
    accepted cfg.t (eventsOf (takenOf tr)) = [] ∧ s.writes.flatten = [] ∧
    ∀ e rest, s.panicked = false → s.worker = .running → s.chan = some e :: rest →
      (cfg.t ≤ e.level → ∀ s', ¬ AStep cfg s (.took (some e)) s') ∧
      (e.level < cfg.t → ∀ s', ¬ AStep cfg s .workerPanic s') := by
  obtain ⟨h1, _, h3⟩ := none_accepted hf h
  refine ⟨h1, h3, fun e rest hp hw hc => ⟨fun hl s' hs => ?_, fun hl s' hs => ?_⟩⟩
  · have ha := hs.2
    cases ha with
    | takeEvent _ _ h => rw [hf] at h; simp at h
    | takeIgnored _ _ _ h => exact absurd hl (Int.not_le.mpr h)
  · have ha := hs.2
    cases ha with
    | takePanic _ h _ hl' =>
      rw [hc] at h
      injection h with h _
      injection h with h
      subst h
      exact absurd hl' (Int.not_le.mpr hl)

example : ∃ tr s, AExec { Demo.acfg with f := none } (newAsync Demo.prog1) tr s ∧ s.panicked = false ∧ s.worker = .running ∧
    s.chan = some Demo.evt :: [] := by
  have h0 : AExec { Demo.acfg with f := none } (newAsync Demo.prog1) [] _ := .nil
  have h2 := h0.snoc ⟨rfl, .sendStart (t := 0) (e := Demo.evt) rfl rfl⟩
  have h3 := h2.snoc ⟨rfl, .sendQueue (t := 0) (e := Demo.evt) rfl rfl (by decide)⟩
  have h4 := h3.snoc ⟨rfl, .begin rfl⟩
  exact ⟨_, _, h4, rfl, rfl, rfl⟩

end Log4g
