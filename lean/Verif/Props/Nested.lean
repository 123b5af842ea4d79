import Verif.Lemmas.Nested
import Verif.Props.Async

/-! # C106: arguments that log when they are formatted

The claim is: an argument whose `String` method logs to the same output does no harm; calls return, and both lines are
written.  Synchronous outputs keep to it.  The worker of an asynchronous one waits for itself when the queue is full. -/

namespace Log4g
open Spec
variable {V : Type}

namespace Demo

/-- An event with an argument that logs, and the event this logs. -/
def chatty : Event Nat := { Demo.event with format := [], arguments := [0] }
def remark : Event Nat := { Demo.event with format := c!"asked for a string", arguments := [] }

def saying (e : Event Nat) : List (Event Nat) := if e.arguments = [] then [] else [remark]

def ncfg (n : Nat) : ACfg Nat := { queueSize := n, batchNum := 10, t := Level.All, f := some (textFormatter lib [] ((parser c!"%{msg}\n").getD [])) }

/-- A goroutine that logs `n` times. -/
def nprog (n : Nat) : Nat → List (ACall Nat) := fun t => if t = 0 then List.replicate n (.send chatty) else []

theorem fill {n : Nat} : ∀ (k : Nat) (s : NestState Nat), s.a.th 0 = { todo := List.replicate k (.send chatty) } → s.a.panicked = false →
    s.a.closed = false → s.a.chanClosed = false → s.a.chan.length + k ≤ n →
    ∃ tr s', NestExec (ncfg n) saying s tr s' ∧ NotWaited tr ∧ enqueued tr = List.replicate k chatty ∧ s'.fm = s.fm ∧ s'.a.writes = s.a.writes ∧
      s'.a.chan.length = s.a.chan.length + k ∧ s'.a.th 0 = {} ∧ s'.a.panicked = false ∧ s'.a.closed = false
  | 0, s, ht, hp, hc, _, _ => ⟨[], s, .nil, (by intro t h; cases h), rfl, rfl, rfl, rfl, ht, hp, hc⟩
  | k + 1, s, ht, hp, hc, hcc, hr => by
    have h0 : NestExec (ncfg n) saying s [] s := .nil
    have h1 := h0.snoc (.out (l := .start 0 (.send chatty)) ⟨hp, .sendStart (t := 0) (e := chatty) (cs := List.replicate k (.send chatty)) ht hc⟩
      (by intro h; cases h) (by intro _ h; cases h))
    have h2 := h1.snoc (.out (l := .queued 0 chatty) ⟨hp, .sendQueue (t := 0) (e := chatty) (cs := List.replicate k (.send chatty)) rfl hcc
      (by show s.a.chan.length < n; omega)⟩ (by intro h; cases h) (by intro _ h; cases h))
    have next := fun tr2 s2 (_ : NestExec (ncfg n) saying s tr2 s2) => fill (n := n) k s2
    obtain ⟨tr, s', h3, w, q, f, e1, e2, e3, e4, e5⟩ := next _ _ h2 rfl hp hc hcc
      (by show (s.a.chan ++ [some chatty]).length + k ≤ n; simp; omega)
    refine ⟨_, s', h2.trans h3, ?_, ?_, f, e1, ?_, e3, e4, e5⟩
    · intro t hm
      rcases List.mem_append.mp hm with h | h
      · simp at h
      · exact w t h
    · rw [enqueued_append, q]; simp [enqueued, List.replicate_succ]
    · rw [e2]; show (s.a.chan ++ [some chatty]).length + k = _; simp; omega

/-- The worker takes an event, the program fills the queue, and formatting wants to queue an event. -/
theorem jam (n : Nat) (hn : 1 ≤ n) : ∃ tr s, NestExec (ncfg n) saying ⟨newAsync (nprog (n + 1)), none⟩ tr s ∧ NotWaited tr ∧
    enqueued tr = List.replicate (n + 1) chatty ∧ s.a.th 0 = {} ∧ s.a.writes = [] ∧ s.a.panicked = false ∧
    s.fm = some ⟨chatty, [remark], true⟩ ∧ s.a.chan.length = n := by
  have h0 : NestExec (ncfg n) saying ⟨newAsync (nprog (n + 1)), none⟩ [] _ := .nil
  have h1 := h0.snoc (.out (l := .begin) ⟨rfl, .begin rfl⟩ (fun _ => rfl) (by intro _ h; cases h))
  have h2 := h1.snoc (.out (l := .start 0 (.send chatty)) ⟨rfl, .sendStart (t := 0) (e := chatty) (cs := List.replicate n (.send chatty)) rfl rfl⟩
    (by intro h; cases h) (by intro _ h; cases h))
  have h3 := h2.snoc (.out (l := .queued 0 chatty) ⟨rfl, .sendQueue (t := 0) (e := chatty) (cs := List.replicate n (.send chatty)) rfl rfl hn⟩
    (by intro h; cases h) (by intro _ h; cases h))
  have h4 := h3.snoc (.format (e := chatty) (rest := []) rfl rfl rfl rfl rfl (show Level.All ≤ chatty.level by decide))
  have next := fun s1 tr2 s2 (_ : NestExec (ncfg n) saying s1 tr2 s2) => fill (n := n) n s2
  obtain ⟨tr, s, h5, w, q, f, e1, e2, e3, e4, e5⟩ := next _ _ _ h4 rfl rfl rfl rfl (by show 0 + n ≤ n; omega)
  have h6 := (h4.trans h5).snoc (.inner (e := chatty) (x := remark) (xs := []) e4 f e5)
  refine ⟨_, _, h6, ?_, ?_, e3, e1, e4, rfl, by rw [e2]; exact Nat.zero_add n⟩
  · intro t hm
    rcases List.mem_append.mp hm with h | h
    · rcases List.mem_append.mp h with h | h
      · simp at h
      · exact w t h
    · simp at h
  · rw [enqueued_append, enqueued_append, q]; simp [enqueued, List.replicate_succ]

end Demo

/-- C106: whenever the worker of an open asynchronous output, formatting an event, sends to a queue that is full, it is for
good: whatever happens afterwards, nothing is written any more and no call of `Send` or `Close` returns. -/
theorem C106_stuck {cfg : ACfg V} {says : Event V → List (Event V)} {prog : Nat → List (ACall V)} {tr : List (NestLab V)} {s : NestState V}
    (h : NestExec cfg says ⟨newAsync prog, none⟩ tr s) (hw : NotWaited tr) {x : Formatting V} (hx : s.fm = some x) (hs : x.sending = true)
    (hfull : cfg.queueSize ≤ s.a.chan.length) {tr' : List (NestLab V)} {s' : NestState V} (h' : NestExec cfg says s tr' s') :
    s'.a.writes = s.a.writes ∧ s'.a.chan = s.a.chan ∧ ∀ l ∈ tr', ¬ GetsOn l := by
  obtain ⟨-, h1, h2, h3⟩ := jammed_exec ⟨unwaited h hw, hx, hs, hfull⟩ h'
  exact ⟨h1, h2, h3⟩

/-- C106 is refuted for queues of every size `n`: a program without `Close` logs `n + 1` events whose formatting logs one more,
which itself logs nothing.  All calls return, and not one line is ever written. -/
theorem C106_lines_refuted (n : Nat) (hn : 1 ≤ n) : ∃ (cfg : ACfg Nat) (says : Event Nat → List (Event Nat)) (prog : Nat → List (ACall Nat))
    (tr : List (NestLab Nat)) (s : NestState Nat) (e x : Event Nat),
    cfg.queueSize = n ∧ cfg.t ≤ e.level ∧ says e = [x] ∧ says x = [] ∧ (∀ t, ACall.close ∉ prog t) ∧
    NestExec cfg says ⟨newAsync prog, none⟩ tr s ∧ enqueued tr = List.replicate (n + 1) e ∧ s.a.th 0 = {} ∧ s.a.panicked = false ∧
    ∀ tr' s', NestExec cfg says s tr' s' → s'.a.writes = [] := by
  obtain ⟨tr, s, h, hw, hq, ht, hwr, hp, hfm, hl⟩ := Demo.jam n hn
  refine ⟨Demo.ncfg n, Demo.saying, Demo.nprog (n + 1), tr, s, Demo.chatty, Demo.remark, rfl, show Level.All ≤ Demo.chatty.level by decide, rfl, rfl, ?_, h, hq, ht, hp, ?_⟩
  · intro t hm
    simp only [Demo.nprog] at hm
    split at hm
    · simp [List.mem_replicate] at hm
    · cases hm
  · intro tr' s' h'
    have := (C106_stuck h hw hfm rfl (by rw [hl]; exact Nat.le_refl n) h').1
    rw [this, hwr]

/-- The hypotheses of `C106_stuck` are met with a queue of the default size. -/
example : ∃ tr s, NestExec (Demo.ncfg 1000) Demo.saying ⟨newAsync (Demo.nprog 1001), none⟩ tr s ∧ NotWaited tr ∧
    s.fm = some ⟨Demo.chatty, [Demo.remark], true⟩ ∧ (Demo.ncfg 1000).queueSize ≤ s.a.chan.length := by
  obtain ⟨tr, s, h, hw, -, -, -, -, hfm, hl⟩ := Demo.jam 1000 (by decide)
  exact ⟨tr, s, h, hw, hfm, by rw [hl]; exact Nat.le_refl _⟩

/-- C106, what holds in any case: what is written is the text of what was queued, by the program or while formatting, in order
and without loss; the rest is being formatted or waits in the queue; and what formatting was to log has been sent. -/
theorem C106_order_partial {cfg : ACfg V} {f : Formatter V} (hf : cfg.f = some f) {says : Event V → List (Event V)} {prog : Nat → List (ACall V)}
    {tr : List (NestLab V)} {s : NestState V} (h : NestExec cfg says ⟨newAsync prog, none⟩ tr s) :
    ∃ done, enqueued tr = done ++ (s.fm.map (·.evt)).toList ++ eventsOf s.a.chan ∧
      s.a.writes.flatten ++ s.a.buf = (accepted cfg.t done).flatMap f ∧
      (begunOf tr).flatMap says = innerOf tr ++ (s.fm.map (·.todo)).getD [] ∧ begunOf tr = accepted cfg.t done ++ (s.fm.map (·.evt)).toList := by
  obtain ⟨done, i1, i2, i3, -, i5⟩ := nest_inv hf h
  exact ⟨done, i2, i1, i5, i3⟩

/-- The hypotheses are met by an execution with three events, one of which is being formatted. -/
example : ∃ tr s, NestExec (Demo.ncfg 2) Demo.saying ⟨newAsync (Demo.nprog 3), none⟩ tr s ∧ (enqueued tr).length = 3 ∧ s.fm ≠ none := by
  obtain ⟨tr, s, h, _, hq, -, -, -, hfm, _⟩ := Demo.jam 2 (by decide)
  exact ⟨tr, s, h, by rw [hq]; rfl, by rw [hfm]; simp⟩

/-- C106, with room in the queue: the worker can queue all that formatting logs, without anybody's help, and get on to the text
of the event. -/
theorem C106_room_partial {cfg : ACfg V} {f : Formatter V} (hf : cfg.f = some f) {says : Event V → List (Event V)} {prog : Nat → List (ACall V)}
    {tr : List (NestLab V)} {s : NestState V} (h : NestExec cfg says ⟨newAsync prog, none⟩ tr s) (hw : NotWaited tr) (hp : s.a.panicked = false)
    {e : Event V} {rest : List (Option (Event V))} (hrun : s.a.worker = .running) (hidle : s.fm = none) (hc : s.a.chan = some e :: rest)
    (ht : cfg.t ≤ e.level) (hroom : rest.length + (says e).length ≤ cfg.queueSize) :
    ∃ tr' s', NestExec cfg says s tr' s' ∧ (∀ l ∈ tr', ∀ l', l ≠ .out l') ∧ s'.fm = none ∧
      s'.a.writes.flatten ++ s'.a.buf = s.a.writes.flatten ++ s.a.buf ++ f e ∧ s'.a.chan = rest ++ (says e).map some := by
  have u := unwaited h hw
  have h1 : NestExec cfg says s [.format e] _ := NestExec.snoc .nil (.format hp hidle hrun hc hf ht)
  obtain ⟨tr2, h2, h3⟩ := room_finish (says := says) hf e (says e) false ⟨{ s.a with chan := rest }, some ⟨e, says e, false⟩⟩ hp u.closed u.chan rfl (by intro h; cases h) hroom
  refine ⟨_, _, h1.trans h3, ?_, rfl, handle_text f _ ht, handle_chan cfg f _ e⟩
  intro l hl
  rcases List.mem_append.mp hl with h | h
  · simp at h; subst h; simp
  · exact h2 _ h

/-- The hypotheses are met in a queue of length 1. -/
example : ∃ tr s, NestExec (Demo.ncfg 1) Demo.saying ⟨newAsync (Demo.nprog 1), none⟩ tr s ∧ NotWaited tr ∧ s.a.panicked = false ∧
    s.a.worker = .running ∧ s.fm = none ∧ s.a.chan = [some Demo.chatty] ∧ 0 + (Demo.saying Demo.chatty).length ≤ (Demo.ncfg 1).queueSize := by
  have h0 : NestExec (Demo.ncfg 1) Demo.saying ⟨newAsync (Demo.nprog 1), none⟩ [] _ := .nil
  have h1 := h0.snoc (.out (l := .begin) ⟨rfl, .begin rfl⟩ (fun _ => rfl) (by intro _ h; cases h))
  have h2 := h1.snoc (.out (l := .start 0 (.send Demo.chatty)) ⟨rfl, .sendStart (t := 0) (e := Demo.chatty) (cs := []) rfl rfl⟩
    (by intro h; cases h) (by intro _ h; cases h))
  have h3 := h2.snoc (.out (l := .queued 0 Demo.chatty) ⟨rfl, .sendQueue (t := 0) (e := Demo.chatty) (cs := []) rfl rfl (by decide)⟩
    (by intro h; cases h) (by intro _ h; cases h))
  exact ⟨_, _, h3, by intro t h; simp at h, rfl, rfl, rfl, rfl, by decide⟩

/-- C106, if nothing that is formatted logs: the output behaves as `Async` has it, where formatting is one step; so all that is
said there (C44-C53) holds. -/
theorem C106_quiet_partial {cfg : ACfg V} {f : Formatter V} (hf : cfg.f = some f) {says : Event V → List (Event V)}
    (hq : ∀ e, cfg.t ≤ e.level → says e = []) {prog : Nat → List (ACall V)}
    {tr : List (NestLab V)} {s : NestState V} (h : NestExec cfg says ⟨newAsync prog, none⟩ tr s) :
    ∃ a, AExec cfg (newAsync prog) (fromOutside tr) a ∧ (s.fm = none → a = s.a) ∧ a.chan = s.a.chan ∧ a.th = s.a.th ∧ a.panicked = s.a.panicked := by
  refine ⟨_, (quiet_exec hf hq h).1, ?_⟩
  cases hfm : s.fm with
  | none => simp [seen, hfm]
  | some x =>
    obtain ⟨-, -, k3, -, -, k6⟩ := handle_rest cfg f s.a x.evt
    simp only [seen, hfm]
    exact ⟨(by intro h; cases h), handle_chan cfg f s.a x.evt, k3, k6⟩

/-- Formatting an event that logs nothing. -/
example : ∃ tr s, NestExec (Demo.ncfg 1) (fun _ => []) ⟨newAsync (Demo.nprog 1), none⟩ tr s ∧ s.fm ≠ none := by
  have h0 : NestExec (Demo.ncfg 1) (fun _ => []) ⟨newAsync (Demo.nprog 1), none⟩ [] _ := .nil
  have h1 := h0.snoc (.out (l := .begin) ⟨rfl, .begin rfl⟩ (fun _ => rfl) (by intro _ h; cases h))
  have h2 := h1.snoc (.out (l := .start 0 (.send Demo.chatty)) ⟨rfl, .sendStart (t := 0) (e := Demo.chatty) (cs := []) rfl rfl⟩
    (by intro h; cases h) (by intro _ h; cases h))
  have h3 := h2.snoc (.out (l := .queued 0 Demo.chatty) ⟨rfl, .sendQueue (t := 0) (e := Demo.chatty) (cs := []) rfl rfl (by decide)⟩
    (by intro h; cases h) (by intro _ h; cases h))
  exact ⟨_, _, h3.snoc (.format (e := Demo.chatty) (rest := []) rfl rfl rfl rfl rfl (by decide)), by simp⟩

/-- C106 for synchronous outputs: the lines that formatting logs come first, then the line itself, to any depth. -/
theorem C106_sync_partial (lib : Lib V) (o : BaseOutput V) (n : Nested V) :
    (o.sendNested lib n).w = o.w ++ (innerFirst o.t n).map (textOf lib o.f) := (nested_writes lib o n).1

/-- Two lines. -/
example : (({ t := Level.All } : BaseOutput Nat).sendNested Demo.lib (.evt Demo.chatty [.evt Demo.remark []])).w.length = 2 := by decide +kernel

end Log4g
