import Verif.Model.Output

/-! # Asynchronous outputs — `internal/output_base.go:110-181`

Any number of goroutines, each making `Send` and `Close` calls one after the other, and the worker
goroutine.  A step is one access to shared state: an atomic load or store, a channel operation, an operation
on the wait group.  What the worker does with one event (format, append, perhaps flush) is one step, for
nobody else sees its buffer.  Ticks come at any time.

A panic in any goroutine ends the program: no step follows it.  Simplification: the formatter is there
before the first `Send`, as the manager sets it before it hands out the output
(internal/logger_manager.go:99-103), and does not change. -/

namespace Log4g
variable {V : Type}

/-- What `NewAsyncOutput` is called with (internal/output_base.go:110), and the formatter set. -/
structure ACfg (V : Type) where
  queueSize : Nat
  batchNum : Nat
  t : Level
  f : Option (Formatter V)

/-- A call.  (internal/output_base.go:130, 137) -/
inductive ACall (V : Type)
  | send (e : Event V)
  | close

/-- Where a goroutine is.  (internal/output_base.go:130-146) -/
inductive Pc (V : Type)
  | idle
  /-- `Send` at `o.evtChan <- e` — internal/output_base.go:134 -/
  | sending (e : Event V)
  /-- `Close` at `o.evtChan <- nil` — internal/output_base.go:142 -/
  | requesting
  /-- `Close` at `o.wait.Wait()` — internal/output_base.go:143 -/
  | waiting
  /-- `Close` at `atomic.StoreInt32` — internal/output_base.go:144 -/
  | storing
  /-- `Close` at `close(o.evtChan)` — internal/output_base.go:145 -/
  | closing

/-- A goroutine: where it is and the calls it has yet to make.  (A program that uses internal/output_base.go:130-146.) -/
structure Thread (V : Type) where
  pc : Pc V := .idle
  todo : List (ACall V) := []

/-- Where the worker is: not yet at `o.wait.Add(1)` (:156), in the loop, after `o.wait.Done()` (:157).
(internal/output_base.go:155-181) -/
inductive Worker
  | starting | running | stopped
  deriving DecidableEq

/-- `asyncOutput` — internal/output_base.go:120-128 — with the goroutines.  `none` in the channel is the nil
event; `writes` are the `Write` calls made on `o.w`. -/
structure AState (V : Type) where
  chan : List (Option (Event V)) := []
  chanClosed : Bool := false
  closed : Bool := false
  wait : Nat := 0
  worker : Worker := .starting
  buf : Bytes := []
  currNum : Nat := 0
  writes : List Bytes := []
  th : Nat → Thread V
  panicked : Bool := false

/-- Goroutine `t` gets on (the steps of internal/output_base.go:130-146). -/
def AState.set (s : AState V) (t : Nat) (x : Thread V) : AState V := { s with th := fun u => if u = t then x else s.th u }

/-- `flush` — internal/output_base.go:148-153. -/
def AState.flush (s : AState V) : AState V := { s with writes := s.writes ++ [s.buf], buf := [], currNum := 0 }

/-- What can be observed of a step.  (internal/output_base.go:130-181) -/
inductive ALab (V : Type)
  /-- goroutine `t` starts a call and finds the output open -/
  | start (t : Nat) (c : ACall V)
  /-- goroutine `t` starts a call, finds the output closed and returns -/
  | skip (t : Nat) (c : ACall V)
  /-- a `Send` queues its event and returns -/
  | queued (t : Nat) (e : Event V)
  /-- a `Close` queues its request -/
  | requested (t : Nat)
  /-- a `Close` finds that the worker is not at work -/
  | waited (t : Nat)
  | stored (t : Nat)
  /-- a `Close` closes the channel and returns -/
  | closed (t : Nat)
  /-- a call of goroutine `t` panics -/
  | panic (t : Nat)
  /-- the worker begins -/
  | begin
  | tick
  /-- the worker takes something from the queue (or nil from the closed channel) -/
  | took (x : Option (Event V))
  /-- the worker panics -/
  | workerPanic

/-- What the worker does with an event — internal/output_base.go:172-178. -/
def AState.handle (cfg : ACfg V) (f : Formatter V) (s : AState V) (e : Event V) : AState V :=
  if cfg.t ≤ e.level then
    let s := { s with buf := s.buf ++ f e, currNum := s.currNum + 1 }
    if cfg.batchNum ≤ s.currNum then s.flush else s
  else s

/-- The steps.  (internal/output_base.go:130-181, by the line in each) -/
inductive AAct (cfg : ACfg V) : AState V → ALab V → AState V → Prop
  /-- internal/output_base.go:131 -/
  | sendStart {s t e cs} : s.th t = { pc := .idle, todo := .send e :: cs } → s.closed = false →
      AAct cfg s (.start t (.send e)) (s.set t { pc := .sending e, todo := cs })
  /-- internal/output_base.go:131-132 -/
  | sendSkip {s t e cs} : s.th t = { pc := .idle, todo := .send e :: cs } → s.closed = true →
      AAct cfg s (.skip t (.send e)) (s.set t { pc := .idle, todo := cs })
  /-- internal/output_base.go:134 -/
  | sendQueue {s t e cs} : s.th t = { pc := .sending e, todo := cs } → s.chanClosed = false → s.chan.length < cfg.queueSize →
      AAct cfg s (.queued t e) (({ s with chan := s.chan ++ [some e] } : AState V).set t { pc := .idle, todo := cs })
  /-- internal/output_base.go:134: send on closed channel -/
  | sendPanic {s t e cs} : s.th t = { pc := .sending e, todo := cs } → s.chanClosed = true →
      AAct cfg s (.panic t) { s with panicked := true }
  /-- internal/output_base.go:139 -/
  | closeStart {s t cs} : s.th t = { pc := .idle, todo := .close :: cs } → s.closed = false →
      AAct cfg s (.start t .close) (s.set t { pc := .requesting, todo := cs })
  /-- internal/output_base.go:139-140 -/
  | closeSkip {s t cs} : s.th t = { pc := .idle, todo := .close :: cs } → s.closed = true →
      AAct cfg s (.skip t .close) (s.set t { pc := .idle, todo := cs })
  /-- internal/output_base.go:142 -/
  | closeRequest {s t cs} : s.th t = { pc := .requesting, todo := cs } → s.chanClosed = false → s.chan.length < cfg.queueSize →
      AAct cfg s (.requested t) (({ s with chan := s.chan ++ [none] } : AState V).set t { pc := .waiting, todo := cs })
  /-- internal/output_base.go:142: send on closed channel -/
  | requestPanic {s t cs} : s.th t = { pc := .requesting, todo := cs } → s.chanClosed = true →
      AAct cfg s (.panic t) { s with panicked := true }
  /-- internal/output_base.go:143 -/
  | closeWait {s t cs} : s.th t = { pc := .waiting, todo := cs } → s.wait = 0 →
      AAct cfg s (.waited t) (s.set t { pc := .storing, todo := cs })
  /-- internal/output_base.go:144 -/
  | closeStore {s t cs} : s.th t = { pc := .storing, todo := cs } →
      AAct cfg s (.stored t) (({ s with closed := true } : AState V).set t { pc := .closing, todo := cs })
  /-- internal/output_base.go:145 -/
  | closeChan {s t cs} : s.th t = { pc := .closing, todo := cs } → s.chanClosed = false →
      AAct cfg s (.closed t) (({ s with chanClosed := true } : AState V).set t { pc := .idle, todo := cs })
  /-- internal/output_base.go:145: close of closed channel -/
  | closePanic {s t cs} : s.th t = { pc := .closing, todo := cs } → s.chanClosed = true →
      AAct cfg s (.panic t) { s with panicked := true }
  /-- internal/output_base.go:156 -/
  | begin {s} : s.worker = .starting → AAct cfg s .begin { s with worker := .running, wait := s.wait + 1 }
  /-- internal/output_base.go:164-165 -/
  | tick {s} : s.worker = .running → AAct cfg s .tick s.flush
  /-- internal/output_base.go:166, 172-178 -/
  | takeEvent {s e rest f} : s.worker = .running → s.chan = some e :: rest → cfg.f = some f →
      AAct cfg s (.took (some e)) (({ s with chan := rest } : AState V).handle cfg f e)
  /-- internal/output_base.go:172: an event below the threshold needs no formatter -/
  | takeIgnored {s e rest} : s.worker = .running → s.chan = some e :: rest → cfg.f = none → e.level < cfg.t →
      AAct cfg s (.took (some e)) { s with chan := rest }
  /-- internal/output_base.go:173: nil formatter -/
  | takePanic {s e rest} : s.worker = .running → s.chan = some e :: rest → cfg.f = none → cfg.t ≤ e.level →
      AAct cfg s .workerPanic { s with chan := rest, panicked := true }
  /-- internal/output_base.go:166-169, 157 -/
  | takeNil {s rest} : s.worker = .running → s.chan = none :: rest →
      AAct cfg s (.took none) { ({ s with chan := rest } : AState V).flush with worker := .stopped, wait := s.wait - 1 }
  /-- internal/output_base.go:166-169, 157: an empty closed channel delivers nil -/
  | takeClosed {s} : s.worker = .running → s.chan = [] → s.chanClosed = true →
      AAct cfg s (.took none) { s.flush with worker := .stopped, wait := s.wait - 1 }

/-- A step: nothing happens after a panic.  (internal/output_base.go:130-181; a panic ends a Go program) -/
def AStep (cfg : ACfg V) (s : AState V) (l : ALab V) (s' : AState V) : Prop := s.panicked = false ∧ AAct cfg s l s'

/-- Executions with their observations.  (internal/output_base.go:130-181) -/
inductive AExec (cfg : ACfg V) : AState V → List (ALab V) → AState V → Prop
  | nil {s} : AExec cfg s [] s
  | snoc {s tr s' l s''} : AExec cfg s tr s' → AStep cfg s' l s'' → AExec cfg s (tr ++ [l]) s''

/-- `NewAsyncOutput` — internal/output_base.go:110-118 — and goroutines with the calls they will make. -/
def newAsync (prog : Nat → List (ACall V)) : AState V := { th := fun t => { todo := prog t } }

end Log4g
