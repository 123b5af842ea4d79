import Verif.Model.Async

/-! # Arguments that log — `internal/output_base.go:40-55, 130-135, 162-180`

To format an argument `fmt` calls its `String` or `Error` method (api/logger_api.go:119-130), and this method may log.
An asynchronous output formats in its worker, so then the worker itself calls `Send`.  Here formatting an event is no
single step: the worker first makes the `Send` calls the event's arguments ask for.

Simplification: what formatting an event sends to this output depends on the event only; it does not close outputs; the
text of the event does not depend on it. -/

namespace Log4g
variable {V : Type}

/-- The worker between `evt := <-o.evtChan` and `o.buf.Write` (internal/output_base.go:166-173): the event it formats, what
this has yet to send, and whether the first of these is at `o.evtChan <- e` (:134). -/
structure Formatting (V : Type) where
  evt : Event V
  todo : List (Event V)
  sending : Bool := false

/-- An asynchronous output — internal/output_base.go:120-128 — with a worker that may be formatting. -/
structure NestState (V : Type) where
  a : AState V
  fm : Option (Formatting V) := none

/-- Steps: those of `Async`, and those of a worker that formats — internal/output_base.go:130-135, 166-173. -/
inductive NestLab (V : Type)
  | out (l : ALab V)
  /-- the worker takes an event and begins to format it -/
  | format (e : Event V)
  /-- the worker finds the output open (:131) -/
  | inner (x : Event V)
  /-- the worker finds the output closed (:131-132) -/
  | dropped (x : Event V)
  /-- the worker queues an event (:134) -/
  | queued (x : Event V)
  /-- the worker panics: send on a closed channel (:134) -/
  | panic
  /-- the worker has formatted an event (:173-178) -/
  | formatted (e : Event V)

/-- Whether a step is one of the worker — internal/output_base.go:155-181. -/
def ALab.ofWorker : ALab V → Bool
  | .begin | .tick | .took _ | .workerPanic => true
  | _ => false

/-- The steps — internal/output_base.go:130-181.  `says e` are the events that formatting `e` sends to this output. -/
inductive NestStep (cfg : ACfg V) (says : Event V → List (Event V)) : NestState V → NestLab V → NestState V → Prop
  /-- the other goroutines, and the worker where it formats nothing (internal/output_base.go:130-171) -/
  | out {s l a} : AStep cfg s.a l a → (l.ofWorker = true → s.fm = none) → (∀ e, l = .took (some e) → e.level < cfg.t) →
      NestStep cfg says s (.out l) { s with a := a }
  /-- internal/output_base.go:166, 172-173 -/
  | format {s e rest f} : s.a.panicked = false → s.fm = none → s.a.worker = .running → s.a.chan = some e :: rest → cfg.f = some f → cfg.t ≤ e.level →
      NestStep cfg says s (.format e) { a := { s.a with chan := rest }, fm := some { evt := e, todo := says e } }
  /-- internal/output_base.go:131 -/
  | inner {s e x xs} : s.a.panicked = false → s.fm = some { evt := e, todo := x :: xs } → s.a.closed = false →
      NestStep cfg says s (.inner x) { s with fm := some { evt := e, todo := x :: xs, sending := true } }
  /-- internal/output_base.go:131-132 -/
  | dropped {s e x xs} : s.a.panicked = false → s.fm = some { evt := e, todo := x :: xs } → s.a.closed = true →
      NestStep cfg says s (.dropped x) { s with fm := some { evt := e, todo := xs } }
  /-- internal/output_base.go:134 -/
  | queued {s e x xs} : s.a.panicked = false → s.fm = some { evt := e, todo := x :: xs, sending := true } → s.a.chanClosed = false →
      s.a.chan.length < cfg.queueSize →
      NestStep cfg says s (.queued x) { a := { s.a with chan := s.a.chan ++ [some x] }, fm := some { evt := e, todo := xs } }
  /-- internal/output_base.go:134: send on closed channel -/
  | panic {s e x xs} : s.a.panicked = false → s.fm = some { evt := e, todo := x :: xs, sending := true } → s.a.chanClosed = true →
      NestStep cfg says s .panic { s with a := { s.a with panicked := true } }
  /-- internal/output_base.go:173-178 -/
  | formatted {s e f} : s.a.panicked = false → s.fm = some { evt := e, todo := [] } → cfg.f = some f →
      NestStep cfg says s (.formatted e) { a := s.a.handle cfg f e, fm := none }

/-- Executions — internal/output_base.go:110-181. -/
inductive NestExec (cfg : ACfg V) (says : Event V → List (Event V)) : NestState V → List (NestLab V) → NestState V → Prop
  | nil {s} : NestExec cfg says s [] s
  | snoc {s tr s' l s''} : NestExec cfg says s tr s' → NestStep cfg says s' l s'' → NestExec cfg says s (tr ++ [l]) s''

/-- An event, and the events that formatting it logs (as above; api/logger_api.go:119-130). -/
inductive Nested (V : Type)
  | evt (e : Event V) (inner : List (Nested V))

/-- `Send` of a synchronous output — internal/output_base.go:40-55 —, with arguments that log to it: they do so before the
output writes. -/
def BaseOutput.sendNested (lib : Lib V) (o : BaseOutput V) : Nested V → BaseOutput V
  | .evt e inner => if e.level < o.t then o else (sendAll o inner).send lib e
where
  /-- One after the other — internal/output_base.go:40-55. -/
  sendAll (o : BaseOutput V) : List (Nested V) → BaseOutput V
    | [] => o
    | n :: ns => sendAll (o.sendNested lib n) ns

end Log4g
