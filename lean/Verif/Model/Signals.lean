import Verif.Model.Machine

/-! # Signals

The library asks to be told of SIGINT and SIGTERM, and a goroutine that `init` starts waits for the first of them and calls
the manager's `Close` (internal/log4g.go:38-43).  The program of `Model/Machine.lean` with this goroutine, which has a number
like the others.  Whoever is told of a signal does not die of it; what else the program does about signals is up to it. -/

namespace Log4g
variable {V : Type}

/-- The goroutine `init` starts: it waits for a signal, has been told of one, has called `Close`. — internal/log4g.go:40-43 -/
inductive SigPc | waits | told | closes
  deriving DecidableEq

/-- The program, the channel `listenSig`, which has room for one signal, and the goroutine. — internal/log4g.go:38-43 -/
structure Signalled (V : Type) where
  m : Machine V
  chan : Bool := false
  pc : SigPc := .waits

/-- A signal arrives; the goroutine receives it; anything else. — internal/log4g.go:38-43 -/
inductive GLab (V : Type)
  | signal
  | received
  | step (l : MLab V)

/-- Goroutine `t` begins something. (internal/logger.go:161, internal/logger_manager.go:111, 189, api/logger_api.go:153-165) -/
def PLab.startedBy (t : Nat) : PLab V → Prop
  | .log u _ | .close u _ | .direct u _ _ | .panic u => u = t
  | _ => False

/-- The steps; `me` is the goroutine of `init`. — internal/log4g.go:38-43 -/
inductive GStep (env : PEnv V) (host : Host) (me : Nat) : Signalled V → GLab V → Signalled V → Prop
  /-- internal/log4g.go:39: told of a signal, unless there is no room for it -/
  | signal {s} : s.m.p.panicked = false → GStep env host me s .signal { s with chan := true }
  /-- internal/log4g.go:41 -/
  | receive {s} : s.m.p.panicked = false → s.chan = true → s.pc = .waits → GStep env host me s .received { s with chan := false, pc := .told }
  /-- internal/log4g.go:42 -/
  | close {s os m'} : s.pc = .told → MStep env host s.m (.prog (.close me os)) m' → GStep env host me s (.step (.prog (.close me os))) { s with m := m', pc := .closes }
  /-- the goroutine begins nothing else (internal/log4g.go:40-43) -/
  | step {s l m'} : MStep env host s.m l m' → (∀ p, (l = .prog p ∨ ∃ k o bs, l = .write p k o bs) → ¬ p.startedBy me) →
      GStep env host me s (.step l) { s with m := m' }

/-- Executions. — internal/log4g.go:38-43 -/
inductive GExec (env : PEnv V) (host : Host) (me : Nat) : Signalled V → List (GLab V) → Signalled V → Prop
  | nil {s} : GExec env host me s [] s
  | snoc {s tr s' l s''} : GExec env host me s tr s' → GStep env host me s' l s'' → GExec env host me s (tr ++ [l]) s''

/-- A program that begins — internal/log4g.go:15-43. -/
def newSignalled (up : Nat → Bool) (vol : Nat → Volume) : Signalled V := { m := newMachine up vol }

end Log4g
