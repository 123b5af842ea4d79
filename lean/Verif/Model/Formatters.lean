import Verif.Model.Async
import Verif.Model.World

/-! # `SetFormatter` — `api/logger_api.go:157-158`, `internal/output_base.go:57-60`, `internal/output_syslog.go:45-48`

Outputs whose formatter is set anew while they are used.  A program gets at the outputs of the manager by
`GetLoggerOutputs` (api/logger_mange.go:21-22). -/

namespace Log4g
variable {V : Type}

/-- `syslogOutput.SetFormatter` — internal/output_syslog.go:46-48. -/
def SyslogOutput.setFormatter (o : SyslogOutput V) (f : Option (Formatter V)) : SyslogOutput V := { o with f := f }

/-- A call on an output; `none` is the nil formatter.  (api/logger_api.go:153-158) -/
inductive OutCall (V : Type)
  | send (e : Event V)
  | setFormatter (f : Option (Formatter V))

/-- A call on a synchronous output — internal/output_base.go:40-60. -/
def BaseOutput.call (lib : Lib V) (o : BaseOutput V) : OutCall V → BaseOutput V
  | .send e => o.send lib e
  | .setFormatter f => o.setFormatter f

/-- A call on a syslog output — internal/output_syslog.go:19-48. -/
def SyslogOutput.call (lib : Lib V) (o : SyslogOutput V) : OutCall V → SyslogOutput V
  | .send e => o.send lib e
  | .setFormatter f => o.setFormatter f

/-! ## Asynchronous outputs -/

/-- An asynchronous output with the field `f` of its embedded `*baseOutput` — internal/output_base.go:29, 120-128. -/
structure Refitted (V : Type) where
  a : AState V
  f : Option (Formatter V)

/-- `SetFormatter`, or a step of the output.  (internal/output_base.go:58-60, 130-181) -/
inductive RefLab (V : Type)
  | set (f : Option (Formatter V))
  | step (l : ALab V)

/-- The steps.  The worker looks at the field when it formats an event (internal/output_base.go:173); the formatter in
`cfg` is the one the output has at the beginning.  Simplification: the assignment (internal/output_base.go:59) and the
reading of the field are atomic, though nothing synchronises them. -/
inductive RefStep (cfg : ACfg V) : Refitted V → RefLab V → Refitted V → Prop
  /-- internal/output_base.go:59 -/
  | set {s f} : s.a.panicked = false → RefStep cfg s (.set f) { s with f := f }
  /-- internal/output_base.go:130-181 -/
  | step {s l a'} : AStep { cfg with f := s.f } s.a l a' → RefStep cfg s (.step l) { s with a := a' }

/-- Executions.  (internal/output_base.go:58-60, 130-181) -/
inductive RefExec (cfg : ACfg V) : Refitted V → List (RefLab V) → Refitted V → Prop
  | nil {s} : RefExec cfg s [] s
  | snoc {s tr s' l s''} : RefExec cfg s tr s' → RefStep cfg s' l s'' → RefExec cfg s (tr ++ [l]) s''

/-- `NewAsyncOutput` and `SetFormatter` with the first formatter (internal/output_base.go:110-118, internal/logger_manager.go:97),
and goroutines with the calls they will make. -/
def newRefitted (cfg : ACfg V) (prog : Nat → List (ACall V)) : Refitted V := { a := newAsync prog, f := cfg.f }

/-! ## Loggers and the caller -/

/-- `SetFormatter` on output `o` with a formatter of the program's own; `none` is the nil formatter.  Of the formatter, its
`CallerInfoFlag()` matters here.  (internal/output_base.go:58-60, internal/output_syslog.go:46-48; outputs of the user's own
answer `CallerInfoFlag()` as they like.) -/
def World.setFormatter (w : World) (o : Nat) (fo : Option FmtObj) : World :=
  { w with mgr := { w.mgr with
      fheap := w.mgr.fheap ++ fo.toList
      oheap := w.mgr.oheap.modify o fun ob => { ob with fmt := fo.map fun _ => w.mgr.fheap.length } } }

/-- What a program does: any call of the library (api/logger_api.go:74-105, api/logger_mange.go:14-39), and `SetFormatter`
(api/logger_api.go:158). -/
inductive FmtAct
  | lib (a : Act)
  | setFormatter (o : Nat) (fo : Option FmtObj)

/-- The effect of each (api/logger_api.go:74-105, 158). -/
def FmtAct.run (w : World) : FmtAct → World
  | .lib a => a.run w
  | .setFormatter o fo => w.setFormatter o fo

/-- When a program can do it (as `Act.ok`; api/logger_api.go:74-105, 158): outputs exist. -/
def FmtAct.ok (w : World) : FmtAct → Prop
  | .lib a => a.ok w
  | .setFormatter o _ => o < w.mgr.oheap.length

/-- Histories of these (api/logger_api.go:74-105, 158). -/
inductive FmtSteps : World → List FmtAct → World → Prop
  | refl (w) : FmtSteps w [] w
  | tail {w w' as a} : FmtSteps w as w' → a.ok w' → FmtSteps w (as ++ [a]) (a.run w')

end Log4g
