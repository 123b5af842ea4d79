import Verif.Model.Async
import Verif.Model.Logger

/-! # Formatters and outputs that panic — `internal/logger.go:195-198`, `internal/output_base.go:40-55, 155-181`,
`internal/output_syslog.go:19-43`

`Format` of a formatter written by the user, and `Send` of an output written by the user, may panic.  In the
goroutine that logs, the panic goes up through the log call, to a program that may recover it; nothing in the library does.  In the
worker of an asynchronous output it ends the program. -/

namespace Log4g
open World
variable {V : Type}

/-- `Format` of a formatter that may panic (`none`) — api/logger_api.go:135-142. -/
abbrev Shaky (V : Type) := Event V → Option Bytes

/-- Outputs: synchronous ones, those for syslog, and ones of the user's own, of which it matters which events they got and for which ones they
panic.  (internal/output_base.go:27-31, internal/output_syslog.go:13-17, api/logger_api.go:148-163) -/
inductive ShakyOut (V : Type)
  | base (w : List Bytes) (f : Option (Shaky V)) (t : Level)
  | syslog (w : List SysCall) (f : Option (Shaky V)) (t : Level)
  | own (got : List (Event V)) (panics : Event V → Bool)

/-- `Send`: the output afterwards, and whether the call returned (`false`: it panicked).  `Format` is called before anything is
written.  (internal/output_base.go:40-55, internal/output_syslog.go:19-43) -/
def ShakyOut.send (lib : Lib V) : ShakyOut V → Event V → ShakyOut V × Bool
  | .base w f t, e =>
    if e.level < t then (.base w f t, true)
    else match f with
      | some g => match g e with
        | some bs => (.base (w ++ [bs]) f t, true)
        | none => (.base w f t, false)
      | none => (.base (w ++ [defaultFormat lib e]) f t, true)
  | .syslog w f t, e =>
    if e.level < t then (.syslog w f t, true)
    else match f with
      | some g => match g e with
        | some bs => (.syslog (({ w, f := some fun _ => bs, t } : SyslogOutput V).send lib e).w f t, true)
        | none => (.syslog w f t, false)
      | none => (.syslog (({ w, f := none, t } : SyslogOutput V).send lib e).w f t, true)
  | .own got p, e => if p e then (.own got p, false) else (.own (got ++ [e]) p, true)

/-- The outputs of a program.  (internal/logger.go:22) -/
abbrev ShakyOuts (V : Type) := Nat → ShakyOut V

/-- The loop over the outputs: the outputs afterwards, and whether it came to its end.  (internal/logger.go:195-198) -/
def sendAll (lib : Lib V) : List (Delivery V) → ShakyOuts V → ShakyOuts V × Bool
  | [], os => (os, true)
  | d :: ds, os =>
    let (x, ok) := (os d.out).send lib d.evt
    let os : ShakyOuts V := fun q => if q = d.out then x else os q
    if ok then sendAll lib ds os else (os, false)

/-- A log call whose panic, if any, the program recovers.  (internal/logger.go:165-199) -/
def logCall (lib : Lib V) (os : ShakyOuts V) (oc : Outcome V) : ShakyOuts V × Bool :=
  match oc with
  | .panic => (os, false)
  | .sent ds => sendAll lib ds os

/-- A program that logs; it recovers all panics.  (internal/logger.go:113-199) -/
def logCalls (lib : Lib V) (os : ShakyOuts V) (ocs : List (Outcome V)) : ShakyOuts V := ocs.foldl (fun os oc => (logCall lib os oc).1) os

/-! ## Asynchronous outputs -/

/-- The steps of an asynchronous output with a formatter that may panic.  A panic of the worker ends the program.
(internal/output_base.go:130-181) -/
inductive ShakyStep (cfg : ACfg V) (g : Shaky V) : AState V → ALab V → AState V → Prop
  /-- internal/output_base.go:130-181 -/
  | calm {s l s'} : AStep { cfg with f := some fun e => (g e).getD [] } s l s' → (∀ e, l = .took (some e) → cfg.t ≤ e.level → g e ≠ none) →
      ShakyStep cfg g s l s'
  /-- internal/output_base.go:173 -/
  | panic {s e rest} : s.panicked = false → s.worker = .running → s.chan = some e :: rest → cfg.t ≤ e.level → g e = none →
      ShakyStep cfg g s .workerPanic { s with chan := rest, panicked := true }

/-- Executions.  (internal/output_base.go:130-181) -/
inductive ShakyExec (cfg : ACfg V) (g : Shaky V) : AState V → List (ALab V) → AState V → Prop
  | nil {s} : ShakyExec cfg g s [] s
  | snoc {s tr s' l s''} : ShakyExec cfg g s tr s' → ShakyStep cfg g s' l s'' → ShakyExec cfg g s (tr ++ [l]) s''

end Log4g
