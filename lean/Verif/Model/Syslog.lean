import Verif.Model.System

/-! # Connections to the syslog daemon

A syslog output has a `syslog.Writer` of package `log/syslog`, which has a connection to the daemon.  Here the steps of a
program (`Model/System.lean`) are given what they do to these connections, and what reaches the daemon.

Go's library is modelled, as far as it is used: `New`, `Close`, `connect`, `writeAndRetry` and `write` of
log/syslog/syslog.go, and `writeString` of local connections.  Each runs under the lock of the writer, so that it is one step.

Simplifications.  A write either succeeds, and the daemon has the message, or fails, and it has nothing.  The time and the
process number in a message are left out. -/

namespace Log4g
open Strconv
variable {V : Type}

/-- How the attempts of one call turn out: a write on the connection there is, a new connection, a write on that.
(Under internal/output_syslog.go:33-41.) -/
structure Dials where
  old : Bool
  dial : Bool
  fresh : Bool

/-- A message as the daemon gets it: `<priority>time tag[process]: text`.  (Under internal/output_syslog.go:33-41.) -/
structure SysMsg where
  priority : Nat
  tag : Bytes
  text : Bytes
  deriving DecidableEq

/-- The connections: that of the writer of each output, the number there have been, those that are open; and what the daemon
has got, with the outputs it is from.  (internal/output_syslog.go:14) -/
structure Sockets where
  conn : Nat → Option Nat := fun _ => none
  made : Nat := 0
  live : List Nat := []
  got : List (Nat × SysMsg) := []

/-- `Close` of the writer — Go's `log/syslog`: called at internal/output_syslog.go:61 and by `connect`. -/
def Sockets.hangUp (y : Sockets) (o : Nat) : Sockets :=
  match y.conn o with
  | none => y
  | some k => { y with conn := fun p => if p = o then none else y.conn p, live := y.live.erase k }

/-- `connect` — Go's `log/syslog`: what there is is closed first.  (Under internal/output_syslog.go:33-41, 67.) -/
def Sockets.connect (y : Sockets) (o : Nat) (ok : Bool) : Sockets :=
  let y := y.hangUp o
  if ok then { y with conn := fun p => if p = o then some y.made else y.conn p, made := y.made + 1, live := y.live ++ [y.made] } else y

/-- A write that succeeds.  (Under internal/output_syslog.go:33-41.) -/
def Sockets.deliver (y : Sockets) (o : Nat) (m : SysMsg) : Sockets := { y with got := y.got ++ [(o, m)] }

/-- `writeAndRetry` — Go's `log/syslog`: if there is no connection or the write on it fails, one new connection and one more
write.  (Under internal/output_syslog.go:33-41, where the error is ignored.) -/
def Sockets.writeAndRetry (y : Sockets) (t : Dials) (o : Nat) (m : SysMsg) : Sockets :=
  if (y.conn o).isSome ∧ t.old then y.deliver o m
  else
    let y := y.connect o t.dial
    if t.dial ∧ t.fresh then y.deliver o m else y

/-- The severities `LOG_DEBUG`, `LOG_INFO`, `LOG_WARNING`, `LOG_ERR`, `LOG_CRIT` of Go's `log/syslog`.
(internal/output_syslog.go:31-42) -/
def SysCall.severity : SysCall → Nat
  | .debug _ => 7
  | .info _ => 6
  | .warning _ => 4
  | .err _ => 3
  | .crit _ => 2

/-- What the call is given — internal/output_syslog.go:33-41. -/
def SysCall.arg : SysCall → Bytes
  | .debug m | .info m | .warning m | .err m | .crit m => m

/-- The option `prefix` of an output — internal/output_syslog.go:67. -/
def World.sysPrefix (w : World) (o : Nat) : Str :=
  match w.mgr.oheap[o]? with
  | some ⟨.managed cfg, _⟩ => cfg.at c!"prefix"
  | _ => []

/-- `write` and `writeString` — Go's `log/syslog`: the facility of the writer's priority, `LOG_CRIT` (2), the severity of the
call; `os.Args[0]` if the tag is empty; a line break at the end.  (internal/output_syslog.go:33-41, 67) -/
def SysCall.message (args0 : Bytes) (pre : Str) (c : SysCall) : SysMsg where
  priority := (2 &&& 0xf8) ||| (c.severity &&& 7)
  tag := if pre = [] then args0 else pre.bytes
  text := if c.arg.getLast? = some 10 then c.arg else c.arg ++ [10]

/-- The numbers, from `n` on, of outputs that are made, and have a `syslog.Writer` — internal/output_syslog.go:66-76. -/
def World.syslogFrom (tc : Toolchain) (w : World) (n : Nat) : List Nat :=
  (List.range' n (w.mgr.oheap.length - n)).filter fun o =>
    match w.mgr.oheap[o]? with
    | some ob => match ob.kind tc with
      | .syslog _ => true
      | _ => false
    | none => false

/-- What a step of a program does to the connections: `New` for outputs that are made (internal/output_syslog.go:67; an output
is made only if the daemon answers), one of the methods of the writer for a message (internal/output_syslog.go:33-41), `Close`
(internal/output_syslog.go:59-63). -/
def Sockets.after (env : PEnv V) (args0 : Bytes) (y : Sockets) (s s' : PState V) (t : Dials) : PLab V → Sockets
  | .act _ => (s'.w.syslogFrom env.tc s.w.mgr.oheap.length).foldl (fun y o => y.connect o true) y
  | .plain _ o (.send _) =>
    ((s'.syslog o).drop (s.syslog o).length).foldl (fun y c => y.writeAndRetry t o (c.message args0 (s.w.sysPrefix o))) y
  | .plain _ o .close => y.hangUp o
  | _ => y

/-- Executions, with the connections.  (internal/output_syslog.go:19-76) -/
inductive YExec (env : PEnv V) (args0 : Bytes) : PState V → List (PLab V × Dials) → PState V → Sockets → Prop
  | nil {s} : YExec env args0 s [] s {}
  | snoc {s tr s' y l s'' t} : YExec env args0 s tr s' y → PStep env s' l s'' →
      YExec env args0 s (tr ++ [(l, t)]) s'' (y.after env args0 s' s'' t l)

end Log4g
