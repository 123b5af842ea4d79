import Verif.Model.Async
import Verif.Model.Logger
import Verif.Model.Standard

/-! # A whole program — logging, reconfiguring and shutting down at the same time

Any number of goroutines that make calls in any order: log calls, calls of the other functions of the API, `Close` of the
manager (the goroutine `init` starts to wait for a signal makes this call too, internal/log4g.go:39-44), and direct calls
of `Send` and `Close` on outputs.  Every asynchronous output has its worker (`Model/Async.lean`).

The manager's lock is modelled as far as it is held over several steps, which only `Close` does.

Simplifications.  Calls that change the configuration are one step (`Model/Concurrent.lean` takes them apart).  A log call
finds out in one step to which outputs it will send which event (`Model/LogThreads.lean` takes that apart), and then calls
the outputs one after the other.  `Send` of a synchronous output is one step, with what it writes; `Close` of such an
output does nothing (internal/output_base.go:70-72; a closed `syslog.Writer` connects again when it is used).  `Send` and
`Close` of outputs the user has made return and do nothing that is looked at here.  Creators the program registers under
the names of the library's types are not covered.  A panic ends the program. -/

namespace Log4g
open Strconv
variable {V : Type}

/-- What a program runs in: the version of Go, the library functions, the stack on which workers call formatters
(internal/output_base.go:173), the user's formatters. -/
structure PEnv (V : Type) where
  tc : Toolchain
  lib : Lib V
  stack : List Frame
  other : Nat → Formatter V

/-- The parameters of output `o` if it is asynchronous — internal/output_console.go:21, internal/output_rolling.go:67 —, with
the formatter the manager gave it (internal/logger_manager.go:97). -/
def World.asyncOf (env : PEnv V) (w : World) (o : Nat) : Option (ACfg V) :=
  match w.mgr.oheap[o]? with
  | none => none
  | some ob =>
    match ob.kind env.tc with
    | .console (.async t q b) | .rolling _ (.async t q b) =>
      some { queueSize := q.toNat, batchNum := b.toNat, t := t, f := w.formatterOf env.lib env.stack env.other ob }
    | _ => none

/-- What a syslog output calls on its writer in one `Send` — internal/output_syslog.go:19-43. -/
def World.sendSyslog (env : PEnv V) (stack : List Frame) (w : World) (d : World.Delivery V) : List SysCall :=
  match w.mgr.oheap[d.out]? with
  | none => []
  | some ob =>
    match ob.kind env.tc with
    | .syslog t => (({ t := t, f := w.formatterOf env.lib stack env.other ob } : SyslogOutput V).send env.lib d.evt).w
    | _ => []

/-- The calls that take the manager's lock — internal/logger_manager.go:42, 48, 55, 133, internal/logger_factory.go:34, 77. -/
def Act.locks (w : World) : Act → Prop
  | .registerFormatter _ _ | .registerOutput _ _ | .queryOutputs _ => True
  | .setConfig cfg order => (w.setConfig cfg order).1 = none
  | .loadConfig d bs ext order => (w.loadConfig d bs ext order).1 = none
  | .loadConfigFile d file read order => (w.loadConfigFile d file read order).1 = .returned none
  | .getLogger name => if name = [] ∨ name = rootLoggerName then w.root = none else Map.get w.loggers name = none
  | _ => False

/-- `LoadConfigFile` panics for a file without extension — internal/logger_manager.go:110-111. -/
def Act.panics (w : World) : Act → Prop
  | .loadConfigFile d file read order => (w.loadConfigFile d file read order).1 = .panic
  | _ => False

/-- The program does not replace the types of the library (internal/log4g.go:17-23). -/
def Act.keepsTypes : Act → Prop
  | .registerFormatter t _ => t ≠ typeText
  | .registerOutput t _ => t ∉ stdTypes
  | _ => True

/-- A call that uses outputs: a log call — internal/logger.go:161 —, `Close` of the manager —
internal/logger_manager.go:189 —, or a call the program makes on an output itself (api/logger_api.go:153-165). -/
inductive PCall | log | close | direct
  deriving DecidableEq

/-- A goroutine: the call it is in, the calls on outputs it has yet to make in it, and the asynchronous output it has
called.  (internal/logger.go:196-198, internal/logger_manager.go:191-193) -/
structure PThread (V : Type) where
  call : Option PCall := none
  todo : List (Nat × ACall V) := []
  inside : Option Nat := none

/-- The state: the library, its asynchronous outputs, what the others have written, the owner of the manager's lock, the
goroutines.  Outputs that do not exist yet are as new.  (internal/logger_manager.go:21-29, internal/output_base.go:120-128) -/
structure PState (V : Type) where
  w : World
  a : Nat → AState V := fun _ => newAsync fun _ => []
  wrote : Nat → List Bytes := fun _ => []
  syslog : Nat → List SysCall := fun _ => []
  lock : Option Nat := none
  th : Nat → PThread V := fun _ => {}
  panicked : Bool := false

/-- Goroutine `t` gets on (internal/logger.go:196-198, internal/logger_manager.go:189-195). -/
def PState.set (s : PState V) (t : Nat) (x : PThread V) : PState V := { s with th := fun u => if u = t then x else s.th u }

/-- An output gets on (internal/output_base.go:130-181). -/
def PState.setOut (s : PState V) (o : Nat) (x : AState V) : PState V := { s with a := fun p => if p = o then x else s.a p }

/-- Goroutine `t` makes the call `c` of an output (internal/logger.go:197, internal/logger_manager.go:192). -/
def AState.push (s : AState V) (t : Nat) (c : ACall V) : AState V :=
  s.set t { s.th t with todo := (s.th t).todo ++ [c] }

/-- What can be observed of a step.  (internal/logger.go:161-199, internal/logger_manager.go:189-195, internal/output_base.go:130-181) -/
inductive PLab (V : Type)
  /-- a call of the API other than those below -/
  | act (a : Act)
  /-- goroutine `t` begins a log call that will send `ds` -/
  | log (t : Nat) (ds : List (World.Delivery V))
  /-- a call of goroutine `t` panics -/
  | panic (t : Nat)
  /-- goroutine `t` has called the manager's `Close` and got the lock; it will close `os` -/
  | close (t : Nat) (os : List Nat)
  /-- goroutine `t` calls output `o` itself -/
  | direct (t : Nat) (o : Nat) (c : ACall V)
  /-- goroutine `t`, in one of the calls above, calls the asynchronous output `o` -/
  | enter (t : Nat) (o : Nat) (c : ACall V)
  /-- that call returns -/
  | leave (t : Nat) (o : Nat)
  /-- goroutine `t`, in one of the calls above, calls output `o`, which is not asynchronous, and the call returns -/
  | plain (t : Nat) (o : Nat) (c : ACall V)
  /-- a step of the asynchronous output `o` -/
  | out (o : Nat) (l : ALab V)
  /-- the log call, `Close` or direct call of goroutine `t` returns -/
  | ret (t : Nat)

/-- The steps.  (internal/logger.go:161-199, internal/logger_manager.go:189-195, internal/output_base.go:130-181; by the lines in each.) -/
inductive PAct (env : PEnv V) : PState V → PLab V → PState V → Prop
  /-- api/logger_api.go:74-105, api/logger_mange.go:14-39 -/
  | act {s} {a : Act} : a.ok s.w → a.keepsTypes → ¬ a.panics s.w → (a.locks s.w → s.lock = none) → PAct env s (.act a) { s with w := a.run s.w }
  /-- internal/logger_manager.go:111 -/
  | actPanic {s t} {a : Act} : a.panics s.w → PAct env s (.panic t) { s with panicked := true }
  /-- internal/logger.go:161-195 -/
  | log {s t now stack r ctx lvl fmt args ds} : (s.th t).call = none → r < s.w.heap.length →
      s.w.printf now stack r ctx lvl fmt args = .sent ds →
      PAct env s (.log t ds) (s.set t { call := some .log, todo := ds.map fun d => (d.out, .send d.evt) })
  /-- internal/logger.go:189-193, internal/logger_callerinfo.go:29 -/
  | logPanic {s t now stack r} {ctx : Ctx V} {lvl fmt} {args : List V} : (s.th t).call = none → r < s.w.heap.length →
      s.w.printf now stack r ctx lvl fmt args = .panic → PAct env s (.panic t) { s with panicked := true }
  /-- internal/logger_manager.go:190-191 -/
  | close {s t os} : (s.th t).call = none → s.lock = none → os.Perm (s.w.mgr.outputs.map (·.2)) →
      PAct env s (.close t os) (({ s with lock := some t } : PState V).set t { call := some .close, todo := os.map fun o => (o, .close) })
  /-- api/logger_api.go:153-165 -/
  | direct {s t o c} : (s.th t).call = none → o < s.w.mgr.oheap.length →
      PAct env s (.direct t o c) (s.set t { call := some .direct, todo := [(o, c)] })
  /-- internal/logger.go:197, internal/logger_manager.go:192 -/
  | enter {s t k o c rest cfg} : s.th t = { call := k, todo := (o, c) :: rest } → s.w.asyncOf env o = some cfg →
      PAct env s (.enter t o c) ((s.setOut o ((s.a o).push t c)).set t { call := k, todo := rest, inside := some o })
  /-- internal/output_base.go:130-181 -/
  | out {s o l x cfg} : s.w.asyncOf env o = some cfg → AStep cfg (s.a o) l x →
      PAct env s (.out o l) { s.setOut o x with panicked := x.panicked }
  /-- internal/output_base.go:132, 135, 140, 146 -/
  | leave {s t k o rest} : s.th t = { call := k, todo := rest, inside := some o } → (s.a o).th t = { pc := .idle, todo := [] } →
      PAct env s (.leave t o) (s.set t { call := k, todo := rest })
  /-- internal/output_base.go:40-55, internal/output_syslog.go:19-43 -/
  | send {s t k o e rest} (stack : List Frame) : s.th t = { call := k, todo := (o, .send e) :: rest } → s.w.asyncOf env o = none →
      PAct env s (.plain t o (.send e))
        (({ s with wrote := fun p => if p = o then s.wrote o ++ s.w.sendWrites env.tc env.lib stack env.other ⟨o, e⟩ else s.wrote p,
                   syslog := fun p => if p = o then s.syslog o ++ s.w.sendSyslog env stack ⟨o, e⟩ else s.syslog p } : PState V).set t
          { call := k, todo := rest })
  /-- internal/output_base.go:70-72, internal/output_syslog.go:59-63 -/
  | closed {s t k o rest} : s.th t = { call := k, todo := (o, .close) :: rest } → s.w.asyncOf env o = none →
      PAct env s (.plain t o .close) (s.set t { call := k, todo := rest })
  /-- internal/logger.go:199, internal/logger_manager.go:194 -/
  | ret {s t k} : s.th t = { call := some k } →
      PAct env s (.ret t) (({ s with lock := if k = .close then none else s.lock } : PState V).set t {})

/-- A step: nothing happens after a panic.  (A panic ends a Go program; for example internal/output_base.go:134.) -/
def PStep (env : PEnv V) (s : PState V) (l : PLab V) (s' : PState V) : Prop := s.panicked = false ∧ PAct env s l s'

/-- Executions.  (internal/logger.go:161-199, internal/logger_manager.go:189-195, internal/output_base.go:130-181) -/
inductive PExec (env : PEnv V) : PState V → List (PLab V) → PState V → Prop
  | nil {s} : PExec env s [] s
  | snoc {s tr s' l s''} : PExec env s tr s' → PStep env s' l s'' → PExec env s (tr ++ [l]) s''

/-- A program that begins: the library's `init` has run (internal/log4g.go:15-37), nothing else. -/
def newProgram (up : Nat → Bool) : PState V := { w := (initActs up).foldl (fun w a => a.run w) {} }

end Log4g
