import Verif.Model.Panicking
import Verif.Model.Format

/-! # Nil arguments — `internal/logger.go:48-50, 99-106, 165-199`, `internal/logger_manager.go:128-148`,
`internal/output_base.go:40-43, 130-181`, `internal/output_syslog.go:19-22`

What the calls do that take an interface or a pointer, when they are given nil: `SetConfig(nil)`, `SetOutputs` with nil
among the outputs, `Send(nil)` and `WithCtx(nil)`.  Nothing in the library recovers a panic; a program may recover those in its own
goroutines, but not one in the worker of an asynchronous output. -/

namespace Log4g
open World
variable {V : Type}

/-! ## Configurations -/

/-- `SetConfig` with a pointer that may be nil: `validateConfig` reads a field of it (:146) before anything is locked or
changed.  The first component is `none` if the call panicked.  (internal/logger_manager.go:128-131, 142-146, 185-187) -/
def World.setConfigPtr (w : World) (cfg : Option Config) (order : List Nat) : Option (Option MgrErr) × World :=
  match cfg with
  | none => (none, w)
  | some cfg => (some (w.setConfig cfg order).1, (w.setConfig cfg order).2)

/-- The calls of a program, among them such as give `SetConfig` a pointer.  (api/logger_mange.go:35) -/
inductive NilAct
  | act (a : Act)
  | setConfigPtr (cfg : Option Config) (order : List Nat)

/-- The effect of a call whose panic, if any, is recovered.  (api/logger_mange.go:14-39) -/
def NilAct.run (w : World) : NilAct → World
  | .act a => a.run w
  | .setConfigPtr cfg order => (w.setConfigPtr cfg order).2

/-! ## Outputs

Nil has a reference of its own, `z`, that no output has. -/

/-- The loop of `SetOutputs` where outputs may be nil: the flag, and whether the loop came to its end; `op.CallerInfoFlag()` panics
on nil.  (internal/logger.go:101-105) -/
def raiseFlagNil (m : Manager) (z : Nat) (flag : Int) : List Nat → Int × Bool
  | [] => (flag, true)
  | o :: os => if o = z then (flag, false) else raiseFlagNil m z (if flag < m.outFlag o then m.outFlag o else flag) os

/-- `SetOutputs` where outputs may be nil: the outputs are stored before they are looked at.  The second component says whether
the call returned.  (internal/logger.go:99-106) -/
def World.setOutputsNil (w : World) (z : Nat) (r : Nat) (ops : List Nat) : World × Bool :=
  (w.update r fun l => { l with outputs := ops, callerInfoFlag := (raiseFlagNil w.mgr z l.callerInfoFlag ops).1 },
    match w.heap[r]? with
    | some l => (raiseFlagNil w.mgr z l.callerInfoFlag ops).2
    | none => true)

/-- The loop over the outputs, which may be nil: the events sent, and whether the loop came to its end.
(internal/logger.go:196-198) -/
def sendNil (z : Nat) : List (Delivery V) → List (Delivery V) × Bool
  | [] => ([], true)
  | d :: ds => if d.out = z then ([], false) else (d :: (sendNil z ds).1, (sendNil z ds).2)

/-- A log call of a logger some of whose outputs, or those of its ancestors, may be nil.  (internal/logger.go:165-199) -/
def World.callNil (w : World) (z : Nat) (now : Nat) (stack : List Frame) (r : Nat) (ctx : Ctx V) (m : Method) (args : List V) :
    List (Delivery V) × Bool :=
  match w.call now stack r ctx m args with
  | .panic => ([], false)
  | .sent ds => sendNil z ds

/-! ## Events -/

/-- `Send` of a synchronous output with a pointer that may be nil: the first thing it does is to read the level.  `none`: it panics.
(internal/output_base.go:40-43) -/
def BaseOutput.sendPtr (lib : Lib V) (o : BaseOutput V) : Option (Event V) → Option (BaseOutput V)
  | none => none
  | some e => some (o.send lib e)

/-- The same for syslog.  (internal/output_syslog.go:19-22) -/
def SyslogOutput.sendPtr (lib : Lib V) (o : SyslogOutput V) : Option (Event V) → Option (SyslogOutput V)
  | none => none
  | some e => some (o.send lib e)

/-- A program that sends one after the other and recovers the panics.  (internal/output_base.go:40-55) -/
def BaseOutput.sendPtrs (lib : Lib V) (o : BaseOutput V) (es : List (Option (Event V))) : BaseOutput V :=
  es.foldl (fun o e => (o.sendPtr lib e).getD o) o

/-- The same for syslog.  (internal/output_syslog.go:19-43) -/
def SyslogOutput.sendPtrs (lib : Lib V) (o : SyslogOutput V) (es : List (Option (Event V))) : SyslogOutput V :=
  es.foldl (fun o e => (o.sendPtr lib e).getD o) o

/-- An asynchronous output, and the number of goroutines that are in `Send(nil)` at `o.evtChan <- e`.
(internal/output_base.go:120-128, 134) -/
structure NilState (V : Type) where
  a : AState V
  nils : Nat := 0

/-- What can be observed: the steps without `Send(nil)`, and those of `Send(nil)`.  (internal/output_base.go:130-181) -/
inductive NilLab (V : Type)
  | lab (l : ALab V)
  /-- a `Send(nil)` begins and finds the output open -/
  | nilStart
  /-- a `Send(nil)` finds the output closed and returns -/
  | nilSkip
  /-- a `Send(nil)` queues nil and returns -/
  | nilQueued
  | nilPanic

/-- The steps, with any number of `Send(nil)` at any time.  (internal/output_base.go:130-181) -/
inductive NilStep (cfg : ACfg V) : NilState V → NilLab V → NilState V → Prop
  /-- internal/output_base.go:130-181 -/
  | lib {s l a'} : AStep cfg s.a l a' → NilStep cfg s (.lab l) { s with a := a' }
  /-- internal/output_base.go:131 -/
  | start {s} : s.a.panicked = false → s.a.closed = false → NilStep cfg s .nilStart { s with nils := s.nils + 1 }
  /-- internal/output_base.go:131-132 -/
  | skip {s} : s.a.panicked = false → s.a.closed = true → NilStep cfg s .nilSkip s
  /-- internal/output_base.go:134 -/
  | queue {s} : s.a.panicked = false → 0 < s.nils → s.a.chanClosed = false → s.a.chan.length < cfg.queueSize →
      NilStep cfg s .nilQueued { a := { s.a with chan := s.a.chan ++ [none] }, nils := s.nils - 1 }
  /-- internal/output_base.go:134: send on closed channel -/
  | panic {s} : s.a.panicked = false → 0 < s.nils → s.a.chanClosed = true →
      NilStep cfg s .nilPanic { s with a := { s.a with panicked := true } }

/-- Executions with their observations.  (internal/output_base.go:130-181) -/
inductive NilExec (cfg : ACfg V) : NilState V → List (NilLab V) → NilState V → Prop
  | nil {s} : NilExec cfg s [] s
  | snoc {s tr s' l s''} : NilExec cfg s tr s' → NilStep cfg s' l s'' → NilExec cfg s (tr ++ [l]) s''

/-! ## Contexts -/

/-- A call of one of the twelve methods of the writer `WithCtx(nil)` returns.  If the logger has outputs, or no parent, the event gets
the nil context, and `getCallerInfo` panics on it (internal/logger_callerinfo.go:27).  Otherwise the parent's own context counts.  The second component
says whether the events that are sent have the nil context.  (internal/logger.go:48-50, 161-199) -/
def World.callNilCtx (w : World) (now : Nat) (stack : List Frame) (r : Nat) (m : Method) (args : List V) : Outcome V × Bool :=
  match w.heap[r]? with
  | none => (.sent [], false)
  | some l =>
    if w.levelEnabled r m.lvlFmt.1 = false then (.sent [], false)
    else if l.outputs = [] ∧ l.parent ≠ none then (w.call now stack r [] m args, false)
    else if l.callerInfoFlag = ciFuncFlag ∨ l.callerInfoFlag = ciFileFlag then (.panic, false)
    else
      let evt : Event V := { format := m.lvlFmt.2, arguments := args, name := l.name, level := m.lvlFmt.1, time := now,
                             callDepth := l.callerSkip, ctx := [] }
      (.sent (l.outputs.map fun o => ⟨o, evt⟩), true)

/-- Whether a part of a layout looks something up in the context of the event.  (internal/format_parser.go:170-186, 225-276) -/
def Part.looksUp (p : Part) : Bool :=
  p.verbType ≠ .static && match p.fmtFunc with
    | .line | .longfile | .shortfile | .longpkg | .shortpkg | .longfunc | .shortfunc | .extend => true
    | _ => false

/-- The text formatter applied to an event with the nil context; `none`: it panics.  (internal/format_parser.go:168-188) -/
def formatNilCtx (lib : Lib V) (stack : List Frame) (e : Event V) (parts : List Part) : Option Str :=
  if parts.any Part.looksUp then none else (format lib stack e parts).map (·.1)

end Log4g
