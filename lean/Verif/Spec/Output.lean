import Verif.Model.Async
import Verif.Spec.Format

/-! # Specification vocabulary for outputs -/

namespace Log4g.Spec
variable {V : Type}

/-- The bytes of a text: UTF-8, as strings are kept. -/
def utf8 (s : Str) : Bytes := (String.ofList s).toUTF8.data.toList

/-- The text of an event: what the formatter makes of it, or the default layout. -/
def textOf (lib : Lib V) (f : Option (Formatter V)) (e : Event V) : Bytes :=
  match f with
  | some f => f e
  | none => utf8 (lib.sprintf c!"%-5s [%s] %s: %s\n"
      [.str (longName e.level), .str (lib.timeFormat e.time c!"2006-01-02T15:04:05.000Z07:00"), .str e.name, .str (messageText lib e)])

/-- The events at or above a threshold. -/
def accepted (t : Level) (es : List (Event V)) : List (Event V) := es.filter fun e => decide (t ≤ e.level)

/-- The severities. -/
inductive Severity : Level → (Bytes → SysCall) → Prop
  | trace : Severity Level.Trace .debug
  | debug : Severity Level.Debug .debug
  | info : Severity Level.Info .info
  | warn : Severity Level.Warn .warning
  | error : Severity Level.Error .err
  | critical : Severity Level.Critical .crit

/-- What has been put into the queue, in order; `none` is a close request. -/
def queuedOf : List (ALab V) → List (Option (Event V))
  | [] => []
  | .queued _ e :: tr => some e :: queuedOf tr
  | .requested _ :: tr => none :: queuedOf tr
  | _ :: tr => queuedOf tr

/-- What the worker has taken, in order. -/
def takenOf : List (ALab V) → List (Option (Event V))
  | [] => []
  | .took x :: tr => x :: takenOf tr
  | _ :: tr => takenOf tr

/-- The events goroutine `t` has put into the queue, in order. -/
def queuedBy (t : Nat) : List (ALab V) → List (Event V)
  | [] => []
  | .queued u e :: tr => if u = t then e :: queuedBy t tr else queuedBy t tr
  | _ :: tr => queuedBy t tr

/-- The events a list of calls sends. -/
def sendsOf : List (ACall V) → List (Event V)
  | [] => []
  | .send e :: cs => e :: sendsOf cs
  | .close :: cs => sendsOf cs

/-- The events among things taken or queued. -/
def eventsOf (xs : List (Option (Event V))) : List (Event V) := xs.filterMap id

/-- A `Close` has returned. -/
def CloseReturned (tr : List (ALab V)) : Prop := ∃ t, .closed t ∈ tr ∨ .skip t .close ∈ tr

/-- The worker had begun whenever a `Close` was done waiting for it. -/
def BegunFirst (tr : List (ALab V)) : Prop := ∀ x t y, tr = x ++ .waited t :: y → .begin ∈ x

/-- The goroutine that makes a step; `none` is the worker. -/
def stepOf : ALab V → Option Nat
  | .start t _ | .skip t _ | .queued t _ | .requested t | .waited t | .stored t | .closed t | .panic t => some t
  | .begin | .tick | .took _ | .workerPanic => none

/-- A goroutine is inside a `Close` call. -/
def InClose (s : AState V) (t : Nat) : Prop :=
  (s.th t).pc = .requesting ∨ (s.th t).pc = .waiting ∨ (s.th t).pc = .storing ∨ (s.th t).pc = .closing

/-- The executions of a locked writer and of a buffer, with the order of the goroutines that step. -/
inductive WExec (step : WState → Nat → WState → Prop) : WState → List Nat → WState → Prop
  | nil {s} : WExec step s [] s
  | snoc {s tr s' t s''} : WExec step s tr s' → step s' t s'' → WExec step s (tr ++ [t]) s''

end Log4g.Spec
