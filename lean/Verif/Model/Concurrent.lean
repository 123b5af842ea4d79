import Verif.Model.World

/-! # Concurrent `SetConfig` and `GetLogger` calls

Any number of goroutines, one call each (a goroutine that makes several calls one after the other is
covered: its later calls just do not start before the earlier ones end).  Each step is one critical
section of the manager's lock, or a piece of work under the factory's lock that touches only what this
lock protects.  The factory's lock is held over several steps; the manager's lock is taken and given back
within a step.

Simplifications: `f.root` and `f.loggers` are only visible under the factory's lock, so the statements of
`getRootLogger` that fill in the root logger are one step behind its `GetLoggerOutputs`, and `createLogger`
and the loop of `getParent` are one step.  Fields of loggers are written without synchronisation with
logging goroutines; the data race is not modelled. -/

namespace Log4g

/-- A call.  (internal/logger_manager.go:185, internal/logger_factory.go:23) -/
inductive Call
  | setConfig (cfg : Config)
  | getLogger (name : Str)

/-- The result of `GetLoggerOutputs`.  (internal/logger_manager.go:53) -/
abbrev Fetched := Except MgrErr (List Nat × Level)

/-- Where a goroutine is.  (internal/logger_manager.go:128-140, internal/logger_factory.go:23-101) -/
inductive Th
  /-- before the call -/
  | ready (c : Call)
  /-- `setConfig` behind `m.Unlock()` — internal/logger_manager.go:136 -/
  | wrote
  /-- the loop of `notify` — internal/logger_factory.go:93 -/
  | notifying (todo : List Nat)
  /-- `notify` behind `GetLoggerOutputs` — internal/logger_factory.go:95 -/
  | notifyGot (r : Nat) (res : Fetched) (todo : List Nat)
  /-- `GetLogger` behind `f.Lock()` — internal/logger_factory.go:27 -/
  | entered (name : Str)
  /-- `getRootLogger` behind `GetLoggerOutputs` — internal/logger_factory.go:78 -/
  | rootGot (name : Str) (res : Fetched)
  /-- `GetLogger` behind `createLogger` — internal/logger_factory.go:34 -/
  | created (name : Str) (r : Nat)
  /-- `GetLogger` behind `GetLoggerOutputs` — internal/logger_factory.go:35 -/
  | selfGot (name : Str) (r : Nat) (res : Fetched)
  /-- `GetLogger` at `return` — internal/logger_factory.go:28, 42 -/
  | leaving (name : Str) (r : Nat)
  /-- after the call -/
  | done

/-- The state of the program: the library, the owner of the factory's lock, the goroutines.
(internal/logger_factory.go:16-21) -/
structure CState where
  w : World
  lock : Option Nat
  th : Nat → Th

/-- `l.SetLevel(lvl); l.SetOutputs(ops)` unless there was an error — internal/logger_factory.go:34-39, 94-99. -/
def World.apply (w : World) (r : Nat) : Fetched → World
  | .error _ => w
  | .ok (ops, lvl) => (w.setLevel r lvl).setOutputs r ops

/-- `getRootLogger` apart from its call of `GetLoggerOutputs` — internal/logger_factory.go:76-87. -/
def World.makeRoot (w : World) (res : Fetched) : World :=
  let r := w.heap.length
  let w : World := { w with root := some r, heap := w.heap ++ [newLogger rootLoggerName] }
  let w : World := match res with
    | .error _ =>
      let w : World := w.setLevel r Level.Debug
      let o := w.mgr.oheap.length
      let w : World := { w with mgr := { w.mgr with oheap := w.mgr.oheap ++ [{ origin := .console, fmt := none }] } }
      w.setOutputs r [o]
    | .ok (ops, lvl) => (w.setLevel r lvl).setOutputs r ops
  { w with loggers := Map.set w.loggers rootLoggerName r }

/-- A step of goroutine `t`.  (Of internal/logger_manager.go:128-140, internal/logger_factory.go:23-101.) -/
def CState.set (s : CState) (t : Nat) (x : Th) : CState := { s with th := fun u => if u = t then x else s.th u }

/-- What can be observed of a step.  (internal/logger_manager.go:134, 137, internal/logger_factory.go:42, 61) -/
inductive CEv
  /-- `SetConfig` of goroutine `t` stores the configuration; `names` are the loggers there are. -/
  | write (t : Nat) (cfg : Config) (names : List Str)
  /-- `SetConfig` of goroutine `t` starts to notify; `names` are the loggers there are. -/
  | notify (t : Nat) (names : List Str)
  /-- `GetLogger` of goroutine `t` has found no logger `name` (or no root logger) and makes it. -/
  | create (t : Nat) (name : Str)
  /-- `GetLogger(name)` of goroutine `t` returns. -/
  | ret (t : Nat) (name : Str) (r : Nat)
  | other

/-- The steps.  (internal/logger_manager.go:128-140, internal/logger_factory.go:23-101, by the line in each) -/
inductive CStep : CState → CEv → CState → Prop
  /-- internal/logger_manager.go:129-131 -/
  | invalid {s t cfg e} : s.th t = .ready (.setConfig cfg) → validateConfig cfg = some e →
      CStep s .other (s.set t .done)
  /-- internal/logger_manager.go:133-135 -/
  | write {s t cfg} : s.th t = .ready (.setConfig cfg) → validateConfig cfg = none →
      CStep s (.write t cfg (Map.keys s.w.loggers))
        (({ s with w := { s.w with mgr := { s.w.mgr with config := cfg } } } : CState).set t .wrote)
  /-- internal/logger_factory.go:91 -/
  | notifyLock {s t order} : s.th t = .wrote → s.lock = none → order.Perm (s.w.loggers.map (·.2)) →
      CStep s (.notify t (Map.keys s.w.loggers)) (({ s with lock := some t } : CState).set t (.notifying order))
  /-- internal/logger_factory.go:94 -/
  | notifyFetch {s t r rs l} : s.th t = .notifying (r :: rs) → s.w.heap[r]? = some l →
      CStep s .other (({ s with w := { s.w with mgr := (s.w.mgr.getLoggerOutputs l.name).2 } } : CState).set t
        (.notifyGot r (s.w.mgr.getLoggerOutputs l.name).1 rs))
  /-- internal/logger_factory.go:95-99 -/
  | notifyApply {s t r res rs} : s.th t = .notifyGot r res rs →
      CStep s .other (({ s with w := s.w.apply r res } : CState).set t (.notifying rs))
  /-- internal/logger_factory.go:92,101 -/
  | notifyUnlock {s t} : s.th t = .notifying [] → CStep s .other (({ s with lock := none } : CState).set t .done)
  /-- internal/logger_factory.go:24 -/
  | getLock {s t name} : s.th t = .ready (.getLogger name) → s.lock = none →
      CStep s .other (({ s with lock := some t } : CState).set t (.entered name))
  /-- internal/logger_factory.go:27-28, 72-74 -/
  | getRoot {s t name r} : s.th t = .entered name → name = [] ∨ name = rootLoggerName → s.w.root = some r →
      CStep s .other (s.set t (.leaving name r))
  /-- internal/logger_factory.go:31, 42 -/
  | getOld {s t name r} : s.th t = .entered name → name ≠ [] → name ≠ rootLoggerName →
      Map.get s.w.loggers name = some r → CStep s .other (s.set t (.leaving name r))
  /-- internal/logger_factory.go:77 -/
  | rootFetch {s t name} : s.th t = .entered name → s.w.root = none → Map.get s.w.loggers name = none →
      CStep s (.create t rootLoggerName)
        (({ s with w := { s.w with mgr := (s.w.mgr.getLoggerOutputs rootLoggerName).2 } } : CState).set t
        (.rootGot name (s.w.mgr.getLoggerOutputs rootLoggerName).1))
  /-- internal/logger_factory.go:76, 78-87 -/
  | rootMake {s t name res} : s.th t = .rootGot name res →
      CStep s .other (({ s with w := s.w.makeRoot res } : CState).set t (.entered name))
  /-- internal/logger_factory.go:33 -/
  | create {s t name root} : s.th t = .entered name → name ≠ [] → name ≠ rootLoggerName →
      Map.get s.w.loggers name = none → s.w.root = some root →
      CStep s (.create t name)
        (({ s with w := ((s.w.parentLoop root [] name).2.createLogger name (some (s.w.parentLoop root [] name).1)).2 } : CState).set t
          (.created name ((s.w.parentLoop root [] name).2.createLogger name (some (s.w.parentLoop root [] name).1)).1))
  /-- internal/logger_factory.go:34 -/
  | selfFetch {s t name r} : s.th t = .created name r →
      CStep s .other (({ s with w := { s.w with mgr := (s.w.mgr.getLoggerOutputs name).2 } } : CState).set t
        (.selfGot name r (s.w.mgr.getLoggerOutputs name).1))
  /-- internal/logger_factory.go:34-39 -/
  | selfApply {s t name r res} : s.th t = .selfGot name r res →
      CStep s .other (({ s with w := s.w.apply r res } : CState).set t (.leaving name r))
  /-- internal/logger_factory.go:25, 28, 42 -/
  | leave {s t name r} : s.th t = .leaving name r →
      CStep s (.ret t name r) (({ s with lock := none } : CState).set t .done)

/-- Executions.  (internal/logger_manager.go:128-140, internal/logger_factory.go:23-101) -/
inductive Exec : CState → List CEv → CState → Prop
  | refl (s) : Exec s [] s
  | tail {s tr s' ev s''} : Exec s tr s' → CStep s' ev s'' → Exec s (tr ++ [ev]) s''

/-- A program about to make its calls.
(No call of internal/logger_factory.go:23 or internal/logger_manager.go:185 has begun.) -/
def CState.Start (s : CState) : Prop := Reach s.w ∧ s.lock = none ∧ ∀ t, ∃ c, s.th t = .ready c

/-- No call is under way.  (internal/logger_factory.go:23, internal/logger_manager.go:185) -/
def CState.Quiet (s : CState) : Prop := ∀ t, (∃ c, s.th t = .ready c) ∨ s.th t = .done

end Log4g
