import Verif.Model.Rolling

/-! # Goroutines writing to one rolling writer — `internal/output_rollingwriter.go:512-532`

Any number of goroutines, each making `Write` calls one after the other on the same writer, as synchronous outputs
make goroutines do (internal/output_base.go:40-55).  A step is a call to the operating system or an operation on the
mutex `rollLock`.

Simplifications.  The fields of the writer are only touched behind `rollLock.Lock()`, so what a call does to them
becomes visible when it gives the lock back.  The writer's `Close`, which does not take the lock, is not called by any
output (internal/output_base.go:70-72, 138-146). -/

namespace Log4g

/-- Where a goroutine is.  (internal/output_rollingwriter.go:512-532) -/
inductive RPc
  /-- between two calls -/
  | idle
  /-- in `Write`, at `rw.rollLock.Lock()` — internal/output_rollingwriter.go:513 -/
  | locking (m : Bytes)
  /-- in `Write`, behind it, with what is left to do — internal/output_rollingwriter.go:516-531 -/
  | inside (m : Bytes) (p : Prog ((Nat × Bool) × RW))
  /-- in `Write`, behind the deferred `rw.rollLock.Unlock()` — internal/output_rollingwriter.go:514 -/
  | leaving (m : Bytes) (res : Nat × Bool)

/-- A goroutine: where it is and what it has yet to write.
(A program that uses internal/output_rollingwriter.go:512-532.) -/
structure RThread where
  pc : RPc := .idle
  todo : List Bytes := []

/-- The disk, the fields of the writer, the owner of `rollLock` and the goroutines —
internal/output_rollingwriter.go:180-198. -/
structure RState where
  disk : Disk
  rw : RW := {}
  lock : Option Nat := none
  th : Nat → RThread

/-- A step of goroutine `t`.  (Of internal/output_rollingwriter.go:512-532.) -/
def RState.set (s : RState) (t : Nat) (x : RThread) : RState := { s with th := fun u => if u = t then x else s.th u }

/-- What can be observed of a step.  (internal/output_rollingwriter.go:513-531) -/
inductive RLab
  /-- goroutine `t` calls `Write(m)` -/
  | start (t : Nat) (m : Bytes)
  /-- goroutine `t` gets the lock -/
  | locked (t : Nat)
  /-- a call to the operating system -/
  | sys (x : (o : Sys) × o.Resp)
  /-- goroutine `t` gives the lock back, having done what `Write(m)` does, with result `res` -/
  | effect (t : Nat) (m : Bytes) (res : Nat × Bool)
  /-- `Write(m)` of goroutine `t` returns `res` -/
  | ret (t : Nat) (m : Bytes) (res : Nat × Bool)

/-- The steps.  (internal/output_rollingwriter.go:512-532) -/
inductive RStep (umask : Nat) (lib : RLib) (c : RCfg) : RState → RLab → RState → Prop
  /-- internal/output_rollingwriter.go:512 -/
  | start {s t m ms} : s.th t = { pc := .idle, todo := m :: ms } →
      RStep umask lib c s (.start t m) (s.set t { pc := .locking m, todo := ms })
  /-- internal/output_rollingwriter.go:513 -/
  | locked {s t m ms} : s.th t = { pc := .locking m, todo := ms } → s.lock = none →
      RStep umask lib c s (.locked t) (({ s with lock := some t } : RState).set t { pc := .inside m (c.write lib s.rw m), todo := ms })
  /-- internal/output_rollingwriter.go:516-531 -/
  | sys {s t m ms o k r d} : s.th t = { pc := .inside m (.call o k), todo := ms } → SysStep umask s.disk o r d →
      RStep umask lib c s (.sys ⟨o, r⟩) (({ s with disk := d } : RState).set t { pc := .inside m (k r), todo := ms })
  /-- internal/output_rollingwriter.go:514 -/
  | effect {s t m ms res rw} : s.th t = { pc := .inside m (.ret (res, rw)), todo := ms } →
      RStep umask lib c s (.effect t m res) (({ s with rw := rw, lock := none } : RState).set t { pc := .leaving m res, todo := ms })
  /-- internal/output_rollingwriter.go:531 -/
  | ret {s t m ms res} : s.th t = { pc := .leaving m res, todo := ms } →
      RStep umask lib c s (.ret t m res) (s.set t { pc := .idle, todo := ms })

/-- Executions with their observations.  (internal/output_rollingwriter.go:512-532) -/
inductive RExec (umask : Nat) (lib : RLib) (c : RCfg) : RState → List RLab → RState → Prop
  | nil {s} : RExec umask lib c s [] s
  | snoc {s tr s' l s''} : RExec umask lib c s tr s' → RStep umask lib c s' l s'' → RExec umask lib c s (tr ++ [l]) s''

/-- A new writer — internal/output_rolling.go:22-64 — and goroutines with what they will write. -/
def newThreads (d : Disk) (prog : Nat → List Bytes) : RState := { disk := d, th := fun t => { todo := prog t } }

end Log4g
