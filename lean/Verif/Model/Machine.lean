import Verif.Model.System
import Verif.Model.Shared

/-! # A whole program and its files

The program of `Model/System.lean`; each of its rolling outputs has a writer, and when it is given something to write, the
writer makes calls to the operating system, one at a time, in the directory of its file (`Model/Shared.lean`).  Whoever
called the writer — the worker of an asynchronous output, or the goroutine in `Send` of a synchronous one — goes on when the
write has returned; everybody else goes on meanwhile.  What the write returns is ignored (internal/output_base.go:46, 50, 150).

Simplifications.  Only this program changes the directories. -/

namespace Log4g
open Strconv
variable {V : Type}

/-- What a program runs on: the file mode creation mask, library functions of the writers, and which directory a path
(internal/output_rollingwriter.go:202-205) leads to. -/
structure Host where
  umask : Nat
  lib : RLib
  place : Str → Nat

/-- The writer of output `o`, if it has a rolling one — internal/output_rolling.go:22-64. -/
def World.rollOf (tc : Toolchain) (w : World) (o : Nat) : Option RCfg :=
  match w.mgr.oheap[o]? with
  | none => none
  | some ob =>
    match ob.kind tc with
    | .rolling c _ => some c
    | _ => none

/-- What output `o` has given to its writer — internal/output_base.go:46, 50 (`Send` of a synchronous output) and :150 (the worker
of an asynchronous one). -/
def PState.given (env : PEnv V) (s : PState V) (o : Nat) : List Bytes :=
  match s.w.asyncOf env o with
  | some _ => (s.a o).writes
  | none => s.wrote o

/-- The program, the directories, the writers, and the goroutines that wait for them: `by o` is the goroutine in `Send` of the
synchronous output `o` whose message is being written.  (internal/output_rollingwriter.go:180-198) -/
structure Machine (V : Type) where
  p : PState V
  vol : Nat → Volume
  wr : Nat → Scribe := fun _ => {}
  by_ : Nat → Option Nat := fun _ => none

/-- Another state of writer `o`.  (internal/output_rollingwriter.go:180-198) -/
def Machine.setWr (m : Machine V) (o : Nat) (x : Scribe) : Machine V := { m with wr := fun q => if q = o then x else m.wr q }

/-- The goroutine that makes a step.  (internal/logger.go:161-199, internal/logger_manager.go:189-195, internal/output_base.go:130-146) -/
def PLab.goroutine : PLab V → Option Nat
  | .act _ => none
  | .panic t | .log t _ | .close t _ | .direct t _ _ | .enter t _ _ | .leave t _ | .plain t _ _ | .ret t => some t
  | .out _ l =>
    match l with
    | .start t _ | .skip t _ | .queued t _ | .requested t | .waited t | .stored t | .closed t | .panic t => some t
    | .begin | .tick | .took _ | .workerPanic => none

/-- Who waits for a write does nothing else: the goroutine in `Send` — internal/output_base.go:46, 50 —, the worker —
internal/output_base.go:150 —, and a `Close` that waits for the worker — internal/output_base.go:143. -/
def Machine.lets (m : Machine V) (l : PLab V) : Prop :=
  (∀ t, l.goroutine = some t → ∀ o, m.by_ o ≠ some t) ∧
  match l with
  | .out o (.waited _) | .out o .begin | .out o .tick | .out o (.took _) | .out o .workerPanic => (m.wr o).job = none
  | _ => True

/-- What happens: a step of the program; one in which the writer of output `o`, in directory `k`, is given something; a call
such a writer makes; its return.  (internal/output_rollingwriter.go:512-532) -/
inductive MLab (V : Type)
  | prog (l : PLab V)
  | write (l : PLab V) (k o : Nat) (bs : Bytes)
  | sys (k o : Nat) (x : (op : Sys) × op.Resp)
  | done (k o : Nat) (bs : Bytes) (res : Nat × Bool)

/-- The steps.  (internal/output_base.go:40-55, 130-181 and internal/output_rollingwriter.go:512-532) -/
inductive MStep (env : PEnv V) (host : Host) : Machine V → MLab V → Machine V → Prop
  /-- a step in which no rolling writer is given anything -/
  | prog {m l p} : PStep env m.p l p → m.lets l → (∀ o c, p.w.rollOf env.tc o = some c → p.given env o = m.p.given env o) →
      MStep env host m (.prog l) { m with p := p }
  /-- internal/output_base.go:46, 50, 150: the writer is called; there is one write at a time (internal/output_rollingwriter.go:513) -/
  | write {m l p o c bs} : PStep env m.p l p → m.lets l → p.w.rollOf env.tc o = some c → p.given env o = m.p.given env o ++ [bs] →
      (∀ q c, q ≠ o → p.w.rollOf env.tc q = some c → p.given env q = m.p.given env q) → (m.wr o).job = none →
      MStep env host m (.write l (host.place c.dirPath) o bs)
        ({ m with p := p, by_ := fun q => if q = o then l.goroutine else m.by_ q }.setWr o
          { m.wr o with job := some (bs, c.write host.lib (m.wr o).rw bs) })
  /-- internal/output_rollingwriter.go:512-532 -/
  | sys {m o c msg op k r v' h'} : m.p.panicked = false → m.p.w.rollOf env.tc o = some c → (m.wr o).job = some (msg, .call op k) →
      VolStep host.umask (m.vol (host.place c.dirPath)) (m.wr o).fd op r v' h' →
      MStep env host m (.sys (host.place c.dirPath) o ⟨op, r⟩)
        ({ m with vol := fun j => if j = host.place c.dirPath then v' else m.vol j }.setWr o { m.wr o with fd := h', job := some (msg, k r) })
  /-- internal/output_rollingwriter.go:531 -/
  | done {m o c msg res rw'} : m.p.panicked = false → m.p.w.rollOf env.tc o = some c → (m.wr o).job = some (msg, .ret (res, rw')) →
      MStep env host m (.done (host.place c.dirPath) o msg res)
        ({ m with by_ := fun q => if q = o then none else m.by_ q }.setWr o { m.wr o with rw := rw', job := none })

/-- Executions.  A program that dies has got as far as any of them.
(internal/output_base.go:40-55, 130-181 and internal/output_rollingwriter.go:512-532) -/
inductive MExec (env : PEnv V) (host : Host) : Machine V → List (MLab V) → Machine V → Prop
  | nil {m} : MExec env host m [] m
  | snoc {m tr m' l m''} : MExec env host m tr m' → MStep env host m' l m'' → MExec env host m (tr ++ [l]) m''

/-- A program that begins (internal/log4g.go:15-37), with directories as others have left them. -/
def newMachine (up : Nat → Bool) (vol : Nat → Volume) : Machine V := { p := newProgram up, vol := vol }

end Log4g
