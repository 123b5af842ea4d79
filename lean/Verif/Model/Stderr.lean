import Verif.Model.Machine

/-! # Standard error

The library writes to standard error in three places: internal/output_rollingwriter.go:211, internal/logger.go:175 (through
package `log`) and internal/output_fsutil.go:39.  Here the steps of a program are given what they write there.

Simplifications.  The writes succeed; the time with which package `log` begins a line is left out; so is what a program that panics writes. -/

namespace Log4g
open Strconv
variable {V : Type}

/-- What is written: a path (internal/output_rollingwriter.go:211); that a logger has no outputs (internal/logger.go:175); that a
backup could not be removed (internal/output_rollingwriter.go:439, internal/output_fsutil.go:39). -/
inductive Report
  | path (dir : Str)
  | warning (name : Str)
  | removal (file : Str)
  deriving DecidableEq

/-- The warning of `write` — internal/logger.go:165-176; its way up to the root is that of `World.write`. -/
def World.warned (w : World) : (fuel : Nat) → (r : Nat) → (name : Str) → Level → List Report
  | 0, _, _, _ => []
  | fuel + 1, r, name, lvl =>
    match w.heap[r]? with
    | none => []
    | some l =>
      if w.levelEnabled r lvl = false then []
      else if l.outputs = [] then
        match l.parent with
        | some p => World.warned w fuel p name lvl
        | none => [.warning name]
      else []

/-- The warning of `Printf` — internal/logger.go:161-163. -/
def World.printfWarned (w : World) (r : Nat) (lvl : Level) : List Report :=
  match w.heap[r]? with
  | none => []
  | some l => w.warned w.heap.length r l.name lvl

/-- The outputs from number `n` on that have rolling writers, each with the path that is printed when it is made —
internal/output_rolling.go:27, internal/output_rollingwriter.go:211. -/
def World.pathsFrom (tc : Toolchain) (w : World) (n : Nat) : List Report :=
  (w.mgr.oheap.drop n).filterMap fun ob =>
    match ob.kind tc with
    | .rolling c _ => some (.path c.archivePath)
    | _ => none

/-- What a step writes.  (internal/logger.go:161-176, internal/output_rollingwriter.go:211, 438-440) -/
inductive Reports (env : PEnv V) (m m' : Machine V) : MLab V → List Report → Prop
  /-- outputs are made: internal/logger_manager.go:94 -/
  | act {a} : Reports env m m' (.prog (.act a)) (m'.p.w.pathsFrom env.tc m.p.w.mgr.oheap.length)
  /-- internal/logger.go:161-176 -/
  | log {t now stack r ctx lvl fmt args ds} : r < m.p.w.heap.length → m.p.w.printf now stack r ctx lvl fmt args = .sent ds →
      Reports env m m' (.prog (.log t ds)) (m.p.w.printfWarned r lvl)
  /-- everything else a program does says nothing: internal/output_base.go:40-72, 130-181, internal/logger_manager.go:189-195 -/
  | quiet {l} : (∀ a, l ≠ .act a) → (∀ t ds, l ≠ .log t ds) → Reports env m m' (.prog l) []
  /-- internal/output_base.go:46, 50, 150: what the write returns is ignored -/
  | write {l k o bs} : Reports env m m' (.write l k o bs) []
  /-- internal/output_rollingwriter.go:438-440 -/
  | failed {k o n} : Reports env m m' (.sys k o ⟨.remove n, false⟩) [.removal n]
  /-- internal/output_rollingwriter.go:267-292, 340-531 -/
  | sys {k o x} : (∀ n, x ≠ ⟨.remove n, false⟩) → Reports env m m' (.sys k o x) []
  /-- internal/output_base.go:46, 50, 150 -/
  | done {k o bs res} : Reports env m m' (.done k o bs res) []

/-- Executions, with what has been written to standard error.  (As `MExec`: internal/output_base.go:40-55, 130-181 and
internal/output_rollingwriter.go:512-532) -/
inductive EExec (env : PEnv V) (host : Host) (m0 : Machine V) : List (MLab V) → Machine V → List Report → Prop
  | nil : EExec env host m0 [] m0 []
  | snoc {tr m l m' rs xs} : EExec env host m0 tr m rs → MStep env host m l m' → Reports env m m' l xs → EExec env host m0 (tr ++ [l]) m' (rs ++ xs)

end Log4g
