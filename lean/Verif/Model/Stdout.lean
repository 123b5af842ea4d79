import Verif.Model.System

/-! # The console — internal/output_console.go

All console outputs, synchronous or not, have the same writer, `os.Stdout`.  Here the writes of a whole program to it are
put in one order.

Simplifications.  A `Write` succeeds, and puts all its bytes there in one piece: `os.File.Write` holds the lock of the file until all is
written (Go library).  What a program prints itself is not looked at. -/

namespace Log4g
open Strconv
variable {V : Type}

/-- Output `o` writes to `os.Stdout` — internal/output_console.go:21, 24. -/
def World.onConsole (tc : Toolchain) (w : World) (o : Nat) : Bool :=
  match w.mgr.oheap[o]? with
  | none => false
  | some ob => match ob.kind tc with
    | .console _ => true
    | _ => false

/-- What a step of a program prints, and for which output: `Send` of a synchronous output — internal/output_base.go:46, 50 —, and the
worker of an asynchronous one when it flushes — internal/output_base.go:150. -/
def printedBy (env : PEnv V) (s s' : PState V) : PLab V → List (Nat × Bytes)
  | .plain _ o _ => if s.w.onConsole env.tc o then ((s'.wrote o).drop (s.wrote o).length).map fun x => (o, x) else []
  | .out o _ => if s.w.onConsole env.tc o then (((s'.a o).writes).drop (s.a o).writes.length).map fun x => (o, x) else []
  | _ => []

/-- Executions, with what has been printed (internal/logger.go:161-199, internal/output_console.go:18-28). -/
inductive TExec (env : PEnv V) (s0 : PState V) : List (PLab V) → PState V → List (Nat × Bytes) → Prop
  | nil : TExec env s0 [] s0 []
  | snoc {tr s l s' out} : TExec env s0 tr s out → PStep env s l s' → TExec env s0 (tr ++ [l]) s' (out ++ printedBy env s s' l)

end Log4g
