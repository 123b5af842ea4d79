import Verif.Model.Async

/-! # Arguments that change — `internal/output_base.go:40-55, 130-135, 173`

What a program passes to a log call may be a pointer, a slice or a map: the event holds the reference
(internal/logger.go:181), and the text is made by `Format` from what is in memory at that time.  Here formatters read the
memory of the program, which any goroutine may change at any time.

Simplification: formatting one event is one step, so that memory does not change meanwhile (in Go that would be a data
race). -/

namespace Log4g
variable {M V : Type}

/-- What `NewAsyncOutput` is called with (internal/output_base.go:110), and the formatter set, which reads memory. -/
structure MCfg (M V : Type) where
  queueSize : Nat
  batchNum : Nat
  t : Level
  f : Option (M → Formatter V)

/-- The output while memory is `m` — internal/output_base.go:120-128. -/
def MCfg.at (cfg : MCfg M V) (m : M) : ACfg V := ⟨cfg.queueSize, cfg.batchNum, cfg.t, cfg.f.map (· m)⟩

/-- An asynchronous output — internal/output_base.go:120-128 — and the memory of the program. -/
structure MutState (M V : Type) where
  a : AState V
  mem : M

/-- A step of the output (internal/output_base.go:130-181), or the program changes its memory. -/
inductive MutLab (M V : Type)
  | out (l : ALab V)
  | change (m : M)

/-- The steps — internal/output_base.go:130-181; what the worker formats (:173) it formats with the memory there is. -/
inductive MutStep (cfg : MCfg M V) : MutState M V → MutLab M V → MutState M V → Prop
  | out {s l a} : AStep (cfg.at s.mem) s.a l a → MutStep cfg s (.out l) { s with a := a }
  | change {s m} : s.a.panicked = false → MutStep cfg s (.change m) { s with mem := m }

/-- Executions — internal/output_base.go:110-181. -/
inductive MutExec (cfg : MCfg M V) : MutState M V → List (MutLab M V) → MutState M V → Prop
  | nil {s} : MutExec cfg s [] s
  | snoc {s tr s' l s''} : MutExec cfg s tr s' → MutStep cfg s' l s'' → MutExec cfg s (tr ++ [l]) s''

/-- What a program does with a synchronous output (internal/output_base.go:40-55), and changes of its memory. -/
inductive MutAct (M V : Type)
  | send (e : Event V)
  | change (m : M)

/-- A synchronous output — internal/output_base.go:40-55 —: `Send` formats with the memory there is.  (The writes of the
calls so far, and the memory.) -/
def mutSync (lib : M → Lib V) (t : Level) (f : Option (M → Formatter V)) : List Bytes × M → MutAct M V → List Bytes × M
  | (w, m), .send e => ((({ w := w, t := t, f := f.map (· m) } : BaseOutput V).send (lib m) e).w, m)
  | (w, _), .change m => (w, m)

end Log4g
