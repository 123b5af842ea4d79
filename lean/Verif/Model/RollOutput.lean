import Verif.Model.Async
import Verif.Model.Rolling

/-! # Rolling outputs — `internal/output_rolling.go`, from the calls to the disk

An output that is asynchronous and whose writer is a rolling writer.  When the worker flushes its buffer, the rolling
writer writes it to the disk.  Nobody but the worker calls the writer, so what the writer does is taken to be part of
the worker's step; what the write returns is ignored (internal/output_base.go:150). -/

namespace Log4g
open Strconv
variable {V : Type}

/-- `NewRollingOutput` — internal/output_rolling.go:22-73: the writer and the output around it; `none` is the panic of
:63. -/
def newRollingOutput (tc : Toolchain) (cfg : CfgMap) : Option (RCfg × ConsoleKind) :=
  match newRollingWriter tc cfg with
  | none => none
  | some c =>
    if cfg.at c!"async" = c!"true" then
      some (c, .async (GetThresholdLvl (cfg.at c!"threshold")) (GetQueueSize (cfg.at c!"queue_size")) (GetBatchNum (cfg.at c!"batch_num")))
    else some (c, .sync (GetThresholdLvl (cfg.at c!"threshold")))

/-- An asynchronous output — internal/output_base.go:120-128 —, its rolling writer — internal/output_rollingwriter.go:180-198
— and the disk. -/
structure OState (V : Type) where
  a : AState V
  disk : Disk
  rw : RW := {}

/-- The steps, with the calls to the operating system — internal/output_base.go:110-181: a step of the output in which it
calls `o.w.Write` (:150) is one in which the rolling writer writes (internal/output_rollingwriter.go:512-533). -/
inductive OStep (cfg : ACfg V) (umask : Nat) (lib : RLib) (c : RCfg) : OState V → ALab V → STrace → OState V → Prop
  | quiet {s l a} : AStep cfg s.a l a → a.writes = s.a.writes → OStep cfg umask lib c s l [] { s with a := a }
  | flush {s l a bs tr res rw d} : AStep cfg s.a l a → a.writes = s.a.writes ++ [bs] →
      Runs umask (c.write lib s.rw bs) s.disk tr (res, rw) d → OStep cfg umask lib c s l tr { a := a, disk := d, rw := rw }

/-- Executions.  (internal/output_base.go:130-181 and internal/output_rollingwriter.go:512-532) -/
inductive OExec (cfg : ACfg V) (umask : Nat) (lib : RLib) (c : RCfg) : OState V → List (ALab V) → STrace → OState V → Prop
  | nil {s} : OExec cfg umask lib c s [] [] s
  | snoc {s tr st s' l st' s''} : OExec cfg umask lib c s tr st s' → OStep cfg umask lib c s' l st' s'' →
      OExec cfg umask lib c s (tr ++ [l]) (st ++ st') s''

/-- `NewAsyncOutput` with a new rolling writer — internal/output_rolling.go:66-68 — over disk `d`. -/
def newOutput (d : Disk) (prog : Nat → List (ACall V)) : OState V := { a := newAsync prog, disk := d }

end Log4g
