import Verif.Spec.Signals
import Verif.Spec.Fair

/-! # Specification vocabulary for programs that go on for ever and are sent signals -/

namespace Log4g.Spec
open Log4g
variable {V : Type}

/-- A program that goes on for ever, with the library's goroutine that waits for signals; `none` stands for a moment in which nothing happens. -/
structure GForever (env : PEnv V) (host : Host) (me : Nat) (s0 : Signalled V) where
  at_ : Nat → Signalled V
  lab : Nat → Option (GLab V)
  init : at_ 0 = s0
  step : ∀ n, match lab n with
    | some l => GStep env host me (at_ n) l (at_ (n + 1))
    | none => at_ (n + 1) = at_ n

variable {env : PEnv V} {host : Host} {me : Nat} {s0 : Signalled V}

/-- What has happened before moment `n`. -/
def GForever.trace (r : GForever env host me s0) : Nat → List (GLab V)
  | 0 => []
  | n + 1 => r.trace n ++ (r.lab n).toList

/-- Whoever can make a step again and again does so again and again. -/
def GForever.fair (r : GForever env host me s0) (who : GLab V → Prop) : Prop :=
  Often (fun n => ∃ l s', who l ∧ GStep env host me (r.at_ n) l s') → Often fun n => ∃ l, r.lab n = some l ∧ who l

/-- The scheduler is fair to the library: to its goroutine that waits for signals, to the workers and the writers. -/
structure GForever.fairToLibrary (r : GForever env host me s0) : Prop where
  receives : r.fair (· = .received)
  closes : r.fair fun l => ∃ os, l = .step (.prog (.close me os))
  goroutine : r.fair fun l => ∃ x, l = .step x ∧ goesOn me x
  begins : ∀ o, r.fair fun l => ∃ x, l = .step x ∧ workerBegins o x
  takes : ∀ o, r.fair fun l => ∃ x, l = .step x ∧ workerTakes o x
  writers : ∀ o, r.fair fun l => ∃ x, l = .step x ∧ writerSteps o x

end Log4g.Spec
