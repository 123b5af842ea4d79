import Verif.Spec.Machine

/-! # Specification vocabulary for programs that go on for ever, under a fair scheduler -/

namespace Log4g.Spec
open Log4g
variable {V : Type}

/-- A program that goes on for ever; `none` stands for a moment in which nothing happens. -/
structure Forever (env : PEnv V) (host : Host) (m0 : Machine V) where
  at_ : Nat → Machine V
  lab : Nat → Option (MLab V)
  init : at_ 0 = m0
  step : ∀ n, match lab n with
    | some l => MStep env host (at_ n) l (at_ (n + 1))
    | none => at_ (n + 1) = at_ n

/-- What has happened before moment `n`. -/
def Forever.trace {env : PEnv V} {host : Host} {m0 : Machine V} (r : Forever env host m0) : Nat → List (MLab V)
  | 0 => []
  | n + 1 => r.trace n ++ (r.lab n).toList

/-- At moment `n` the program does `l`. -/
def Forever.does {env : PEnv V} {host : Host} {m0 : Machine V} (r : Forever env host m0) (n : Nat) (l : PLab V) : Prop := ∃ x, r.lab n = some x ∧ progOf [x] = [l]

/-- Again and again. -/
def Often (P : Nat → Prop) : Prop := ∀ n, ∃ m, n ≤ m ∧ P m

/-- Whoever can make a step again and again does so again and again. -/
def Forever.fair {env : PEnv V} {host : Host} {m0 : Machine V} (r : Forever env host m0) (who : MLab V → Prop) : Prop :=
  Often (fun n => ∃ l m', who l ∧ MStep env host (r.at_ n) l m') → Often fun n => ∃ l, r.lab n = some l ∧ who l

/-- Goroutine `t`, in a call, gets on with it. -/
def goesOn (t : Nat) (x : MLab V) : Prop := ∃ l, progOf [x] = [l] ∧ l.goroutine = some t ∧ ¬ Begins t l ∧ l ≠ .panic t
/-- The worker of output `o` begins. -/
def workerBegins (o : Nat) (x : MLab V) : Prop := progOf [x] = [.out o .begin]
/-- The worker of output `o` takes something from the queue. -/
def workerTakes (o : Nat) (x : MLab V) : Prop := ∃ e, progOf [x] = [.out o (.took e)]
/-- The ticker of output `o` makes its worker write what it has. -/
def workerTicks (o : Nat) (x : MLab V) : Prop := progOf [x] = [.out o .tick]
/-- The writer of output `o` makes a call to the operating system or returns. -/
def writerSteps (o : Nat) : MLab V → Prop
  | .sys _ q _ | .done _ q _ _ => q = o
  | _ => False

/-- The scheduler is fair to the workers and writers, and to goroutine `t` when it is in a call. -/
structure Forever.fairTo {env : PEnv V} {host : Host} {m0 : Machine V} (r : Forever env host m0) (t : Nat) : Prop where
  goroutine : r.fair (goesOn t)
  begins : ∀ o, r.fair (workerBegins o)
  takes : ∀ o, r.fair (workerTakes o)
  writers : ∀ o, r.fair (writerSteps o)

/-- The scheduler is fair to the workers, their tickers, and the writers. -/
structure Forever.fairToWorkers {env : PEnv V} {host : Host} {m0 : Machine V} (r : Forever env host m0) : Prop where
  begins : ∀ o, r.fair (workerBegins o)
  takes : ∀ o, r.fair (workerTakes o)
  ticks : ∀ o, r.fair (workerTicks o)
  writers : ∀ o, r.fair (writerSteps o)

end Log4g.Spec
