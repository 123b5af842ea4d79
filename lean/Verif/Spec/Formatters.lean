import Verif.Model.Formatters
import Verif.Spec.Output

/-! # Specification vocabulary for `SetFormatter` -/

namespace Log4g.Spec
variable {V : Type}

/-- The formatter after some calls: the one set last, `f` if none was. -/
def lastSet (f : Option (Formatter V)) : List (OutCall V) → Option (Formatter V)
  | [] => f
  | .setFormatter g :: cs => lastSet g cs
  | .send _ :: cs => lastSet f cs

/-- The events sent, each with the formatter that was set last. -/
def sentWith (f : Option (Formatter V)) : List (OutCall V) → List (Option (Formatter V) × Event V)
  | [] => []
  | .setFormatter g :: cs => sentWith g cs
  | .send e :: cs => (f, e) :: sentWith f cs

/-- The events queued in an asynchronous output, each with the formatter that was set last. -/
def queuedWith (f : Option (Formatter V)) : List (RefLab V) → List (Option (Formatter V) × Event V)
  | [] => []
  | .set g :: tr => queuedWith g tr
  | .step (.queued _ e) :: tr => (f, e) :: queuedWith f tr
  | .step _ :: tr => queuedWith f tr

/-- The events its worker has taken, each with the formatter that was set last. -/
def takenWith (f : Option (Formatter V)) : List (RefLab V) → List (Option (Formatter V) × Event V)
  | [] => []
  | .set g :: tr => takenWith g tr
  | .step (.took (some e)) :: tr => (f, e) :: takenWith f tr
  | .step _ :: tr => takenWith f tr

/-- What is not below the threshold. -/
def passing (t : Level) (ps : List (Option (Formatter V) × Event V)) : List (Option (Formatter V) × Event V) :=
  ps.filter fun p => decide (t ≤ p.2.level)

/-- What an event is written as by its formatter. -/
def writtenAs (p : Option (Formatter V) × Event V) : Bytes :=
  match p.1 with
  | some f => f p.2
  | none => []

/-- Formatters are set only when the worker has taken every event that was queued. -/
def SetWhenIdle (tr : List (RefLab V)) : Prop :=
  ∀ x f y, tr = x ++ .set f :: y → (takenWith none x).length = (queuedWith none x).length

end Log4g.Spec

namespace Log4g.Spec

/-- The calls of the library among what a program does. -/
def libCalls (as : List FmtAct) : List Act := as.filterMap fun a => match a with
  | .lib a => some a
  | .setFormatter _ _ => none

/-- Since the last `SetFormatter` on output `o`, there was a moment at which logger `r` did not have that output, or had
just been given its outputs by `SetOutputs`. -/
def GivenSince (as : List FmtAct) (w : World) (r o : Nat) : Prop :=
  ∃ x y w1, as = x ++ y ∧ FmtSteps {} x w1 ∧ FmtSteps w1 y w ∧ (∀ fo, .setFormatter o fo ∉ y) ∧
    ((∀ l, w1.heap[r]? = some l → o ∉ l.outputs) ∨ ∃ x' ops, x = x' ++ [.lib (.setOutputs r ops)])

end Log4g.Spec
