import Verif.Model.Signals
import Verif.Spec.Machine

/-! # Specification vocabulary for signals -/

namespace Log4g.Spec
variable {V : Type}

/-- What the program and its writers did. -/
def machineOf (tr : List (GLab V)) : List (MLab V) := tr.flatMap fun | .step l => [l] | _ => []

/-- What the program did. -/
def programOf (tr : List (GLab V)) : List (PLab V) := progOf (machineOf tr)

/-- The program closes nothing: the manager is closed by the library only, outputs by the manager only. -/
def LeavesOpen (me : Nat) (tr : List (GLab V)) : Prop := (∀ t os, .close t os ∈ programOf tr → t = me) ∧ Tame (programOf tr)

/-- Something the library does by itself: its goroutine that waits for signals, the workers, the writers. -/
def ByLibrary (me : Nat) : GLab V → Prop
  | .signal => False
  | .received => True
  | .step (.prog p) | .step (.write p _ _ _) => Helps me p ∨ p = .ret me ∨ ∃ os, p = .close me os
  | .step _ => True

end Log4g.Spec
