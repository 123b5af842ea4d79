import Verif.Model.Slices
import Verif.Spec.World

/-! # Specification vocabulary for slices of outputs that are changed later -/

namespace Log4g.Spec

/-- The same program, with a copy of the slice given to each `SetOutputs`. -/
def cloned : List (List Nat) → List SlcAct → List Act
  | _, [] => []
  | ss, .lib a :: as => a :: cloned ss as
  | ss, .make ops :: as => cloned (ss ++ [ops]) as
  | ss, .assign i k o :: as => cloned (ss.modify i (·.set k o)) as
  | ss, .set r i :: as => .setOutputs r ((ss[i]?).getD []) :: cloned ss as

/-- The program never assigns to a slice that some logger still has. -/
def KeepsOff (p0 : SlcWorld) (as : List SlcAct) : Prop :=
  ∀ x i k o y p, as = x ++ .assign i k o :: y → SlcSteps p0 x p → ∀ r, p.held r ≠ some i

/-- An act that gives logger `r` other outputs, perhaps. -/
def Regives (r : Nat) : SlcAct → Prop
  | .set q _ | .lib (.setOutputs q _) => q = r
  | .lib (.setConfig ..) | .lib (.loadConfig ..) | .lib (.loadConfigFile ..) => True
  | _ => False

end Log4g.Spec
