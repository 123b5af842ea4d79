import Verif.Spec.SetUp

/-! # Setting loggers up while others are obtained -/

namespace Log4g.Spec

/-- The call sets the level, the caller skip or the outputs of a logger. -/
def isSet (a : Act) : Bool := (sets a).isSome

/-- The call obtains a logger. -/
def isGet : Act → Bool
  | .getLogger _ => true
  | _ => false

/-- Calls that obtain loggers, and calls that set something of loggers there are in `w`, with outputs there are in `w`. -/
def Interleaved (w : World) (as : List Act) : Prop := ∀ a ∈ as, isGet a = true ∨ isSet a = true ∧ a.ok w

end Log4g.Spec
