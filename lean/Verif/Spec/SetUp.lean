import Verif.Model.World

/-! # Calls that set loggers up -/

namespace Log4g.Spec

/-- What is set: the level, the caller skip or the outputs. -/
inductive Setting
  | level
  | skip
  | outputs
  deriving DecidableEq

/-- What a call sets, and of which logger; nothing if the call is not one of these. -/
def sets : Act → Option (Setting × Nat)
  | .setLevel r _ => some (.level, r)
  | .setCallerSkip r _ => some (.skip, r)
  | .setOutputs r _ => some (.outputs, r)
  | _ => none

/-- Calls of `SetLevel`, `SetCallerSkip` and `SetOutputs` only, none of which sets what another one sets. -/
structure SetUp (as : List Act) : Prop where
  only : ∀ a ∈ as, sets a ≠ none
  once : (as.map sets).Nodup

end Log4g.Spec
