import Verif.Spec.Registrations

/-! # Registering creators late -/

namespace Log4g.Spec

/-- The call registers a creator. -/
def Registers (a : Act) : Prop := (∃ t f, a = .registerFormatter t f) ∨ ∃ t f, a = .registerOutput t f

/-- The calls register creators of the same kind for the same type. -/
def SameType : Act → Act → Prop
  | .registerFormatter t _, .registerFormatter t' _ => t = t'
  | .registerOutput t _, .registerOutput t' _ => t = t'
  | _, _ => False

/-- The configuration defines nothing for which the creator that the call registers is needed. -/
def NotNeeded (c : Config) : Act → Prop
  | .registerFormatter t _ => ∀ x ∈ c.formats, x.type ≠ t
  | .registerOutput t _ => ∀ x ∈ c.outputs, x.type ≠ t
  | _ => True

/-- In every state of the history the configuration has the property. -/
def Along (P : Config → Prop) (w : World) (as : List Act) : Prop := ∀ pre post v, as = pre ++ post → Steps w pre v → P v.mgr.config

end Log4g.Spec
