import Verif.Spec.Shuffled

/-! # Configurations with definitions that no logger uses -/

namespace Log4g.Spec

/-- `c'` has the loggers of `c`, and the formats and outputs of `c` are among those of `c'`. -/
structure Extends (c c' : Config) : Prop where
  formats : ∀ f ∈ c.formats, f ∈ c'.formats
  outputs : ∀ o ∈ c.outputs, o ∈ c'.outputs
  loggers : c'.loggers = c.loggers

end Log4g.Spec
