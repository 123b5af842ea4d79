import Verif.Spec.Config
import Verif.Model.World

/-! # Configurations with the same definitions in another order -/

namespace Log4g.Spec

/-- The formats, outputs and loggers of `c'` are those of `c`, in another order. -/
structure Shuffled (c c' : Config) : Prop where
  formats : c.formats.Perm c'.formats
  outputs : c.outputs.Perm c'.outputs
  loggers : c.loggers.Perm c'.loggers

/-- Nothing is different but the configuration that is kept. -/
def SameButConfig (w w' : World) : Prop := ∃ c, w' = { w with mgr := { w.mgr with config := c } }

end Log4g.Spec
