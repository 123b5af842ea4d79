import Verif.Spec.Shuffled

/-! # Configurations without the entries of some loggers -/

namespace Log4g.Spec

/-- The configuration without the entries for loggers of these names. -/
def without (c : Config) (ns : List Str) : Config := { c with loggers := c.loggers.filter fun l => l.name ∉ ns }

/-- None of the calls obtains a logger of one of these names, or asks for its outputs. -/
def NeverAsked (ns : List Str) (as : List Act) : Prop := ∀ n ∈ ns, Act.getLogger n ∉ as ∧ Act.queryOutputs n ∉ as

end Log4g.Spec
