import Verif.Spec.Early

/-! # Which loggers there are -/

namespace Log4g.Spec

/-- Obtaining a logger named `x` brings into being, if it is not there yet, the logger named `n`: the root logger, the logger itself (`""` stands for the root logger) or a logger above. -/
def Brings (x n : Str) : Prop := n = c!"root" ∨ (n ≠ [] ∧ n = x) ∨ SepPrefix n x

end Log4g.Spec
