import Verif.Spec.AnyOrder
import Verif.Spec.World

/-! # Asking for the outputs of loggers -/

namespace Log4g.Spec

/-- The loggers `l` in `a` and `l'` in `b` are the same. Their outputs are the same, in the same order: those `m` had already, new ones from the same definition, or the console that the
library makes for the root logger. -/
structure LikeLogger (m a b : Manager) (l l' : Logger) : Prop where
  name : l'.name = l.name
  level : l'.level = l.level
  parent : l'.parent = l.parent
  skip : l'.callerSkip = l.callerSkip
  needs : l'.callerInfoFlag = l.callerInfoFlag
  count : l'.outputs.length = l.outputs.length
  outputs : ∀ (i : Nat) o o', l.outputs[i]? = some o → l'.outputs[i]? = some o' →
    SameOut m a b o o' ∨ a.oheap[o]? = some ⟨.console, none⟩ ∧ b.oheap[o']? = some ⟨.console, none⟩

/-- The call asks for the outputs of a logger. -/
def isQuery : Act → Bool
  | .queryOutputs _ => true
  | _ => false

/-- The call asks for the outputs of a logger, obtains a logger, or sets its level, its caller skip or its outputs, to outputs that `m` had already; or it sets a configuration that is
refused. -/
def Mild (m : Manager) : Act → Prop
  | .queryOutputs _ | .getLogger _ | .setLevel _ _ | .setCallerSkip _ _ => True
  | .setOutputs _ ops => ∀ o ∈ ops, o < m.oheap.length
  | .setConfig cfg _ => validateConfig cfg ≠ none
  | _ => False

end Log4g.Spec
