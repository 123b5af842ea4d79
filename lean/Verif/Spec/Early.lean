import Verif.Spec.World
import Verif.Spec.Again

/-! # Loggers obtained before and after the configuration is set -/

namespace Log4g.Spec

/-- Nothing has happened yet but registrations of creators. -/
def Untried (w : World) : Prop := ∃ as, Steps {} as w ∧ ∀ a ∈ as, (∃ t f, a = .registerFormatter t f) ∨ ∃ t f, a = .registerOutput t f

/-- After loggers of these names have been obtained, one after the other. -/
def obtained (w : World) (ns : List Str) : World := ns.foldl (fun w n => (w.getLogger n).2) w

/-- The outputs `o` in `a` and `o'` in `b` are both outputs to the console that the library makes by itself, or both were made from the same definition, with formatters that were made
from the same definition and want the same. -/
def AlikeOut (a b : Manager) (o o' : Nat) : Prop :=
  (a.oheap[o]? = some ⟨.console, none⟩ ∧ b.oheap[o']? = some ⟨.console, none⟩) ∨
  ∃ d f f' fo, a.oheap[o]? = some ⟨.managed d, some f⟩ ∧ a.fheap[f]? = some fo ∧ b.oheap[o']? = some ⟨.managed d, some f'⟩ ∧ b.fheap[f']? = some fo

/-- The loggers `l` in `a` and `l'` in `b` have the same name, level, caller skip and needs, and outputs that are alike, in the same order. -/
structure AlikeSetup (a b : Manager) (l l' : Logger) : Prop where
  name : l'.name = l.name
  level : l'.level = l.level
  skip : l'.callerSkip = l.callerSkip
  needs : l'.callerInfoFlag = l.callerInfoFlag
  count : l'.outputs.length = l.outputs.length
  outputs : ∀ (i : Nat) o o', l.outputs[i]? = some o → l'.outputs[i]? = some o' → AlikeOut a b o o'

/-- They have the same parent, too. -/
structure AlikeLogger (a b : Manager) (l l' : Logger) : Prop extends AlikeSetup a b l l' where
  parent : l'.parent = l.parent

/-- Whoever has an entry in the configuration is obtained before the loggers below. -/
def TopDown (cfg : Config) (ns : List Str) : Prop :=
  ∀ pre n post, ns = pre ++ n :: post → ∀ m, SepPrefix m n → m = c!"root" ∨ m ∈ pre ∨ NoLogger cfg m

end Log4g.Spec
