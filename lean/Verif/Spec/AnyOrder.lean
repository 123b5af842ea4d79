import Verif.Spec.Again

/-! # Going through the loggers in one order or another -/

namespace Log4g.Spec

/-- The formatters `f` in `a` and `f'` in `b` are one that `m` had already, or both are new, made from the same definition, and want the same. -/
def SameFmt (m a b : Manager) (f f' : Nat) : Prop :=
  f < m.fheap.length ∧ f = f' ∨ m.fheap.length ≤ f ∧ m.fheap.length ≤ f' ∧ ∃ fo, a.fheap[f]? = some fo ∧ b.fheap[f']? = some fo

/-- The outputs `o` in `a` and `o'` in `b` are one that `m` had already, or both are new, made from the same definition, with formatters that are the same. -/
def SameOut (m a b : Manager) (o o' : Nat) : Prop :=
  o < m.oheap.length ∧ o = o' ∨ m.oheap.length ≤ o ∧ m.oheap.length ≤ o' ∧
    ∃ d f f', a.oheap[o]? = some ⟨.managed d, some f⟩ ∧ b.oheap[o']? = some ⟨.managed d, some f'⟩ ∧ SameFmt m a b f f'

/-- The loggers `l` in `a` and `l'` in `b` are the same, with outputs that are the same, in the same order. -/
structure SameLogger (m a b : Manager) (l l' : Logger) : Prop where
  name : l'.name = l.name
  level : l'.level = l.level
  parent : l'.parent = l.parent
  skip : l'.callerSkip = l.callerSkip
  needs : l'.callerInfoFlag = l.callerInfoFlag
  count : l'.outputs.length = l.outputs.length
  outputs : ∀ (i : Nat) o o', l.outputs[i]? = some o → l'.outputs[i]? = some o' → SameOut m a b o o'

end Log4g.Spec
