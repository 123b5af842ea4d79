import Verif.Model.World

/-! # Setting a configuration again -/

namespace Log4g.Spec

/-- The registered creators answer the same whenever they are given the same definition. -/
def Steady (m : Manager) : Prop :=
  (∀ t c, Map.get m.fmtCreators t = some c → ∀ k k' x, c k x = c k' x) ∧ ∀ t c, Map.get m.outCreators t = some c → ∀ k k' x, c k x = c k' x

/-- Nothing is different, except that creators may have been called, in vain. -/
def SameWorld (w w' : World) : Prop := ∃ n, w' = { w with mgr := { w.mgr with calls := n } }

end Log4g.Spec
