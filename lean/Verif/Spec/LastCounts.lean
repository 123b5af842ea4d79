import Verif.Spec.SetUp

/-! # Setting something several times -/

namespace Log4g.Spec

/-- The calls without those that set what a later one sets again. -/
def lastOnly : List Act → List Act
  | [] => []
  | a :: as => if as.any (fun b => sets b = sets a) then lastOnly as else a :: lastOnly as

/-- Calls of `SetLevel`, `SetCallerSkip` and `SetOutputs` only. -/
def OnlySets (as : List Act) : Prop := ∀ a ∈ as, sets a ≠ none

/-- No logger is given outputs twice. -/
def OutputsOnce (as : List Act) : Prop := as.Pairwise fun a b => sets a = sets b → ∀ r, sets a ≠ some (.outputs, r)

/-- The loggers `l` and `l'` are the same, but `l` may need caller information that `l'` does not need. -/
structure SameButNeed (l l' : Logger) : Prop where
  name : l'.name = l.name
  level : l'.level = l.level
  parent : l'.parent = l.parent
  skip : l'.callerSkip = l.callerSkip
  outputs : l'.outputs = l.outputs
  needs : l'.callerInfoFlag ≤ l.callerInfoFlag

/-- The states are the same, but loggers may need caller information in `w` that they do not need in `w'`. -/
structure SameButNeeds (w w' : World) : Prop where
  mgr : w'.mgr = w.mgr
  root : w'.root = w.root
  loggers : w'.loggers = w.loggers
  count : w'.heap.length = w.heap.length
  each : ∀ (r : Nat) l l', w.heap[r]? = some l → w'.heap[r]? = some l' → SameButNeed l l'

end Log4g.Spec
