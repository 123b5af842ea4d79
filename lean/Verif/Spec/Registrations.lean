import Verif.Spec.Creators

/-! # Registering creators -/

namespace Log4g.Spec

/-- Calls that register creators only. -/
def Registrations (rs : List Act) : Prop := ∀ a ∈ rs, (∃ t f, a = .registerFormatter t f) ∨ ∃ t f, a = .registerOutput t f

/-- For every type the same creator of formatters and the same creator of outputs was registered last, if any. -/
def SameLast (rs rs' : List Act) : Prop := ∀ t, (∀ f, LastFormatter rs t f ↔ LastFormatter rs' t f) ∧ ∀ f, LastOutput rs t f ↔ LastOutput rs' t f

/-- No two calls register creators of the same kind for the same type. -/
def OncePerType (rs : List Act) : Prop :=
  rs.Pairwise fun a b => ∀ t, (∀ f g, ¬ (a = .registerFormatter t f ∧ b = .registerFormatter t g)) ∧ ∀ f g, ¬ (a = .registerOutput t f ∧ b = .registerOutput t g)

/-- The states are the same: loggers, configuration, formatters and outputs there are, and for every type the creators that are used for it. -/
structure SameLibrary (w w' : World) : Prop where
  root : w'.root = w.root
  loggers : w'.loggers = w.loggers
  heap : w'.heap = w.heap
  config : w'.mgr.config = w.mgr.config
  formats : w'.mgr.formats = w.mgr.formats
  outputs : w'.mgr.outputs = w.mgr.outputs
  madeF : w'.mgr.fheap = w.mgr.fheap
  madeO : w'.mgr.oheap = w.mgr.oheap
  calls : w'.mgr.calls = w.mgr.calls
  creatorsF : ∀ t, Map.get w'.mgr.fmtCreators t = Map.get w.mgr.fmtCreators t
  creatorsO : ∀ t, Map.get w'.mgr.outCreators t = Map.get w.mgr.outCreators t

end Log4g.Spec
