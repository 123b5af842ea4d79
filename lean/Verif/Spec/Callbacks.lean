import Verif.Model.Callbacks
import Verif.Spec.World

/-! # Specification vocabulary for code that is called by the library -/

namespace Log4g.Spec

/-- Calls that need the manager's lock, or the factory's, or may need it.  The others: logging, `SetLevel`, and a
configuration that is refused. -/
def NeedsLock : CbCall → Prop
  | .setConfig cfg _ => Consistent cfg
  | .setLevel _ _ | .log => False
  | _ => True

/-- Calls that need the manager's lock in any case. -/
def NeedsManager : CbCall → Prop
  | .setConfig cfg _ => Consistent cfg
  | .registerFormatter _ _ | .registerOutput _ _ | .queryOutputs _ | .close _ => True
  | _ => False

/-- The call waits for ever for a lock. -/
def Waits (cb : Callbacks) (s : CbState) (c : CbCall) : Prop := ∃ s', Op.run cb c s = .stuck s'

/-- The code called by the library does nothing but log. -/
def OnlyLogs (cb : Callbacks) : Prop :=
  (∀ k, (∀ c ∈ (cb.make k).calls, c = .log) ∧ (cb.make k).panics = false) ∧
  (∀ o, (∀ c ∈ (cb.shut o).calls, c = .log) ∧ (cb.shut o).panics = false)

/-- The code called by the library makes no call that needs a lock. -/
def NoLocks (cb : Callbacks) : Prop :=
  (∀ k, ∀ c ∈ (cb.make k).calls, ¬ NeedsLock c) ∧ (∀ o, ∀ c ∈ (cb.shut o).calls, ¬ NeedsLock c)

/-- What a call does to the loggers and the manager if the code called by the library does nothing but log. -/
def plain (w : World) : CbCall → World
  | .registerFormatter t f => Act.run w (.registerFormatter t f)
  | .registerOutput t f => Act.run w (.registerOutput t f)
  | .setConfig cfg order => Act.run w (.setConfig cfg order)
  | .getLogger n => Act.run w (.getLogger n)
  | .queryOutputs n => Act.run w (.queryOutputs n)
  | .setLevel r lvl => Act.run w (.setLevel r lvl)
  | .close _ | .log => w

/-- Before the first panic a `GetLogger` has returned, and no `Close` panics. -/
def RootFirst (tr : List (CbCall × Bool)) : Prop :=
  ∀ pre c post, tr = pre ++ (c, true) :: post → (∃ n, (CbCall.getLogger n, false) ∈ pre) ∧ ∀ order, c ≠ .close order

end Log4g.Spec
