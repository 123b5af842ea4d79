import Verif.Model.Nil
import Verif.Spec.Output
import Verif.Spec.Format

/-! # Notions for nil arguments -/

namespace Log4g.Spec
variable {V : Type}

/-- What has been put into the queue of an asynchronous output, in order: events, and nil by `Close` and by `Send(nil)`. -/
def putOf : List (NilLab V) → List (Option (Event V))
  | [] => []
  | .lab (.queued _ e) :: tr => some e :: putOf tr
  | .lab (.requested _) :: tr => none :: putOf tr
  | .nilQueued :: tr => none :: putOf tr
  | _ :: tr => putOf tr

/-- The calls of a program without those that are given nil. -/
def withoutNil : List NilAct → List Act
  | [] => []
  | .act a :: as => a :: withoutNil as
  | .setConfigPtr (some cfg) order :: as => .setConfig cfg order :: withoutNil as
  | .setConfigPtr none _ :: as => withoutNil as

/-- A history of calls, of which some are given nil; panics are recovered. -/
inductive NilSteps : World → List NilAct → World → Prop
  | refl (w) : NilSteps w [] w
  | act {w as w' a} : NilSteps w as w' → a.ok w' → NilSteps w (as ++ [.act a]) (a.run w')
  | config {w as w' cfg order} : NilSteps w as w' → order.Perm (w'.loggers.map (·.2)) →
      NilSteps w (as ++ [.setConfigPtr cfg order]) ((NilAct.setConfigPtr cfg order).run w')

/-- The verbs that can be printed without the context of the event. -/
def contextFree : List Str := [c!"pid", c!"program", c!"module", c!"msg", c!"level", c!"lvl", c!"time"]

end Log4g.Spec
