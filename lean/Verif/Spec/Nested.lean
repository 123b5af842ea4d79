import Verif.Model.Nested
import Verif.Spec.Output

/-! # Specification vocabulary for arguments that log -/

namespace Log4g.Spec
variable {V : Type}

/-- The events put into the queue, by the program and by the worker, in order. -/
def enqueued : List (NestLab V) → List (Event V)
  | [] => []
  | .out (.queued _ e) :: tr => e :: enqueued tr
  | .queued e :: tr => e :: enqueued tr
  | _ :: tr => enqueued tr

/-- The events the worker has begun to format, in order. -/
def begunOf : List (NestLab V) → List (Event V)
  | [] => []
  | .format e :: tr => e :: begunOf tr
  | _ :: tr => begunOf tr

/-- The events whose `Send` by the worker has returned (queued, or dropped because the output was closed), in order. -/
def innerOf : List (NestLab V) → List (Event V)
  | [] => []
  | .queued e :: tr => e :: innerOf tr
  | .dropped e :: tr => e :: innerOf tr
  | _ :: tr => innerOf tr

/-- No `Close` is done waiting for the worker. -/
def NotWaited (tr : List (NestLab V)) : Prop := ∀ t, .out (.waited t) ∉ tr

/-- A step with which a call returns, or a panic. -/
def GetsOn : NestLab V → Prop
  | .out (.queued _ _) | .out (.skip _ _) | .out (.closed _) | .queued _ | .dropped _ | .formatted _ => True
  | _ => False

/-- Seen from outside: beginning to format an event is to take it. -/
def fromOutside : List (NestLab V) → List (ALab V)
  | [] => []
  | .out l :: tr => l :: fromOutside tr
  | .format e :: tr => .took (some e) :: fromOutside tr
  | _ :: tr => fromOutside tr

mutual
/-- The events an output with threshold `t` gets for an event whose arguments log: the inner ones first.  An event that is not
formatted logs nothing. -/
def innerFirst (t : Level) : Nested V → List (Event V)
  | .evt e inner => if t ≤ e.level then innerFirsts t inner ++ [e] else []

/-- The same for several. -/
def innerFirsts (t : Level) : List (Nested V) → List (Event V)
  | [] => []
  | n :: ns => innerFirst t n ++ innerFirsts t ns
end

end Log4g.Spec
