import Verif.Model.RollThreads
import Verif.Spec.Rolling

/-! # What it means that concurrent writes are serialised -/

namespace Log4g.Spec

/-- What goroutine `t` has called `Write` with, in order. -/
def starts (t : Nat) : List RLab → List Bytes
  | [] => []
  | .start u m :: tr => (if u = t then [m] else []) ++ starts t tr
  | _ :: tr => starts t tr

/-- What the calls of goroutine `t` that have returned were called with and returned, in order. -/
def returns (t : Nat) : List RLab → List (Bytes × (Nat × Bool))
  | [] => []
  | .ret u m res :: tr => (if u = t then [(m, res)] else []) ++ returns t tr
  | _ :: tr => returns t tr

/-- The order in which the calls take effect: goroutine, message, result. -/
def effects : List RLab → List (Nat × Bytes × (Nat × Bool))
  | [] => []
  | .effect t m res :: tr => (t, m, res) :: effects tr
  | _ :: tr => effects tr

/-- Those of them that goroutine `t` made. -/
def effectsOf (t : Nat) (tr : List RLab) : List (Bytes × (Nat × Bool)) :=
  ((effects tr).filter fun x => x.1 = t).map fun x => x.2

/-- All calls to the operating system. -/
def sysCalls : List RLab → STrace
  | [] => []
  | .sys x :: tr => x :: sysCalls tr
  | _ :: tr => sysCalls tr

end Log4g.Spec
