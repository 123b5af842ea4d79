import Verif.Spec.System

/-! # The times of events -/

namespace Log4g.Spec
variable {V : Type}

/-- The times the events of the log calls were given, in the order of the calls. -/
def loggedTimes (tr : List (PLab V)) : List Nat := tr.flatMap fun | .log _ ds => ds.map (·.evt.time) | _ => []

/-- `clock i` is what the clock showed at the step `i`: it does not go back, and every log call was made with the time it showed. -/
def ByClock (env : PEnv V) (up : Nat → Bool) (clock : Nat → Nat) (tr : List (PLab V)) : Prop :=
  (∀ i j, i ≤ j → clock i ≤ clock j) ∧
  ∀ a t ds b, tr = a ++ .log t ds :: b → ∃ s stack r ctx lvl fmt args, PExec env (newProgram up) a s ∧
    s.w.printf (clock a.length) stack r ctx lvl fmt args = .sent ds

/-- The program does not send events to output `o` itself. -/
def NoOwnSends (o : Nat) (tr : List (PLab V)) : Prop := ∀ t e, .direct t o (.send e) ∉ tr

/-- Goroutine `u` was in a log call with the event `e` for output `o` at the end of `tr`. -/
def StillLogging (u o : Nat) (e : Event V) (tr : List (PLab V)) : Prop := ∃ x ds y, tr = x ++ .log u ds :: y ∧ ⟨o, e⟩ ∈ ds ∧ .ret u ∉ y

/-- No log call begins while another call runs. -/
def Serial (tr : List (PLab V)) : Prop := ∀ a t ds b, tr = a ++ .log t ds :: b → ∀ u, Returned u a

/-- The times of the events of `order`, for output `o`, go forward for each goroutine; they go back only to an event of a log
call that was still running when the clock reached the later time; and they do not go back if no log calls overlap. -/
def OnTime (o : Nat) (tr : List (PLab V)) (order : List (Nat × Event V)) : Prop :=
  (∀ t, ((shareOf t order).map (·.time)).Pairwise (· ≤ ·)) ∧
  (∀ p t e r u e', order = p ++ (t, e) :: r → (u, e') ∈ r → e'.time < e.time →
    ∃ a v ds b, tr = a ++ .log v ds :: b ∧ (∀ x ∈ loggedTimes a, x < e.time) ∧ (∃ d ∈ ds, e.time ≤ d.evt.time) ∧ StillLogging u o e' a) ∧
  (Serial tr → (order.map (·.2.time)).Pairwise (· ≤ ·))

end Log4g.Spec
