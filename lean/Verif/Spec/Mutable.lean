import Verif.Model.Mutable
import Verif.Spec.Output

/-! # Specification vocabulary for arguments that change -/

namespace Log4g.Spec
variable {M V : Type}

/-- What one sees of an execution: the memory now, for each goroutine the memory when its last call began, and the events
sent (in the order in which they got into the queue) each with the memory when its call began. -/
structure Logged (M V : Type) where
  mem : M
  begun : Nat → M
  sent : List (Event V × M) := []

/-- One more step is seen. -/
def Logged.see (x : Logged M V) : MutLab M V → Logged M V
  | .change m => { x with mem := m }
  | .out (.start t (.send _)) => { x with begun := fun u => if u = t then x.mem else x.begun u }
  | .out (.queued t e) => { x with sent := x.sent ++ [(e, x.begun t)] }
  | .out _ => x

/-- What one has seen at the end. -/
def logged (m : M) (tr : List (MutLab M V)) : Logged M V := tr.foldl Logged.see { mem := m, begun := fun _ => m }

/-- The text of events that pass the threshold, each with the memory it was formatted with. -/
def shownAs (t : Level) (f : M → Formatter V) (es : List (Event V × M)) : Bytes :=
  (es.filter fun x => decide (t ≤ x.1.level)).flatMap fun x => f x.2 x.1

/-- Whatever the program changes, it leaves alone what is on its way: the text of the events that are being sent or wait
in the queue stays as it is. -/
def LeavesAlone (cfg : MCfg M V) (f : M → Formatter V) (s0 : MutState M V) (tr : List (MutLab M V)) : Prop :=
  ∀ x m y s, tr = x ++ .change m :: y → MutExec cfg s0 x s →
    ∀ e, (some e ∈ s.a.chan ∨ ∃ t, (s.a.th t).pc = .sending e) → f m e = f s.mem e

/-- What is passed to a synchronous output, each event with the memory when it is. -/
def passed (m : M) : List (MutAct M V) → List (Event V × M)
  | [] => []
  | .send e :: acts => (e, m) :: passed m acts
  | .change m :: acts => passed m acts

end Log4g.Spec
