import Verif.Model.Stdout
import Verif.Spec.System

/-! # Specification vocabulary for the console -/

namespace Log4g.Spec
variable {V : Type}

/-- `o` is a console output of the library. -/
def ConsoleOut (env : PEnv V) (w : World) (o : Nat) : Prop := ∃ ob k, w.mgr.oheap[o]? = some ob ∧ ob.kind env.tc = .console k

/-- What output `o` has printed of what is on the screen. -/
def printsOf (o : Nat) (screen : List (Nat × Bytes)) : List Bytes := (screen.filter fun x => x.1 = o).map (·.2)

end Log4g.Spec
