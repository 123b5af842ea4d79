import Verif.Spec.Machine
import Verif.Spec.World
import Verif.Model.Stderr

/-! # What is reported -/

namespace Log4g.Spec
open Strconv
variable {V : Type}

/-- The removals of backups that failed. -/
def removalsFailed (tr : List (MLab V)) : List Str :=
  tr.filterMap fun | .sys _ _ ⟨.remove n, false⟩ => some n | _ => none

/-- The backups reported. -/
def removalsIn (rs : List Report) : List Str := rs.filterMap fun | .removal n => some n | _ => none

/-- The paths printed. -/
def pathsIn (rs : List Report) : List Str := rs.filterMap fun | .path d => some d | _ => none

/-- The warnings. -/
def warningsIn (rs : List Report) : List Str := rs.filterMap fun | .warning n => some n | _ => none

/-- The outputs with rolling writers, in the order in which they were made. -/
structure RollingOuts (tc : Toolchain) (w : World) (os : List (Nat × RCfg)) : Prop where
  order : os.Pairwise fun x y => x.1 < y.1
  all : ∀ o c, (o, c) ∈ os ↔ RollingOut tc w o c

/-- No logger on `names` has outputs, and all let `lvl` pass. -/
def Unheard (w : World) (lvl : Level) (names : List Str) : Prop := ∀ x ∈ names, HasOutputs w x [] ∧ Enables w x lvl

/-- The calls that logged a message which went to no output. -/
def unsent (tr : List (MLab V)) : Nat := (tr.filter fun | .prog (.log _ []) => true | _ => false).length

end Log4g.Spec
