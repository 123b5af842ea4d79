import Verif.Model.Handed
import Verif.Spec.World
import Verif.Spec.Config

/-! # Specification vocabulary for configurations that are changed later -/

namespace Log4g.Spec

/-- The same program, with a copy of the object given to each `SetConfig`. -/
def copied : (Nat → Config) → List PtrAct → List Act
  | _, [] => []
  | conf, .lib a :: as => a :: copied conf as
  | conf, .change i c :: as => copied (fun j => if j = i then c else conf j) as
  | conf, .set i order :: as => .setConfig (conf i) order :: copied conf as

/-- The objects after some acts. -/
def confAfter (conf : Nat → Config) : List PtrAct → (Nat → Config)
  | [] => conf
  | .change i c :: as => confAfter (fun j => if j = i then c else conf j) as
  | _ :: as => confAfter conf as

/-- The configuration a call hands to the manager: the one given to `SetConfig`; what the decoder for the type, whose name may be in
any letter case, makes of the bytes, the empty one for other types; for a file, the type is what follows the last dot of the last
element of the path. -/
inductive Hands : Act → Config → Prop
  | set {c order} : Hands (.setConfig c order) c
  | yaml {d bs ext order} : ext.map Char.toLower = c!"yaml" ∨ ext.map Char.toLower = c!"yml" → Hands (.loadConfig d bs ext order) (d.yaml bs).1
  | json {d bs ext order} : ext.map Char.toLower = c!"json" → Hands (.loadConfig d bs ext order) (d.json bs).1
  | other {d bs ext order} : ext.map Char.toLower ≠ c!"yaml" → ext.map Char.toLower ≠ c!"yml" → ext.map Char.toLower ≠ c!"json" →
      Hands (.loadConfig d bs ext order) {}
  | file {d bs dir stem ext order c} : (dir = [] ∨ ∃ p, dir = p ++ ['/']) → '/' ∉ stem → '/' ∉ ext → '.' ∉ ext → Hands (.loadConfig d bs ext order) c →
      Hands (.loadConfigFile d (dir ++ stem ++ '.' :: ext) (some bs) order) c

/-- The call sets a consistent configuration. -/
def Sets (conf : Nat → Config) : PtrAct → Prop
  | .set i _ => Consistent (conf i)
  | .lib a => ∃ c, Hands a c ∧ Consistent c
  | .change _ _ => False

/-- The program never changes the object of the last `SetConfig` that succeeded: between setting an object that is
consistent and changing it, another consistent configuration is set. -/
def Respects (as : List PtrAct) : Prop :=
  ∀ x i order y c z, as = x ++ .set i order :: y ++ .change i c :: z → Consistent (confAfter (fun _ => {}) x i) →
    ∃ y1 a y2, y = y1 ++ a :: y2 ∧ Sets (confAfter (fun _ => {}) (x ++ .set i order :: y1)) a

end Log4g.Spec
