import Verif.Spec.Handed
import Verif.Spec.World

/-! # Vocabulary for calls that concern other loggers -/

namespace Log4g.Spec

/-- In `w`, the call concerns the logger `n`, whose path to the root is `ps`: it sets the level or the outputs of `n` or of a logger above it, the caller skip of `n` itself,
or a consistent configuration with an entry for `n` or for a logger above it. -/
inductive Concerns (w : World) (n : Str) (ps : List Str) : Act → Prop
  | level {m r lvl} : m ∈ ps → Map.get w.loggers m = some r → Concerns w n ps (.setLevel r lvl)
  | outputs {m r ops} : m ∈ ps → Map.get w.loggers m = some r → Concerns w n ps (.setOutputs r ops)
  | skip {r k} : Map.get w.loggers n = some r → Concerns w n ps (.setCallerSkip r k)
  | config {a c e} : Hands a c → Consistent c → e ∈ c.loggers → e.name ∈ ps → Concerns w n ps a

/-- Starting in `w`, no call of the history concerns the logger `n`. -/
def Elsewhere (w : World) (n : Str) (ps : List Str) (as : List Act) : Prop :=
  ∀ as1 a as2 v, as = as1 ++ a :: as2 → Steps w as1 v → ¬ Concerns v n ps a

end Log4g.Spec
