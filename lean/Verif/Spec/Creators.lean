import Verif.Model.World

/-! # Specification vocabulary for registered creators -/

namespace Log4g.Spec

/-- `cr` is the creator of outputs the program registered last for the type `t`. -/
def LastOutput (as : List Act) (t : Str) (cr : OutCreator) : Prop :=
  ∃ pre post, as = pre ++ .registerOutput t cr :: post ∧ ∀ cr', Act.registerOutput t cr' ∉ post

/-- `cr` is the creator of formatters the program registered last for the type `t`. -/
def LastFormatter (as : List Act) (t : Str) (cr : FmtCreator) : Prop :=
  ∃ pre post, as = pre ++ .registerFormatter t cr :: post ∧ ∀ cr', Act.registerFormatter t cr' ∉ post

/-- The call after `pre` of the history `as` is the one that takes the library from `w1` to `w2`. -/
def CallAfter (as pre : List Act) (w1 w2 : World) : Prop :=
  ∃ a post, as = pre ++ a :: post ∧ Steps {} pre w1 ∧ w2 = a.run w1

end Log4g.Spec
