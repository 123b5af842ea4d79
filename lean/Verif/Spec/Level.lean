import Verif.Model.Basic

/-! # Specification of level names (README.md "Logger level are: All<Trace<...<Off", "without case discrimination"). -/

namespace Log4g.Spec

/-- The documented levels in ascending order, with long and short names. -/
def levels : List (Int × Str × Str) :=
  [(1, c!"ALL", c!"ALL"), (2, c!"TRACE", c!"TAC"), (3, c!"DEBUG", c!"DBG"), (4, c!"INFO", c!"INF"),
   (5, c!"WARN", c!"WRN"), (6, c!"ERROR", c!"ERR"), (7, c!"CRITICAL", c!"CRI"), (8, c!"OFF", c!"OFF")]

/-- The long and the short name of a level, nothing for other numbers. -/
def longName (l : Int) : Str := ((levels.find? (·.1 = l)).map (·.2.1)).getD []
def shortName (l : Int) : Str := ((levels.find? (·.1 = l)).map (·.2.2)).getD []

/-- `c` is the capital letter `d`, possibly in small letters; U+0131 and U+017F are the two
non-ASCII small forms of an ASCII capital. -/
inductive CaseOf : Char → Char → Prop
  | same (d : Char) : CaseOf d d
  | small (d : Char) : d.isUpper = true → CaseOf d.toLower d
  | dotless : CaseOf 'ı' 'I'
  | longS : CaseOf 'ſ' 'S'

/-- `s` is the name `n` up to letter case. -/
inductive SameName : Str → Str → Prop
  | nil : SameName [] []
  | cons {c d s n} : CaseOf c d → SameName s n → SameName (c :: s) (d :: n)

/-- The level a configuration means by `s`: the one with that name, 0 if no level has it. -/
def LevelNamed (s : Str) (l : Int) : Prop :=
  (∃ name short, (l, name, short) ∈ levels ∧ SameName s name) ∨
  (l = 0 ∧ ∀ l' name short, (l', name, short) ∈ levels → ¬ SameName s name)

/-- The threshold a configuration means by `s`: the level with that name, 1 (everything) if no level has it. -/
def ThresholdNamed (s : Str) (l : Int) : Prop := (LevelNamed s l ∧ l ≠ 0) ∨ (LevelNamed s 0 ∧ l = 1)

end Log4g.Spec
