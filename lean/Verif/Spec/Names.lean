import Verif.Model.Basic

/-! # Specification of the logger hierarchy by names -/

namespace Log4g.Spec

/-- The separators. -/
def Sep (c : Char) : Prop := c = '/' ∨ c = '.'

/-- `p` is a non-empty prefix of `n` that ends just before a separator. -/
def SepPrefix (p n : Str) : Prop := p ≠ [] ∧ ∃ c rest, Sep c ∧ n = p ++ c :: rest

/-- The name of the parent of the logger named `n`: the longest such prefix, or "root" if there is
none. -/
def ParentOf (n p : Str) : Prop :=
  (SepPrefix p n ∧ ∀ q, SepPrefix q n → q.length ≤ p.length) ∨
  ((∀ q, ¬ SepPrefix q n) ∧ p = c!"root")

/-- `path` lists the names from `n` up to the root. -/
inductive Path : Str → List Str → Prop
  | root : Path c!"root" [c!"root"]
  | step {n p ps} : n ≠ c!"root" → ParentOf n p → Path p ps → Path n (n :: ps)

end Log4g.Spec

namespace Log4g.Spec

/-- The qualified function name `fn` splits into package path and function: the package ends at the
first dot of the last path element, and that dot is not the first character of the element. -/
def QualName (fn pkg fun_ : Str) : Prop :=
  fn = pkg ++ '.' :: fun_ ∧
  ∃ dir last, pkg = dir ++ last ∧ last ≠ [] ∧ '/' ∉ last ∧ '.' ∉ last ∧ '/' ∉ fun_ ∧
    (dir = [] ∨ ∃ d, dir = d ++ ['/'])

end Log4g.Spec
