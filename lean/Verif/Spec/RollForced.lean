import Verif.Spec.Rolling

/-! # Specification of an operating system that does what it can -/

namespace Log4g.Spec

/-- The calls `tr`, with these results, lead from the disk `d` to the disk `d'`. -/
inductive Leads (umask : Nat) : Disk → STrace → Disk → Prop
  | nil {d} : Leads umask d [] d
  | cons {d d1 d2 : Disk} {o : Sys} {r : o.Resp} {tr : STrace} : SysStep umask d o r d1 → Leads umask d1 tr d2 → Leads umask d (⟨o, r⟩ :: tr) d2

/-- No call fails that could have succeeded, except perhaps some made only for archives, or to remove a file. -/
def OnlyForced (umask : Nat) (d : Disk) (tr : STrace) : Prop :=
  ∀ a o r b, tr = a ++ ⟨o, r⟩ :: b → ¬ ForArchive o → (∀ n, o ≠ .remove n) → Failed ⟨o, r⟩ →
    ∀ d1, Leads umask d a d1 → ∀ r' d2, SysStep umask d1 o r' d2 → Failed ⟨o, r'⟩

/-- The directory has only so many entries. -/
def FewEntries (d : Disk) : Prop := ∃ names : List Str, ∀ n, d.dir n ≠ none → n ∈ names

/-- Not a name a file can have. -/
def NoName (n : Str) : Prop := n = [] ∨ n = ['.'] ∨ n = ['.', '.'] ∨ '/' ∈ n ∨ '\x00' ∈ n

end Log4g.Spec
