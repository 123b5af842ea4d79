import Verif.Spec.RollWrites

/-! # The space a log takes -/

namespace Log4g.Spec
open Log4g

/-- How often the program died while it wrote. -/
def deaths (ds : List Deed) : Nat := ds.countP fun x => match x with | .died _ => true | _ => false

/-- How many files could not be removed. -/
def failedRemovals (tr : STrace) : Nat := tr.countP fun x => match x with | ⟨.remove _, false⟩ => true | _ => false

/-- The log file, or a file named like its backups. -/
def LogName (lib : RLib) (c : RCfg) (n : Str) : Prop := n = c.fileName ∨ ∃ v, Backup lib c n v

/-- There are at most `N` backups in the directory. -/
def AtMost (lib : RLib) (c : RCfg) (d : Dir) (N : Int) : Prop :=
  ∀ hs : List Str, hs.Nodup → (∀ n ∈ hs, (∃ v, Backup lib c n v) ∧ Regular d n) → (hs.length : Int) ≤ N

/-- The log file and its backups are at most `N` files. -/
def FilesAtMost (lib : RLib) (c : RCfg) (d : Dir) (N : Int) : Prop :=
  ∀ ns : List Str, ns.Nodup → (∀ n ∈ ns, LogName lib c n ∧ Regular d n) → (ns.length : Int) ≤ N

/-- The log file and its backups have fewer than `S` bytes together. -/
def Below (lib : RLib) (c : RCfg) (d : Dir) (S : Int) : Prop :=
  ∀ ns : List Str, ns.Nodup → (∀ n ∈ ns, LogName lib c n) → ((ns.map fun n => (fileText d n).length).sum : Int) < S

end Log4g.Spec
