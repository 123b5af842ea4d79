import Verif.Model.RollOutput
import Verif.Spec.Output
import Verif.Spec.Rolling

/-! # Specification vocabulary for rolling outputs -/

namespace Log4g.Spec

/-- Directory `d` has a gap-free final part of the log `F0` (file contents, oldest first) followed by the messages `ms`:
they can be cut into consecutive groups of whole messages, one for each file; the last files are the backups and the
current file, and the files before them (if any) have been dropped, which only happens when as many backups as
configured are there. -/
def KeepsLog (lib : RLib) (c : RCfg) (F0 ms : List Bytes) (d : Dir) : Prop :=
  ∃ (hs : List Str) (dropped : List Bytes) (groups : List (List Bytes)), Backups lib c d hs ∧
    groups.flatten = F0 ++ ms ∧ groups.map List.flatten = dropped ++ files c d hs ∧ (dropped = [] ∨ c.maxRolls ≤ hs.length)

end Log4g.Spec
