import Verif.Model.Shared
import Verif.Spec.RollWrites

/-! # Specification vocabulary for several writers in one directory -/

namespace Log4g.Spec
open Log4g

/-- `n` is the log file of `c` or has a name like those of its backups. -/
def NameOf (c : RCfg) (n : Str) : Prop := n = c.fileName ∨ LikeBackup c n

/-- No file name concerns both. -/
def Apart (c c' : RCfg) : Prop := ∀ n, NameOf c n → ¬ NameOf c' n

/-- No file name concerns two of the writers. -/
def AllApart (cs : Nat → Option RCfg) : Prop := ∀ i j c c', i ≠ j → cs i = some c → cs j = some c' → Apart c c'

/-- A writer that makes no archives, or makes them as outputs do: a single one, at the path of the log directory itself. -/
def Usual (c : RCfg) : Prop := c.archive = .none ∨ c.exploded = false ∧ c.archivePath = c.dirPath

/-- The writers are such, and if one of them makes archives, the name of its directory for temporary files concerns none of them. -/
structure ArchivesApart (cs : Nat → Option RCfg) : Prop where
  usual : ∀ i c, cs i = some c → Usual c
  temp : ∀ i j c c', cs i = some c → cs j = some c' → c.archive ≠ .none → ¬ NameOf c' tempDir

/-- What happened between writer `i` and its programs. -/
def deedsOf (i : Nat) : List ShLab → List Deed
  | [] => []
  | .ret j msg res :: tr => (if j = i then [.wrote msg res.1 res.2] else []) ++ deedsOf i tr
  | .die j (some msg) :: tr => (if j = i then [.died msg] else []) ++ deedsOf i tr
  | .die j none :: tr => (if j = i then [.restarted] else []) ++ deedsOf i tr
  | _ :: tr => deedsOf i tr

/-- The calls writer `i` made. -/
def callsOf (i : Nat) : List ShLab → STrace
  | [] => []
  | .sys j x :: tr => (if j = i then [x] else []) ++ callsOf i tr
  | _ :: tr => callsOf i tr

/-- A directory in order: no file has two names, and the next number is new. -/
structure OneName (v : Volume) : Prop where
  one : ∀ a b k, v.names a = some (.file k) → v.names b = some (.file k) → a = b
  new : ∀ a k, v.names a = some (.file k) → k < v.next

/-- No roll has taken a name that had been taken: by the directory, a roll or a log file before. -/
def FreshBackups (v0 : Volume) (tr : List ShLab) : Prop :=
  ∀ t1 i a b t2, tr = t1 ++ .sys i ⟨.rename a b, true⟩ :: t2 →
    v0.names b = none ∧ (∀ j a', .sys j ⟨.rename a' b, true⟩ ∉ t1) ∧ ∀ j p, .sys j ⟨.openAppend b p, true⟩ ∉ t1

/-- What writer `i` is busy with. -/
def pending (s : Shared) (i : Nat) : List Deed :=
  match (s.wr i).job with
  | some (msg, _) => [.died msg]
  | none => []

end Log4g.Spec
