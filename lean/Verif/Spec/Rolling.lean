import Verif.Model.Rolling
import Verif.Spec.Numbers

/-! # Specification vocabulary for the rolling writer -/

namespace Log4g.Spec

/-- The name of the backup of `file` with tag `tag`. -/
def backupName (m : NameMode) (file tag : Str) : Str :=
  match m with
  | .post => file ++ '.' :: tag
  | .pre => tag ++ '.' :: file

/-- `tag` is the tag of a backup, with `v` its place in the order of backups: a decimal number of 64 bits, or a
time. -/
inductive Tag (lib : RLib) : RKind → Str → Int → Prop
  | size {max tag v} : Decimal tag v → -(2 ^ 63) ≤ v → v < 2 ^ 63 → Tag lib (.size max) tag v
  | time {pat tag v} : tag ≠ [] → lib.parse pat tag = some v → Tag lib (.time pat) tag v

/-- `n` is the name of a backup with place `v` in the order. -/
def Backup (lib : RLib) (c : RCfg) (n : Str) (v : Int) : Prop :=
  ∃ tag, n = backupName c.mode c.fileName tag ∧ Tag lib c.kind tag v

/-- A regular file. -/
def Regular (d : Dir) (n : Str) : Prop := ∃ data perm, d n = some (.file data perm)

/-- The content of a file. -/
def dataOf (d : Dir) (n : Str) : Bytes :=
  match d n with
  | some (.file data _) => data
  | _ => []

/-- `hs` are the backups in the directory, in ascending order, no two at the same place. -/
structure Backups (lib : RLib) (c : RCfg) (d : Dir) (hs : List Str) : Prop where
  all : ∀ n, n ∈ hs ↔ (∃ v, Backup lib c n v) ∧ Regular d n
  order : hs.Pairwise fun a b => ∀ v w, Backup lib c a v → Backup lib c b w → v < w

/-- The contents of the current file (if it exists). -/
def current (c : RCfg) (d : Dir) : List Bytes :=
  match d c.fileName with
  | some (.file data _) => [data]
  | _ => []

/-- The contents of the backups in order, followed by that of the current file. -/
def files (c : RCfg) (d : Dir) (hs : List Str) : List Bytes := hs.map (dataOf d) ++ current c d

/-- What reached the disk through writes, one piece for each. -/
def chunks : STrace → List Bytes
  | [] => []
  | ⟨.write _ bs, r⟩ :: tr => bs.take r.1 :: chunks tr
  | _ :: tr => chunks tr

/-- The number of rolls. -/
def rolls : STrace → Nat
  | [] => 0
  | ⟨.rename _ _, r⟩ :: tr => (if r = true then 1 else 0) + rolls tr
  | _ :: tr => rolls tr

/-- One step of `cuts`: a roll ends a file, a write adds a piece to the last one. -/
def cutStep : List (List Bytes) × List Bytes → (o : Sys) × o.Resp → List (List Bytes) × List Bytes
  | (done, cur), ⟨.rename _ _, true⟩ => (done ++ [cur], [])
  | (done, cur), ⟨.write _ bs, r⟩ => (done, cur ++ [bs.take r.1])
  | s, _ => s

/-- What reached the disk through writes, cut at the rolls: the pieces of each file that has been rolled, and those of
the current one.  `cur` are the pieces of the current file at first. -/
def cuts (cur : List Bytes) (tr : STrace) : List (List Bytes) × List Bytes := tr.foldl cutStep ([], cur)

/-- What the clock showed. -/
def clocks : STrace → List Int
  | [] => []
  | ⟨.now, t⟩ :: tr => t :: clocks tr
  | _ :: tr => clocks tr

/-- One step of `periodAt`: the instant whose period is current, and the last look at the clock. -/
def lookStep : Option Int × Option Int → (o : Sys) × o.Resp → Option Int × Option Int
  | (none, _), ⟨.now, t⟩ => (some t, some t)
  | (some p, _), ⟨.now, t⟩ => (some p, some t)
  | (_, l), ⟨.rename _ _, _⟩ => (l, l)
  | s, _ => s

/-- An instant of the period the current file belongs to: that of the first look at the clock and, after a roll (even
one whose renaming failed), that of the last look at the clock before the renaming. -/
def periodAt (tr : STrace) : Option Int := (tr.foldl lookStep (none, none)).1

/-- What reached the disk through writes, each piece with what the clock showed last before it (at first, `l`). -/
def stampedFrom (l : Option Int) : STrace → List (Option Int × Bytes)
  | [] => []
  | ⟨.now, t⟩ :: tr => stampedFrom (some t) tr
  | ⟨.write _ bs, r⟩ :: tr => (l, bs.take r.1) :: stampedFrom l tr
  | _ :: tr => stampedFrom l tr

/-- What reached the disk through writes, each piece with what the clock showed last before it. -/
def stamped (tr : STrace) : List (Option Int × Bytes) := stampedFrom none tr

/-- Between `T0` and `T1`, time is divided into periods, which do not go backwards: each has its name, and the name
tells the start of the period. -/
structure Periods (lib : RLib) (pat : Str) (start : Int → Int) (T0 T1 : Int) : Prop where
  mono : ∀ s t, T0 ≤ s → s ≤ t → t ≤ T1 → start s ≤ start t
  nonempty : ∀ t, T0 ≤ t → t ≤ T1 → lib.format t pat ≠ []
  parse : ∀ t, T0 ≤ t → t ≤ T1 → lib.parse pat (lib.format t pat) = some (start t)
  same : ∀ s t, T0 ≤ s → s ≤ t → t ≤ T1 → start s = start t → lib.format s pat = lib.format t pat

/-- No removal fails. -/
def RemovesOk (tr : STrace) : Prop := ∀ n r, (⟨.remove n, r⟩ : (o : Sys) × o.Resp) ∈ tr → r = true

/-- Starting from files `F0` (oldest first), after the calls `tr`, directory `d` has a gap-free final part of the log:
`F0` and everything written can be cut into consecutive groups of whole pieces, one for each file; the last files are
the backups and the current file, and the files before them (if any) have been dropped, which only happens when as many
backups as configured are there. -/
def GapFree (lib : RLib) (c : RCfg) (F0 : List Bytes) (tr : STrace) (d : Dir) : Prop :=
  ∃ (hs : List Str) (dropped : List Bytes) (groups : List (List Bytes)), Backups lib c d hs ∧
    groups.flatten = F0 ++ chunks tr ∧ groups.map List.flatten = dropped ++ files c d hs ∧ (dropped = [] ∨ c.maxRolls ≤ hs.length)

/-- As `GapFree`, when removals may have failed: the `recent` backups and the current file are a gap-free final part of
the log, and as many backups as configured are there if anything was dropped; the `old` backups, older than these, are
some of the dropped files, whole and in order. -/
def Trailing (lib : RLib) (c : RCfg) (F0 : List Bytes) (tr : STrace) (d : Dir) : Prop :=
  ∃ (old recent : List Str) (dropped : List Bytes) (groups : List (List Bytes)), Backups lib c d (old ++ recent) ∧
    groups.flatten = F0 ++ chunks tr ∧ groups.map List.flatten = dropped ++ files c d recent ∧
    (dropped = [] ∨ c.maxRolls ≤ recent.length) ∧ (old.map (dataOf d)).Sublist dropped

/-- The message is in the log file or in a backup, in one piece. -/
def InLog (lib : RLib) (c : RCfg) (d : Dir) (msg : Bytes) : Prop :=
  ∃ n data perm, (n = c.fileName ∨ ∃ v, Backup lib c n v) ∧ d n = some (.file data perm) ∧ ∃ before after, data = before ++ msg ++ after

/-- The life of a log directory: a writer writes; the process may die between any two calls, or stop; then
a new writer goes on.  `Life d0 tr d rw`: from `d0`, with the calls `tr`, to `d` with a writer in state `rw`. -/
inductive Life (umask : Nat) (lib : RLib) (c : RCfg) (d0 : Disk) : STrace → Disk → RW → Prop
  | start : Life umask lib c d0 [] d0 {}
  | write {tr d rw bs tr' res rw' d'} : Life umask lib c d0 tr d rw → Runs umask (c.write lib rw bs) d tr' (res, rw') d' →
      Life umask lib c d0 (tr ++ tr') d' rw'
  | crash {tr d rw bs tr' d'} : Life umask lib c d0 tr d rw → Stops umask (c.write lib rw bs) d tr' d' →
      Life umask lib c d0 (tr ++ tr') d' {}
  | restart {tr d rw} : Life umask lib c d0 tr d rw → Life umask lib c d0 tr d {}

/-- A name like those of backups. -/
def LikeBackup (c : RCfg) (n : Str) : Prop :=
  ∃ tag, n = backupName c.mode c.fileName tag ∧
    match c.kind with
    | .size _ => ∃ v, Decimal tag v ∧ -(2 ^ 63) ≤ v ∧ v < 2 ^ 63
    | .time _ => True

/-- Permissions reduced by the umask. -/
def reduced (umask perm : Nat) : Nat := perm &&& (0o777 ^^^ (umask &&& 0o777))

/-- The call failed. -/
def Failed : (o : Sys) × o.Resp → Prop
  | ⟨.stat _, r⟩ => r = none
  | ⟨.write _ _, r⟩ => r.2 = false
  | ⟨.readdir, r⟩ => r = none
  | ⟨.now, _⟩ => False
  | ⟨.archRead, .failed⟩ => True
  | ⟨.archRead, _⟩ => False
  | ⟨.rollRead _, r⟩ => r = none
  | ⟨.mkdirAll _, r⟩ | ⟨.openAppend _ _, r⟩ | ⟨.close _, r⟩ | ⟨.rename _ _, r⟩ | ⟨.chmod _ _, r⟩ | ⟨.remove _, r⟩ => r = false
  | ⟨.tmpCreate, r⟩ | ⟨.tmpEntry _ _, r⟩ | ⟨.tmpClose, r⟩ | ⟨.tmpRename _, r⟩ | ⟨.tmpRemove, r⟩ => r = false

/-- No call fails. -/
def NoneFailed (tr : STrace) : Prop := ∀ x ∈ tr, ¬ Failed x

/-- The call is made only to put backups into an archive. -/
def ForArchive : Sys → Prop
  | .tmpCreate | .archRead | .rollRead _ | .tmpEntry _ _ | .tmpClose | .tmpRename _ | .tmpRemove => True
  | _ => False

/-- No call fails, except perhaps some made only for archives. -/
def LogCallsOk (tr : STrace) : Prop := ∀ x ∈ tr, ¬ ForArchive x.1 → ¬ Failed x

/-- Exactly one call failed. -/
def OneFailed (tr : STrace) : Prop := ∃ a x b, tr = a ++ x :: b ∧ NoneFailed a ∧ Failed x ∧ NoneFailed b

/-- No renaming fails. -/
def RenamesOk (tr : STrace) : Prop := ∀ a b r, (⟨.rename a b, r⟩ : (o : Sys) × o.Resp) ∈ tr → r = true

/-- No change of permissions fails. -/
def ChmodsOk (tr : STrace) : Prop := ∀ n p r, (⟨.chmod n p, r⟩ : (o : Sys) × o.Resp) ∈ tr → r = true

/-- What a writer in state `rw` goes on to do with messages `ms`, with the results of its writes. -/
inductive Later (umask : Nat) (lib : RLib) (c : RCfg) (d : Disk) (rw : RW) : List Bytes → STrace → List (Nat × Bool) → Disk → RW → Prop
  | start : Later umask lib c d rw [] [] [] d rw
  | write {ms tr rs d1 rw1 m tr' res rw2 d2} : Later umask lib c d rw ms tr rs d1 rw1 → Runs umask (c.write lib rw1 m) d1 tr' (res, rw2) d2 →
      Later umask lib c d rw (ms ++ [m]) (tr ++ tr') (rs ++ [res]) d2 rw2

/-- Writes of a single writer, each with its calls and its result. -/
inductive Tries (umask : Nat) (lib : RLib) (c : RCfg) (d0 : Disk) : List (STrace × (Nat × Bool)) → Disk → RW → Prop
  | start : Tries umask lib c d0 [] d0 {}
  | write {ws d rw m tr res rw' d'} : Tries umask lib c d0 ws d rw → Runs umask (c.write lib rw m) d tr (res, rw') d' →
      Tries umask lib c d0 (ws ++ [(tr, res)]) d' rw'

/-- The write began to roll: but for looking at the clock, the first thing it did was to close the file. -/
def BeganRoll : STrace → Prop
  | ⟨.now, _⟩ :: tr => BeganRoll tr
  | ⟨.close _, _⟩ :: _ => True
  | _ => False

/-- The write got as far as handing the message to the operating system. -/
def HandedOver (tr : STrace) : Prop := ∃ n bs r, (⟨.write n bs, r⟩ : (o : Sys) × o.Resp) ∈ tr

/-- A single writer writes the messages `ms` (oldest first), whatever fails. -/
inductive Session (umask : Nat) (lib : RLib) (c : RCfg) (d0 : Disk) : List Bytes → STrace → Disk → RW → Prop
  | start : Session umask lib c d0 [] [] d0 {}
  | write {ms tr d rw m tr' res rw' d'} : Session umask lib c d0 ms tr d rw → Runs umask (c.write lib rw m) d tr' (res, rw') d' →
      Session umask lib c d0 (ms ++ [m]) (tr ++ tr') d' rw'

/-- The entries in the archive file; none if there is no file; nothing if what is there is not an archive. -/
def archived (d : Disk) : Option Entries :=
  match d.arch [] with
  | .absent => some []
  | .file es => some es
  | _ => none

/-- `hs` are the backups in the directory, each once, in ascending order. -/
structure Ascending (lib : RLib) (c : RCfg) (d : Dir) (hs : List Str) : Prop where
  all : ∀ n, n ∈ hs ↔ (∃ v, Backup lib c n v) ∧ Regular d n
  nodup : hs.Nodup
  order : hs.Pairwise fun a b => ∀ v w, Backup lib c a v → Backup lib c b w → v ≤ w

/-- In the course of the calls `tr`, starting in `d`, the log file became backup `b`, and the oldest of the backups
beyond the configured number have become the entries `new`, each with its name and content. -/
def Packed (lib : RLib) (c : RCfg) (d : Dir) (tr : STrace) (new : Entries) : Prop :=
  ∃ hs b, Ascending lib c d hs ∧ (⟨.rename c.fileName b, true⟩ : (o : Sys) × o.Resp) ∈ tr ∧ new.map Prod.fst = (hs ++ [b]).take (hs.length + 1 - c.maxRolls.toNat) ∧
    ∀ e ∈ new, if e.1 = b then dataOf d c.fileName = e.2 else dataOf d e.1 = e.2

/-- In the course of the calls `tr`, starting in `d`, the log file became backup `b`, and `n` is then among the oldest
backups, those beyond the configured number; its content is `data`. -/
def Leaves (lib : RLib) (c : RCfg) (d : Dir) (tr : STrace) (n : Str) (data : Bytes) : Prop :=
  ∃ hs b, Ascending lib c d hs ∧ (⟨.rename c.fileName b, true⟩ : (o : Sys) × o.Resp) ∈ tr ∧ n ∈ (hs ++ [b]).take (hs.length + 1 - c.maxRolls.toNat) ∧
    data = dataOf d (if n = b then c.fileName else n)

/-- The name of the archive that is for the backup `n` alone. -/
def ownArchive (c : RCfg) (n : Str) : Str := n ++ if c.archive = .gzip then c!".gz" else c!".zip"

end Log4g.Spec
