import Verif.Model.Disk
import Verif.Model.Manager

/-! # The rolling writer — `internal/output_rollingwriter.go`, `internal/output_rolling.go`

Simplifications.  `fullName` is never set (internal/output_rolling.go), so the current file is always
`fileName` (internal/output_rollingwriter.go:610-612, 685-690).  `String` (614-621, 692-699) is not modelled.  Sizes are mathematical integers. -/

namespace Log4g
open Strconv

/-- `rollingNameMode` — internal/output_rollingwriter.go:60-66. -/
inductive NameMode | post | pre
  deriving DecidableEq

/-- `rollingArchiveType` — internal/output_rollingwriter.go:68-75. -/
inductive ArchiveType | none | zip | gzip
  deriving DecidableEq

/-- The two kinds of rolling writer — internal/output_rollingwriter.go:561-565, 627-632 — with their own fields. -/
inductive RKind
  | size (maxFileSize : Int)
  | time (timePattern : Str)
  deriving DecidableEq

/-- The fields of `rollingFileWriter` that do not change — internal/output_rollingwriter.go:180-198. -/
structure RCfg where
  fileName : Str
  kind : RKind
  maxRolls : Int
  mode : NameMode := .post
  dirPerm : Nat := defaultDirectoryPermissions
  filePerm : Nat := defaultFilePermissions
  backPerm : Nat := defaultBackupPermissions
  archive : ArchiveType := .none
  exploded : Bool := false
  dirPath : Str := c!"."
  archivePath : Str := c!"."
  deriving DecidableEq

/-- `currentFile` when it is not nil: open, or closed with an error (Go's `os.File` is then closed all the
same).  (internal/output_rollingwriter.go:183) -/
inductive FState | opened | dead
  deriving DecidableEq

/-- The fields that change: `currentFile`, `currentName`, `currentFileSize`, and `currentTimeFileName` of the
time writer.  (internal/output_rollingwriter.go:183-185, 631) -/
structure RW where
  file : Option FState := none
  name : Str := []
  size : Int := 0
  timeName : Str := []
  deriving DecidableEq

/-- What the writer uses of package `time` (instants are integers), and `sort.Sort`, which is not stable: some
arrangement of the strings in ascending order of their keys.
(Used at internal/output_rollingwriter.go:635, 650, 664-666, 681.) -/
structure RLib where
  /-- `t.Format(layout)` -/
  format : Int → Str → Str
  /-- `time.ParseInLocation(layout, s, time.Local)` -/
  parse : Str → Str → Option Int
  /-- the instant of the zero `time.Time` -/
  zero : Int
  sort : (Str → Int) → List Str → List Str
  sort_perm : ∀ key xs, (sort key xs).Perm xs
  sort_sorted : ∀ key xs, (sort key xs).Pairwise fun a b => key a ≤ key b

/-- `hasRollName` — internal/output_rollingwriter.go:220-230. -/
def RCfg.hasRollName (c : RCfg) (file : Str) : Bool :=
  match c.mode with
  | .post => (c.fileName ++ c!".").isPrefixOf file
  | .pre => (c!"." ++ c.fileName).isSuffixOf file

/-- `createFullFileName` — internal/output_rollingwriter.go:232-240. -/
def RCfg.createFullFileName (c : RCfg) (originalName rollname : Str) : Str :=
  match c.mode with
  | .post => originalName ++ c!"." ++ rollname
  | .pre => rollname ++ c!"." ++ originalName

/-- `getFileRollName` — internal/output_rollingwriter.go:446-454. -/
def RCfg.getFileRollName (c : RCfg) (fileName : Str) : Str :=
  match c.mode with
  | .post => fileName.drop (c.fileName ++ c!".").length
  | .pre => fileName.take (fileName.length - (c.fileName ++ c!".").length)

/-- `isFileRollNameValid` — internal/output_rollingwriter.go:571-577, 646-652. -/
def RCfg.isFileRollNameValid (lib : RLib) (c : RCfg) (rname : Str) : Bool :=
  if rname = [] then false
  else match c.kind with
    | .size _ => (atoi rname).2 = none
    | .time pat => (lib.parse pat rname).isSome

/-- What roll names are sorted by — `Less`, internal/output_rollingwriter.go:585-589, 663-667 (with `Len` and `Swap`, 581-583, 591-593, 659-661, 669-671). -/
def RCfg.key (lib : RLib) (c : RCfg) (rname : Str) : Int :=
  match c.kind with
  | .size _ => (atoi rname).1
  | .time pat => (lib.parse pat rname).getD lib.zero

/-- `sortFileRollNamesAsc` — internal/output_rollingwriter.go:595-599, 673-677. -/
def RCfg.sortFileRollNamesAsc (lib : RLib) (c : RCfg) (fs : List Str) : List Str := lib.sort (c.key lib) fs

/-- `getSortedLogHistory` without the reading of the directory — internal/output_rollingwriter.go:247-264. -/
def RCfg.historyOf (lib : RLib) (c : RCfg) (files : List Str) : List Str :=
  let valid := ((files.filter c.hasRollName).map c.getFileRollName).filter (c.isFileRollNameValid lib)
  (c.sortFileRollNamesAsc lib valid).map (c.createFullFileName c.fileName)

/-- `getSortedLogHistory` — internal/output_rollingwriter.go:242-265. -/
def RCfg.getSortedLogHistory (lib : RLib) (c : RCfg) : Prog (Option (List Str)) := do
  match ← sys .readdir with
  | none => return none
  | some files => return some (c.historyOf lib files)

/-- `createFileAndFolderIfNeeded` — internal/output_rollingwriter.go:267-292. -/
def RCfg.createFile (c : RCfg) (rw : RW) : Prog (Bool × RW) := do
  if (← sys (.mkdirAll c.dirPerm)) = false then return (false, rw)
  let rw := { rw with name := c.fileName }
  if (← sys (.openAppend c.fileName c.filePerm)) = false then return (false, { rw with file := none })
  match ← sys (.stat c.fileName) with
  | none =>
    let _ ← sys (.close c.fileName)
    return (false, { rw with file := none })
  | some n => return (true, { rw with file := some .opened, size := n })

/-- `for i := 0; i < rollsToDelete; i++` — internal/output_rollingwriter.go:436-441. -/
def removeAll : List Str → Prog Unit
  | [] => return ()
  | n :: ns => do
    let _ ← sys (.remove n)
    removeAll ns

/-- `compressionType.rollingArchiveTypeName(name, true)` — internal/output_rollingwriter.go:148-153, with the
extensions of :96 and :114. -/
def ArchiveType.explodedName : ArchiveType → Str → Str
  | .gzip, name => name ++ c!".gz"
  | _, name => name ++ c!".zip"

/-- `archiveExplodedLogs` — internal/output_rollingwriter.go:294-338. -/
def RCfg.archiveExplodedLogs (c : RCfg) (logFilename : Str) : Prog Bool := do
  match ← sys (.rollRead logFilename) with
  | none => return false
  | some data =>
    if (← sys .tmpCreate) = false then return false
    let ok ← sys (.tmpEntry logFilename data)
    let closed ← sys .tmpClose
    if ok && closed then sys (.tmpRename (c.archive.explodedName logFilename))
    else
      let _ ← sys .tmpRemove
      return false

/-- `archive.Copy(w, r)` into the temporary file; as `r` is wrapped (internal/output_rollingwriter.go:110, 141)
this is `copyBuffer`: internal/archive/archive.go:76-123. -/
def copyEntries : Entries → Prog Bool
  | [] => return true
  | (n, bs) :: es => do
    if (← sys (.tmpEntry n bs)) = false then return false
    copyEntries es

/-- Adding the logs to the archive — internal/output_rollingwriter.go:388-407.  The entry is named by the path of
the log; here by its name. -/
def addFiles : List Str → Prog Bool
  | [] => return true
  | n :: ns => do
    match ← sys (.rollRead n) with
    | none => return false
    | some data =>
      if (← sys (.tmpEntry n data)) = false then return false
      addFiles ns

/-- `archiveUnexplodedLogs` — internal/output_rollingwriter.go:340-408. -/
def archiveUnexplodedLogs (rolls : List Str) : Prog Bool := do
  if (← sys .tmpCreate) = false then return false
  let ok ← (do
    match ← sys .archRead with
    | .failed => return false
    | .absent => addFiles rolls
    | .entries es => if (← copyEntries es) = false then return false else addFiles rolls)
  let closed ← sys .tmpClose
  if ok && closed then sys (.tmpRename [])
  else
    let _ ← sys .tmpRemove
    return false

/-- The archiving of internal/output_rollingwriter.go:424-427. -/
def RCfg.archiveEach (c : RCfg) : List Str → Prog Unit
  | [] => return ()
  | n :: ns => do
    let _ ← c.archiveExplodedLogs n
    c.archiveEach ns

/-- `deleteOldRolls` — internal/output_rollingwriter.go:410-444. -/
def RCfg.deleteOldRolls (c : RCfg) (history : List Str) : Prog Unit := do
  if c.maxRolls ≤ 0 then return ()
  let rollsToDelete := (history.length : Int) - c.maxRolls
  if rollsToDelete ≤ 0 then return ()
  let rolls := history.take rollsToDelete.toNat
  if c.archive ≠ .none then
    let _ ← sys (.mkdirAll c.dirPerm)
    if c.exploded then c.archiveEach rolls
    else
      let _ ← archiveUnexplodedLogs rolls
  removeAll rolls

/-- `getNewHistoryRollFileName` — internal/output_rollingwriter.go:601-608, 679-683. -/
def RCfg.getNewHistoryRollFileName (lib : RLib) (c : RCfg) (rw : RW) (history : List Str) : Prog (Str × RW) := do
  match c.kind with
  | .size _ =>
    let v := match history.getLast? with
      | some latest => (atoi (c.getFileRollName latest)).1
      | none => 0
    return (itoa (wrap64 (v + 1)), rw)
  | .time pat =>
    let t ← sys .now
    return (rw.timeName, { rw with timeName := lib.format t pat })

/-- `roll` after the file has been closed and the history read — internal/output_rollingwriter.go:481-510. -/
def RCfg.rollOver (lib : RLib) (c : RCfg) (rw : RW) (history : List Str) : Prog (Bool × RW) := do
  let (tag, rw) ← c.getNewHistoryRollFileName lib rw history
  let newHistoryName := c.createFullFileName c.fileName tag
  if (← sys (.rename rw.name newHistoryName)) = false then return (false, rw)
  let _ ← sys (.chmod newHistoryName c.backPerm)
  let history := history ++ [newHistoryName]
  if (history.length : Int) > c.maxRolls then c.deleteOldRolls history
  return (true, rw)

/-- `roll` — internal/output_rollingwriter.go:456-510.  `Close` of a nil or closed file is an error. -/
def RCfg.roll (lib : RLib) (c : RCfg) (rw : RW) : Prog (Bool × RW) := do
  match rw.file with
  | none | some .dead => return (false, rw)
  | some .opened =>
    if (← sys (.close rw.name)) = false then return (false, { rw with file := some .dead })
    let rw := { rw with file := none }
    match ← c.getSortedLogHistory lib with
    | none => return (false, rw)
    | some history => c.rollOver lib rw history

/-- `needsToRoll` — internal/output_rollingwriter.go:567-569, 634-644. -/
def RCfg.needsToRoll (lib : RLib) (c : RCfg) (rw : RW) : Prog (Bool × RW) := do
  match c.kind with
  | .size max => return (decide (rw.size ≥ max), rw)
  | .time pat =>
    let t ← sys .now
    let newName := lib.format t pat
    if rw.timeName = [] then return (false, { rw with timeName := newName })
    return (decide (newName ≠ rw.timeName), rw)

/-- The end of `Write` — internal/output_rollingwriter.go:529-531. -/
def RCfg.put (rw : RW) (bytes : Bytes) : Prog ((Nat × Bool) × RW) := do
  match rw.file with
  | some .opened =>
    let (n, ok) ← sys (.write rw.name bytes)
    return ((n, ok), { rw with size := rw.size + n })
  | _ => return ((0, false), rw)

/-- `Write` after the roll — internal/output_rollingwriter.go:522-531. -/
def RCfg.append (c : RCfg) (rw : RW) (bytes : Bytes) : Prog ((Nat × Bool) × RW) := do
  if rw.file = none then
    let (ok, rw) ← c.createFile rw
    if ok = false then return ((0, false), rw)
    RCfg.put rw bytes
  else RCfg.put rw bytes

/-- `Write` — internal/output_rollingwriter.go:512-532 — inside the lock: the number of bytes written and
whether there is no error. -/
def RCfg.write (lib : RLib) (c : RCfg) (rw : RW) (bytes : Bytes) : Prog ((Nat × Bool) × RW) := do
  let (b, rw) ← c.needsToRoll lib rw
  if b then
    let (ok, rw) ← c.roll lib rw
    if ok = false then return ((0, false), rw)
    c.append rw bytes
  else c.append rw bytes

/-- `Close` — internal/output_rollingwriter.go:534-543 (not called by any output). -/
def RCfg.close (rw : RW) : Prog (Bool × RW) := do
  match rw.file with
  | none => return (true, rw)
  | some .dead => return (false, rw)
  | some .opened =>
    if (← sys (.close rw.name)) = false then return (false, { rw with file := some .dead })
    return (true, { rw with file := none })

/-- `filepath.Split` — the part after the last separator — internal/output_rollingwriter.go:202. -/
def baseName (path : Str) : Str := (path.reverse.takeWhile (· ≠ '/')).reverse

/-- `filepath.Split` — the part up to and with the last separator — internal/output_rollingwriter.go:202. -/
def dirName (path : Str) : Str := (path.reverse.dropWhile (· ≠ '/')).reverse

/-- `newRollingFileWriter` — internal/output_rollingwriter.go:200-218: the directory, the name and the archive path. -/
def newRollingFileWriter (fpath apath : Str) : Str × Str × Str :=
  let dir := if dirName fpath = [] then c!"." else dirName fpath
  (dir, baseName fpath, if apath = [] then dir else apath)

/-- `NewRollingOutput` up to the choice of the writer — internal/output_rolling.go:22-64; `none` is the panic of
:63. -/
def newRollingWriter (tc : Toolchain) (cfg : CfgMap) : Option RCfg :=
  let (dirPath, fileName, archivePath) := newRollingFileWriter (cfg.at c!"file") []
  let c : RCfg := {
    fileName, dirPath, archivePath
    kind := .time []
    maxRolls := getMaxRolls (cfg.at c!"backups")
    mode := if cfg.at c!"name_mode" = c!"prefix" then .pre else .post
    dirPerm := getFileMode tc (cfg.at c!"dir_perm") defaultDirectoryPermissions
    filePerm := getFileMode tc (cfg.at c!"file_perm") defaultFilePermissions
    backPerm := getFileMode tc (cfg.at c!"back_perm") defaultBackupPermissions
    archive := if cfg.at c!"archive" = c!"zip" then .zip else if cfg.at c!"archive" = c!"gzip" then .gzip else .none }
  if cfg.type = c!"size_rolling_file" then some { c with kind := .size (getMaxSize (cfg.at c!"size")) }
  else if cfg.type = c!"time_rolling_file" then some { c with kind := .time (cfg.at c!"pattern") }
  else none

end Log4g
