import Verif.Model.Strconv

/-! # File system and programs that use it

The rolling writer is modelled as a program that makes calls to the operating system and goes on according
to their results (`Prog`).  `SysStep` says what a call may do.  Every call may fail; the clock may show
anything.  `Runs` are the complete runs of a program, `Stops` the runs that end between any two calls, as when
the process dies.

Simplifications.  The log directory holds regular files and directories, no links; nobody else changes it.
An open file is identified by its name: the writer closes a file before it renames it.  A write to the disk
that dies half-way is a `write` that fails after some of the bytes.  That a directory does not exist is
represented by the failure of the calls that need it. -/

namespace Log4g

/-- An entry of the log directory.  (What internal/output_fsutil.go:95-97 tells apart.) -/
inductive Node
  | file (data : Bytes) (perm : Nat)
  | dir
  deriving DecidableEq

/-- A directory.  (`currentDirPath`, internal/output_rollingwriter.go:182.) -/
abbrev Dir := Str → Option Node

/-- An archive: names and contents.  (As internal/output_rollingwriter.go:379, 400-403 read and write it.) -/
abbrev Entries := List (Str × Bytes)

/-- What is at a path where an archive is looked for.  (internal/output_rollingwriter.go:367-386) -/
inductive ANode
  | absent
  | dir
  | file (es : Entries)
  /-- a file the unarchiver does not understand -/
  | junk
  deriving DecidableEq

/-- The disk: the log directory; what is at `archivePath` (under the name "") and in the directory of that name;
the temporary file with an archive under construction.  (internal/output_rollingwriter.go:182, 188, 545-551) -/
structure Disk where
  dir : Dir
  arch : Str → ANode := fun _ => .absent
  tmp : Option Entries := none

/-- What comes of reading an archive.  (internal/output_rollingwriter.go:367-386) -/
inductive ARead
  | absent | failed
  | entries (es : Entries)

/-- Calls to the operating system.
(Made at internal/output_rollingwriter.go:267-551 and internal/output_fsutil.go:57-118.) -/
inductive Sys
  | mkdirAll (perm : Nat)
  /-- `os.OpenFile(name, O_WRONLY|O_APPEND|O_CREATE, perm)` -/
  | openAppend (name : Str) (perm : Nat)
  | stat (name : Str)
  | write (name : Str) (bs : Bytes)
  | close (name : Str)
  /-- open the directory and read all entries: the names of the regular files -/
  | readdir
  | rename (a b : Str)
  | chmod (name : Str) (perm : Nat)
  | remove (name : Str)
  /-- `time.Now()` -/
  | now
  /-- make the temporary file -/
  | tmpCreate
  /-- open and read the archive at `archivePath` -/
  | archRead
  /-- open and read a log file -/
  | rollRead (name : Str)
  /-- write an entry to the archive in the temporary file -/
  | tmpEntry (name : Str) (data : Bytes)
  /-- finish the archive and close the temporary file -/
  | tmpClose
  /-- move the temporary file to `archivePath` ("") or into it -/
  | tmpRename (to : Str)
  | tmpRemove

/-- Results; `false` is an error.  (internal/output_rollingwriter.go:267-551) -/
@[reducible] def Sys.Resp : Sys → Type
  | .stat _ => Option Nat
  | .write _ _ => Nat × Bool
  | .readdir => Option (List Str)
  | .now => Int
  | .archRead => ARead
  | .rollRead _ => Option Bytes
  | _ => Bool

/-- `dir` with another entry at `n`.
(The effect of the calls at internal/output_rollingwriter.go:278, 492, 529 and internal/output_fsutil.go:118.) -/
def Disk.put (d : Disk) (n : Str) (x : Option Node) : Disk := { d with dir := fun m => if m = n then x else d.dir m }

/-- What can be the name of a file in the log directory: with another one, `filepath.Join` gives the path of a directory, or a path that
leads elsewhere; or the path has a character that file systems do not take.  (internal/output_rollingwriter.go:274, 491-492)
Simplification: below the log directory there are no directories into which a name with a separator could lead. -/
def properName (n : Str) : Bool := n ≠ [] && n ≠ c!"." && n ≠ c!".." && !n.contains '/' && !n.contains '\x00'

/-- What a call may do.  A call that fails changes nothing, except that a `write` may have written some of
the bytes.  (The operating system under internal/output_rollingwriter.go:267-551 and internal/output_fsutil.go:57-118.) -/
def SysStep (umask : Nat) (d : Disk) : (o : Sys) → o.Resp → Disk → Prop
  | .mkdirAll _, _, d' => d' = d
  | .openAppend n p, r, d' =>
    if r = true then
      match d.dir n with
      | none => properName n = true ∧ d' = d.put n (some (.file [] (p &&& (0o777 ^^^ (umask &&& 0o777)))))
      | some (.file _ _) => d' = d
      | some .dir => False
    else d' = d
  | .stat n, r, d' => d' = d ∧
    match r with
    | some k => ∃ data perm, d.dir n = some (.file data perm) ∧ k = data.length
    | none => True
  | .write n bs, r, d' =>
    ∃ data perm, d.dir n = some (.file data perm) ∧ r.1 ≤ bs.length ∧ (r.2 = true → r.1 = bs.length) ∧
      d' = d.put n (some (.file (data ++ bs.take r.1) perm))
  | .close _, _, d' => d' = d
  | .readdir, r, d' => d' = d ∧
    match r with
    | some names => names.Nodup ∧ ∀ n, n ∈ names ↔ ∃ data perm, d.dir n = some (.file data perm)
    | none => True
  | .rename a b, r, d' =>
    if r = true then ∃ data perm, d.dir a = some (.file data perm) ∧ (d.dir b ≠ some .dir ∧ properName b = true) ∧ a ≠ b ∧
      d' = (d.put a none).put b (some (.file data perm))
    else d' = d
  | .chmod n p, r, d' =>
    if r = true then ∃ data perm, d.dir n = some (.file data perm) ∧ d' = d.put n (some (.file data p))
    else d' = d
  | .remove n, r, d' =>
    if r = true then (d.dir n = none ∧ d' = d) ∨ (∃ data perm, d.dir n = some (.file data perm) ∧ d' = d.put n none)
    else d' = d
  | .now, _, d' => d' = d
  | .tmpCreate, r, d' => if r = true then d' = { d with tmp := some [] } else d' = d
  | .archRead, r, d' => d' = d ∧
    match r with
    | .absent => d.arch [] = .absent
    | .entries es => d.arch [] = .file es
    | .failed => True
  | .rollRead n, r, d' => d' = d ∧
    match r with
    | some bs => ∃ perm, d.dir n = some (.file bs perm)
    | none => True
  | .tmpEntry n bs, r, d' => if r = true then ∃ es, d.tmp = some es ∧ d' = { d with tmp := some (es ++ [(n, bs)]) } else d' = d
  | .tmpClose, _, d' => d' = d
  | .tmpRename to, r, d' =>
    if r = true then ∃ es, d.tmp = some es ∧ d.arch to ≠ .dir ∧
      d' = { d with tmp := none, arch := fun n => if n = to then .file es else d.arch n }
    else d' = d
  | .tmpRemove, r, d' => if r = true then d' = { d with tmp := none } else d' = d

/-- Programs.  (The form of internal/output_rollingwriter.go:242-551: calls, and what is done with their results.) -/
inductive Prog (α : Type)
  | ret (a : α)
  | call (o : Sys) (k : o.Resp → Prog α)

/-- One program after another (statements in sequence, internal/output_rollingwriter.go:242-551). -/
def Prog.bind {α β : Type} : Prog α → (α → Prog β) → Prog β
  | .ret a, f => f a
  | .call o k, f => .call o fun r => (k r).bind f

/-- Notation for sequences of statements (internal/output_rollingwriter.go:242-551). -/
instance : Monad Prog where
  pure := .ret
  bind := Prog.bind

/-- A single call.  (For example internal/output_rollingwriter.go:529.) -/
def sys (o : Sys) : Prog o.Resp := .call o .ret

/-- The calls made and their results.  (Of internal/output_rollingwriter.go:242-551.) -/
abbrev STrace := List ((o : Sys) × o.Resp)

/-- Complete runs.  (Of internal/output_rollingwriter.go:512-532 and the functions it calls.) -/
inductive Runs (umask : Nat) {α : Type} : Prog α → Disk → STrace → α → Disk → Prop
  | ret {a d} : Runs umask (.ret a) d [] a d
  | call {o k d r d' tr a d''} : SysStep umask d o r d' → Runs umask (k r) d' tr a d'' → Runs umask (.call o k) d (⟨o, r⟩ :: tr) a d''

/-- Runs cut off between two calls.  (The process dies during internal/output_rollingwriter.go:512-532.) -/
inductive Stops (umask : Nat) {α : Type} : Prog α → Disk → STrace → Disk → Prop
  | here {p d} : Stops umask p d [] d
  | call {o k d r d' tr d''} : SysStep umask d o r d' → Stops umask (k r) d' tr d'' → Stops umask (.call o k) d (⟨o, r⟩ :: tr) d''

end Log4g
