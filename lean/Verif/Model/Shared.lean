import Verif.Model.Rolling

/-! # Several rolling writers in one directory

The outputs of a configuration, or of several programs, may have their files in one directory.  Here the calls of any
number of writers are interleaved, one call to the operating system at a time, and what a writer has open is told apart
from the name under which it opened it: a file that somebody else renames or removes stays open.

Simplifications.  Directory entries are regular files without further links, or directories; only the writers change
the directory.  Writers that make archives are those of outputs: they make a single archive, at the path of the log directory
itself (internal/output_rolling.go:27, internal/output_rollingwriter.go:207-210), where there is no archive to read and no
place for a new one.  The content of their temporary directory, where a file is made and removed again, is left out. -/

namespace Log4g

/-- An entry of a directory: the file with this number, or a directory.
(What internal/output_fsutil.go:95-97 tells apart; the number is what `os.OpenFile`, internal/output_rollingwriter.go:278,
holds on to.) -/
inductive Link
  | file (no : Nat)
  | dir
  deriving DecidableEq

/-- A directory and the files, also those without a name any more: content and permissions; the next number.
(`currentDirPath` and `currentFile`, internal/output_rollingwriter.go:182-183.) -/
structure Volume where
  names : Str → Option Link
  nodes : Nat → Bytes × Nat
  next : Nat

/-- Another entry at `n`.  (internal/output_rollingwriter.go:278, 492, 529 and internal/output_fsutil.go:118.) -/
def Volume.link (v : Volume) (n : Str) (x : Option Link) : Volume := { v with names := fun m => if m = n then x else v.names m }

/-- Another content or permission of file `k`.  (internal/output_rollingwriter.go:496, 529.) -/
def Volume.set (v : Volume) (k : Nat) (x : Bytes × Nat) : Volume := { v with nodes := fun j => if j = k then x else v.nodes j }

/-- What one sees by name.  (What internal/output_fsutil.go:57-118 and other programs get to see.) -/
def Volume.dir (v : Volume) : Dir := fun n =>
  match v.names n with
  | none => none
  | some .dir => some .dir
  | some (.file k) => some (.file (v.nodes k).1 (v.nodes k).2)

/-- The name of the directory, in that of the log, for the archive under construction: `filepath.Dir` of the archive path, which
is the path of the log directory with or without separator at the end — internal/output_rollingwriter.go:350, 546. -/
def tempDir : Str := c!".log4g_tmp"

/-- What a call may do when the writer has the file `h` open: `SysStep`, but `Write`, `Stat` and `Close` go to the open
file, wherever it is now; and the archive is looked for at a directory, which is not read (internal/output_rollingwriter.go:367-377).
(The operating system under internal/output_rollingwriter.go:267-292, 340-377, 410-551 and internal/output_fsutil.go:57-118.) -/
def VolStep (umask : Nat) (v : Volume) (h : Option Nat) : (o : Sys) → o.Resp → Volume → Option Nat → Prop
  | .mkdirAll _, _, v', h' => v' = v ∧ h' = h
  | .openAppend n p, r, v', h' =>
    if r = true then
      match v.names n with
      | none => properName n = true ∧ v' = { (v.link n (some (.file v.next))).set v.next ([], p &&& (0o777 ^^^ (umask &&& 0o777))) with next := v.next + 1 } ∧ h' = some v.next
      | some (.file k) => v' = v ∧ h' = some k
      | some .dir => False
    else v' = v ∧ h' = h
  | .stat _, r, v', h' => v' = v ∧ h' = h ∧
    match r with
    | some len => ∃ k, h = some k ∧ len = (v.nodes k).1.length
    | none => True
  | .write _ bs, r, v', h' => h' = h ∧
    ∃ k, h = some k ∧ r.1 ≤ bs.length ∧ (r.2 = true → r.1 = bs.length) ∧ v' = v.set k ((v.nodes k).1 ++ bs.take r.1, (v.nodes k).2)
  | .close _, _, v', h' => v' = v ∧ h' = none
  | .readdir, r, v', h' => v' = v ∧ h' = h ∧
    match r with
    | some names => names.Nodup ∧ ∀ n, n ∈ names ↔ ∃ k, v.names n = some (.file k)
    | none => True
  | .rename a b, r, v', h' => h' = h ∧
    if r = true then ∃ k, v.names a = some (.file k) ∧ (v.names b ≠ some .dir ∧ properName b = true) ∧ a ≠ b ∧ v' = (v.link a none).link b (some (.file k))
    else v' = v
  | .chmod n p, r, v', h' => h' = h ∧
    if r = true then ∃ k, v.names n = some (.file k) ∧ v' = v.set k ((v.nodes k).1, p)
    else v' = v
  | .remove n, r, v', h' => h' = h ∧
    if r = true then (v.names n = none ∧ v' = v) ∨ (∃ k, v.names n = some (.file k) ∧ v' = v.link n none)
    else v' = v
  | .now, _, v', h' => v' = v ∧ h' = h
  | .tmpCreate, r, v', h' => h' = h ∧
    if r = true then
      match v.names tempDir with
      | none => v' = v.link tempDir (some .dir)
      | some .dir => v' = v
      | some (.file _) => False
    else v' = v ∨ (v.names tempDir = none ∧ v' = v.link tempDir (some .dir))
  | .archRead, r, v', h' => v' = v ∧ h' = h ∧ r = .failed
  | .tmpClose, _, v', h' => v' = v ∧ h' = h
  | .tmpRemove, _, v', h' => v' = v ∧ h' = h
  | _, _, _, _ => False

/-- A writer: its fields, the file it has open, and if it is writing, the message and what is still to be done.
(internal/output_rollingwriter.go:180-198, 512-532.) -/
structure Scribe where
  rw : RW := {}
  fd : Option Nat := none
  job : Option (Bytes × Prog ((Nat × Bool) × RW)) := none

/-- A directory and its writers.  (internal/output_rolling.go:21-71, once for each output.) -/
structure Shared where
  vol : Volume
  wr : Nat → Scribe := fun _ => {}

/-- Another state of writer `i`.  (internal/output_rollingwriter.go:180-198) -/
def Shared.set (s : Shared) (i : Nat) (x : Scribe) : Shared := { s with wr := fun j => if j = i then x else s.wr j }

/-- What happens: writer `i` is given a message; makes a call; returns; its program ends (perhaps while it writes a
message) and another one takes over.  (internal/output_rollingwriter.go:512-532) -/
inductive ShLab
  | start (i : Nat) (msg : Bytes)
  | sys (i : Nat) (x : (o : Sys) × o.Resp)
  | ret (i : Nat) (msg : Bytes) (res : Nat × Bool)
  | die (i : Nat) (msg : Option Bytes)

/-- One step of one writer; `cs` are the configurations of the writers.  Writes of one writer come one after another
(`rollLock`).  (internal/output_rollingwriter.go:512-532) -/
inductive ShStep (umask : Nat) (lib : RLib) (cs : Nat → Option RCfg) : Shared → ShLab → Shared → Prop
  | start {s i c msg} : cs i = some c → (s.wr i).job = none →
      ShStep umask lib cs s (.start i msg) (s.set i { s.wr i with job := some (msg, c.write lib (s.wr i).rw msg) })
  | sys {s i msg o k r v' h'} : (s.wr i).job = some (msg, .call o k) → VolStep umask s.vol (s.wr i).fd o r v' h' →
      ShStep umask lib cs s (.sys i ⟨o, r⟩) ({ s with vol := v' }.set i { s.wr i with fd := h', job := some (msg, k r) })
  | ret {s i msg res rw'} : (s.wr i).job = some (msg, .ret (res, rw')) →
      ShStep umask lib cs s (.ret i msg res) (s.set i { s.wr i with rw := rw', job := none })
  | die {s i} : ShStep umask lib cs s (.die i ((s.wr i).job.map (·.1))) (s.set i {})

/-- Executions.  (Any interleaving of internal/output_rollingwriter.go:512-532.) -/
inductive ShExec (umask : Nat) (lib : RLib) (cs : Nat → Option RCfg) (s0 : Shared) : List ShLab → Shared → Prop
  | start : ShExec umask lib cs s0 [] s0
  | step {tr s l s'} : ShExec umask lib cs s0 tr s → ShStep umask lib cs s l s' → ShExec umask lib cs s0 (tr ++ [l]) s'

end Log4g
