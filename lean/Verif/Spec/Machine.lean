import Verif.Model.Machine
import Verif.Spec.System
import Verif.Spec.Shared

/-! # Specification vocabulary for programs and their files -/

namespace Log4g.Spec
open Log4g Strconv
variable {V : Type}

/-- What the program did. -/
def progOf (tr : List (MLab V)) : List (PLab V) := tr.flatMap fun | .prog l | .write l _ _ _ => [l] | _ => []

/-- What the writers did in directory `k`. -/
def ioIn (k : Nat) (tr : List (MLab V)) : List ShLab := tr.flatMap fun
  | .prog _ => []
  | .write _ j o bs => if j = k then [.start o bs] else []
  | .sys j o x => if j = k then [.sys o x] else []
  | .done j o bs res => if j = k then [.ret o bs res] else []

/-- `o` is a rolling output of the library, synchronous or not, with this writer. -/
def RollingOut (tc : Toolchain) (w : World) (o : Nat) (c : RCfg) : Prop := ∃ ob kind, w.mgr.oheap[o]? = some ob ∧ ob.kind tc = .rolling c kind

/-- The rolling outputs with files in directory `k` have no names in common; and if one of them makes archives, the name of its
directory for temporary files concerns none of them. -/
structure Neighbourly (tc : Toolchain) (host : Host) (w : World) (k : Nat) : Prop where
  apart : ∀ o o' c c', o ≠ o' → RollingOut tc w o c → RollingOut tc w o' c' → host.place c.dirPath = k → host.place c'.dirPath = k → Apart c c'
  temp : ∀ o o' c c', RollingOut tc w o c → RollingOut tc w o' c' → host.place c.dirPath = k → host.place c'.dirPath = k → c.archive ≠ .none → ¬ NameOf c' tempDir

/-- What became of what output `o` gave to its writer, in directory `k`; the last of it may be half written. -/
def deedsIn (k o : Nat) (tr : List (MLab V)) (m : Machine V) : List Deed :=
  deedsOf o (ioIn k tr) ++ match (m.wr o).job with | some (msg, _) => [.died msg] | none => []

/-- The messages. -/
def messages (ds : List Deed) : List Bytes := ds.flatMap fun | .wrote msg _ _ | .died msg => [msg] | .restarted => []

/-- The texts of the events at or above the threshold, in batches: `batches` has the texts of consecutive events together. -/
def Batched (cfg : ACfg V) (f : Formatter V) (q : List (Nat × Event V)) (batches : List Bytes) : Prop :=
  ∃ gs : List (List (Event V)), gs.flatten = accepted cfg.t (q.map (·.2)) ∧ batches = gs.map fun g => g.flatMap f

/-- There are names for the backups: those of size-rolling have numbers from `B` on, and these do not run out; those of
time-rolling are older than the first period, the pattern tells the periods apart, and the clock goes forward. -/
inductive Nameable (lib : RLib) (c : RCfg) (hs0 : List Str) (tr : STrace) : Prop
  | size {max B : Int} : c.kind = .size max → 0 < max → 0 ≤ B → (∀ n ∈ hs0, ∀ v, Backup lib c n v → v ≤ B) → B + rolls tr < 2 ^ 63 → Nameable lib c hs0 tr
  | time {pat : Str} {start : Int → Int} {T0 T1 : Int} : c.kind = .time pat → Periods lib pat start T0 T1 → (∀ n ∈ hs0, ∀ v, Backup lib c n v → v < start T0) →
      (clocks tr).Pairwise (· ≤ ·) → (∀ t ∈ clocks tr, T0 ≤ t ∧ t ≤ T1) → Nameable lib c hs0 tr

/-- Output `o` rolls files, with the writer `c`, in directory `k`: other outputs keep away from its files; the directory was in
order when the program began, with the backups `hs0`; and there are names for more. -/
structure Housed (env : PEnv V) (host : Host) (v0 : Nat → Volume) (tr : List (MLab V)) (m : Machine V) (o : Nat) (c : RCfg) (k : Nat) (hs0 : List Str) : Prop where
  out : RollingOut env.tc m.p.w o c
  place : host.place c.dirPath = k
  apart : Neighbourly env.tc host m.p.w k
  order : OneName (v0 k)
  backups : Backups host.lib c (v0 k).dir hs0
  names : Nameable host.lib c hs0 (callsOf o (ioIn k tr))

/-- How the operating system answers the calls of the writers: its answer to the next call, after what has happened so far. -/
abbrev Answers (V : Type) := List (MLab V) → Nat → (op : Sys) → op.Resp

/-- It only gives answers that are possible. -/
def PossibleAnswers (env : PEnv V) (host : Host) (up : Nat → Bool) (v0 : Nat → Volume) (os : Answers V) : Prop :=
  ∀ tr m, MExec env host (newMachine up v0) tr m → ∀ o c msg op k, RollingOut env.tc m.p.w o c → (m.wr o).job = some (msg, .call op k) →
    (∃ r v' h', VolStep host.umask (m.vol (host.place c.dirPath)) (m.wr o).fd op r v' h') →
    ∃ v' h', VolStep host.umask (m.vol (host.place c.dirPath)) (m.wr o).fd op (os tr o op) v' h'

/-- The calls in `tr`, which happened after `tr0`, were answered in this way. -/
def AnsweredBy (os : Answers V) (tr0 tr : List (MLab V)) : Prop := ∀ a k o op r b, tr = a ++ .sys k o ⟨op, r⟩ :: b → r = os (tr0 ++ a) o op

end Log4g.Spec
