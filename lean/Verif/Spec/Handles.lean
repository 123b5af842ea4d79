import Verif.Spec.Shared
import Verif.Spec.Machine

/-! # Which file a writer has open -/

namespace Log4g.Spec
open Log4g
variable {V : Type}

/-- The file that is open after a call, if `h` was open before it; `none` if the call is out of order.  A file is opened
only when none is open; it is written to, looked at and closed only while it is open; and while it is open, no file is
renamed, removed, read or given other permissions, and no archive is made. -/
def opened (h : Option Str) : (o : Sys) × o.Resp → Option (Option Str)
  | ⟨.openAppend n _, r⟩ => if h = none then some (if r = true then some n else none) else none
  | ⟨.close n, _⟩ => if h = some n then some none else none
  | ⟨.write n _, _⟩ | ⟨.stat n, _⟩ => if h = some n then some h else none
  | ⟨.mkdirAll _, _⟩ | ⟨.now, _⟩ => some h
  | _ => if h = none then some none else none

/-- The calls come in order, from when `h` is open until `h'` is. -/
inductive InOrder : Option Str → STrace → Option Str → Prop
  | nil {h} : InOrder h [] h
  | cons {h x h' tr h''} : opened h x = some h' → InOrder h' tr h'' → InOrder h (x :: tr) h''

/-- How many files were opened. -/
def openCount : STrace → Nat
  | [] => 0
  | ⟨.openAppend _ _, r⟩ :: tr => (if r = true then 1 else 0) + openCount tr
  | _ :: tr => openCount tr

/-- How many files were closed.  (A file that is closed with an error is closed.) -/
def closeCount : STrace → Nat
  | [] => 0
  | ⟨.close _, _⟩ :: tr => closeCount tr + 1
  | _ :: tr => closeCount tr

/-- A writer that is written to and closed, in any order; `tr` are the calls it made. -/
inductive Uses (umask : Nat) (lib : RLib) (c : RCfg) (d0 : Disk) : STrace → Disk → RW → Prop
  | start : Uses umask lib c d0 [] d0 {}
  | write {tr d rw m tr' res rw' d'} : Uses umask lib c d0 tr d rw → Runs umask (c.write lib rw m) d tr' (res, rw') d' → Uses umask lib c d0 (tr ++ tr') d' rw'
  | close {tr d rw tr' ok rw' d'} : Uses umask lib c d0 tr d rw → Runs umask (RCfg.close rw) d tr' (ok, rw') d' → Uses umask lib c d0 (tr ++ tr') d' rw'

/-- The calls writer `i` has made since its program began: since the last time one ended. -/
def callsSince (i : Nat) (tr : List ShLab) : STrace :=
  tr.foldl (fun st l => match l with
    | .sys j x => if j = i then st ++ [x] else st
    | .die j _ => if j = i then [] else st
    | _ => st) []

/-- The calls the writer of output `o` has made. -/
def callsBy (o : Nat) (tr : List (MLab V)) : STrace := tr.flatMap fun | .sys _ q x => if q = o then [x] else [] | _ => []

end Log4g.Spec
