import Verif.Spec.RollOutput

/-! # What a program writes to a rolling file, and what it is told -/

namespace Log4g.Spec
open Log4g

/-- What happened between a program and its writers for one log file: it wrote a message and was told how many bytes were
written and whether all went well; it died while writing a message; it went on with a new writer. -/
inductive Deed
  | wrote (msg : Bytes) (n : Nat) (ok : Bool)
  | died (msg : Bytes)
  | restarted
  deriving DecidableEq

/-- The message. -/
def Deed.text : Deed → Bytes
  | .wrote msg _ _ => msg
  | .died msg => msg
  | .restarted => []

/-- How often the program went on with a new writer. -/
def restarts : List Deed → Nat
  | [] => 0
  | .wrote _ _ _ :: ds => restarts ds
  | _ :: ds => restarts ds + 1

/-- No writer is used for more than one message. -/
def alone : List Deed → Prop
  | .wrote _ _ _ :: .wrote _ _ _ :: _ => False
  | .wrote _ _ _ :: .died _ :: _ => False
  | _ :: ds => alone ds
  | [] => True

/-- What a file holds; nothing if there is none. -/
def fileText (dir : Dir) (name : Str) : Bytes :=
  match dir name with
  | some (.file data _) => data
  | _ => []

/-- `Life`, with what the program wrote and was told. -/
inductive LifeOf (umask : Nat) (lib : RLib) (c : RCfg) (d0 : Disk) : List Deed → STrace → Disk → RW → Prop
  | start : LifeOf umask lib c d0 [] [] d0 {}
  | write {ds tr d rw msg tr' n ok rw' d'} : LifeOf umask lib c d0 ds tr d rw → Runs umask (c.write lib rw msg) d tr' ((n, ok), rw') d' →
      LifeOf umask lib c d0 (ds ++ [.wrote msg n ok]) (tr ++ tr') d' rw'
  | crash {ds tr d rw msg tr' d'} : LifeOf umask lib c d0 ds tr d rw → Stops umask (c.write lib rw msg) d tr' d' →
      LifeOf umask lib c d0 (ds ++ [.died msg]) (tr ++ tr') d' {}
  | restart {ds tr d rw} : LifeOf umask lib c d0 ds tr d rw → LifeOf umask lib c d0 (ds ++ [.restarted]) tr d {}

/-- What was written, a piece for each message of which anything was: as many bytes of it as the program was told, all of
it if all went well; if the program died, any number of bytes. -/
inductive PiecesOf : List Deed → List Bytes → Prop
  | nil : PiecesOf [] []
  | wrote {ds ps msg n ok} : PiecesOf ds ps → n ≤ msg.length → (ok = true → n = msg.length) → PiecesOf (ds ++ [.wrote msg n ok]) (ps ++ [msg.take n])
  | failed {ds ps msg} : PiecesOf ds ps → PiecesOf (ds ++ [.wrote msg 0 false]) ps
  | died {ds ps msg} (n : Nat) : PiecesOf ds ps → PiecesOf (ds ++ [.died msg]) (ps ++ [msg.take n])
  | diedBefore {ds ps msg} : PiecesOf ds ps → PiecesOf (ds ++ [.died msg]) ps
  | restarted {ds ps} : PiecesOf ds ps → PiecesOf (ds ++ [.restarted]) ps

end Log4g.Spec
