import Verif.Model.Logger
import Verif.Spec.Names
import Verif.Spec.Config
import Verif.Spec.Level

/-! # Specification vocabulary for loggers -/

namespace Log4g.Spec

/-- The logger object named `n`. -/
def loggerAt (w : World) (n : Str) : Option Logger := (Map.get w.loggers n).bind fun r => w.heap[r]?

/-- The logger named `n` has its own level set to `lvl`. -/
def HasLevel (w : World) (n : Str) (lvl : Level) : Prop :=
  ∃ l, loggerAt w n = some l ∧ l.level = lvl ∧ lvl ≠ 0

/-- The logger named `n` has no level of its own. -/
def NoLevel (w : World) (n : Str) : Prop := ∃ l, loggerAt w n = some l ∧ l.level = 0

/-- The logger named `n` has the outputs `ops`. -/
def HasOutputs (w : World) (n : Str) (ops : List Nat) : Prop := ∃ l, loggerAt w n = some l ∧ l.outputs = ops

/-- The logger named `n` lets messages of level `lvl` pass. -/
def Enables (w : World) (n : Str) (lvl : Level) : Prop :=
  ∃ r, Map.get w.loggers n = some r ∧ w.levelEnabled r lvl = true

/-- The argument of the last `SetCallerSkip` on logger `r`, 0 if there was none. -/
def skipOf (as : List Act) (r : Nat) : Int :=
  as.foldl (fun k a => match a with
    | .setCallerSkip r' j => if r' = r then j else k
    | _ => k) 0

/-- The last value a field list gives to a key. -/
def LastField {V : Type} (fields : List (Field V)) (key : Str) (v : CtxVal V) : Prop :=
  ∃ pre post f, fields = pre ++ f :: post ∧ f.key = key ∧ f.val = v ∧ ∀ g ∈ post, g.key ≠ key

/-- `m` is the first logger on `names` with outputs, and all loggers up to it let `lvl` pass. -/
structure Nearest (w : World) (lvl : Level) (names pre : List Str) (m : Str) (post : List Str) (ops : List Nat) : Prop where
  split : names = pre ++ m :: post
  empty : ∀ x ∈ pre, HasOutputs w x []
  outs : HasOutputs w m ops
  ne : ops ≠ []
  enabled : ∀ x ∈ pre ++ [m], Enables w x lvl

/-- The logger named `n` has the level and the outputs of the entry `e`. -/
def HasEntry (w : World) (n : Str) (e : CfgLogger) : Prop :=
  ∃ l, loggerAt w n = some l ∧ LevelNamed e.level l.level ∧ OutputsNamed w.mgr e.outputNames l.outputs

/-- The detail of caller information an output wants: what its formatter says if it was made by the library or a
registered creator, what it says itself if it was made by the user. -/
def Wants (w : World) (o : Nat) (flag : Int) : Prop :=
  ∃ ob, w.mgr.oheap[o]? = some ob ∧
    (ob.origin = .user flag ∨ (∀ f, ob.origin ≠ .user f) ∧ ∃ i fo, ob.fmt = some i ∧ w.mgr.fheap[i]? = some fo ∧ fo.flag = flag)

/-- What a method stands for: the number of its level and, for the f-methods, the format it is given. -/
inductive Logs : World.Method → Int → Option Str → Prop
  | tracef (f) : Logs (.tracef f) 2 (some f)
  | trace : Logs .trace 2 none
  | debugf (f) : Logs (.debugf f) 3 (some f)
  | debug : Logs .debug 3 none
  | infof (f) : Logs (.infof f) 4 (some f)
  | info : Logs .info 4 none
  | warnf (f) : Logs (.warnf f) 5 (some f)
  | warn : Logs .warn 5 none
  | errorf (f) : Logs (.errorf f) 6 (some f)
  | error : Logs .error 6 none
  | criticalf (f) : Logs (.criticalf f) 7 (some f)
  | critical : Logs .critical 7 none

end Log4g.Spec
