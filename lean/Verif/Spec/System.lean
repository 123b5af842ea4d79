import Verif.Model.System
import Verif.Spec.Output

/-! # Specification vocabulary for whole programs -/

namespace Log4g.Spec
variable {V : Type}

/-- The steps of the asynchronous output `o`. -/
def outLabs (o : Nat) (tr : List (PLab V)) : List (ALab V) :=
  tr.flatMap fun | .out p l => if p = o then [l] else [] | _ => []

/-- The calls goroutine `t` has made on the asynchronous output `o`, in order. -/
def enteredBy (o t : Nat) (tr : List (PLab V)) : List (ACall V) :=
  tr.flatMap fun | .enter u p c => if p = o ∧ u = t then [c] else [] | _ => []

/-- The events goroutine `t` has logged, by log calls or `Send`, to output `o`, in order. -/
def sentBy (t o : Nat) (tr : List (PLab V)) : List (Event V) :=
  tr.flatMap fun
    | .log u ds => if u = t then (ds.filter fun d => d.out = o).map (·.evt) else []
    | .direct u p (.send e) => if u = t ∧ p = o then [e] else []
    | _ => []

/-- The program has not closed output `o`: neither `Close` of the manager nor `Close` of the output has been called. -/
def Open (o : Nat) (tr : List (PLab V)) : Prop :=
  (∀ t os, .close t os ∈ tr → o ∉ os) ∧ ∀ t, .direct t o .close ∉ tr

/-- The program has not called `Close` of an output itself. -/
def Tame (tr : List (PLab V)) : Prop := ∀ t o, .direct t o .close ∉ tr

/-- What goroutine `t` has contributed to a list of events marked with their goroutines. -/
def shareOf (t : Nat) (q : List (Nat × Event V)) : List (Event V) := (q.filter fun x => x.1 = t).map (·.2)

/-- The text of those of the events that are at or above the threshold. -/
def textsOf (cfg : ACfg V) (f : Formatter V) (q : List (Nat × Event V)) : Bytes := (accepted cfg.t (q.map (·.2))).flatMap f

end Log4g.Spec

namespace Log4g.Spec
open scoped List
variable {V : Type}

/-- Goroutine `t` begins a log call, `Close` of the manager, or a call of an output. -/
def Begins (t : Nat) (l : PLab V) : Prop := (∃ ds, l = .log t ds) ∨ (∃ os, l = .close t os) ∨ ∃ o c, l = .direct t o c

/-- Every such call goroutine `t` has begun has returned. -/
def Returned (t : Nat) (tr : List (PLab V)) : Prop := ∀ x l y, tr = x ++ l :: y → Begins t l → .ret t ∈ y

/-- `order` is that of the calls: at every moment, what comes first has been logged, and what comes later by goroutines that
were in no call then was logged later. -/
def InTime (o : Nat) (tr : List (PLab V)) (order : List (Nat × Event V)) : Prop :=
  ∀ a b, tr = a ++ b → ∃ q1 q2, order = q1 ++ q2 ∧ ∀ t, shareOf t q1 <+ sentBy t o a ∧ (Returned t a → shareOf t q2 <+ sentBy t o b)

/-- `tr` ends with the return of a call of the manager's `Close` by goroutine `t`, in which it closed the outputs `os`; it
began after `a`. -/
def CloseCall (t : Nat) (os : List Nat) (a tr : List (PLab V)) : Prop := ∃ b, tr = a ++ .close t os :: b ++ [.ret t] ∧ .ret t ∉ b

/-- The worker of output `o` had begun whenever a `Close` of the output was done waiting for it. -/
def WorkerFirst (o : Nat) (tr : List (PLab V)) : Prop := ∀ x t y, tr = x ++ .out o (.waited t) :: y → .out o .begin ∈ x

/-- A step goroutine `t` makes in its call, or a step of a worker. -/
def Helps (t : Nat) : PLab V → Prop
  | .enter u _ _ | .leave u _ | .plain u _ _ => u = t
  | .out _ l => stepOf l = some t ∨ stepOf l = none
  | _ => False

/-- `o` is a synchronous output of the library that writes what is at or above `t`, with the formatter `f` (which may look
at the stack). -/
def SyncOut (env : PEnv V) (w : World) (o : Nat) (t : Level) (f : List Frame → Option (Formatter V)) : Prop :=
  ∃ ob, w.mgr.oheap[o]? = some ob ∧ (∀ stack, f stack = w.formatterOf env.lib stack env.other ob) ∧
    (ob.kind env.tc = .console (.sync t) ∨ (ob.kind env.tc = .memory ∧ t = Level.All) ∨ ∃ c, ob.kind env.tc = .rolling c (.sync t))

/-- `o` is a syslog output with threshold `t` and the formatter `f`. -/
def SyslogOut (env : PEnv V) (w : World) (o : Nat) (t : Level) (f : List Frame → Option (Formatter V)) : Prop :=
  ∃ ob, w.mgr.oheap[o]? = some ob ∧ (∀ stack, f stack = w.formatterOf env.lib stack env.other ob) ∧ ob.kind env.tc = .syslog t

/-- `o` is an asynchronous output of the library with these parameters. -/
def AsyncOut (env : PEnv V) (w : World) (o : Nat) (cfg : ACfg V) : Prop :=
  ∃ (ob : OutObj) (q b : Int), w.mgr.oheap[o]? = some ob ∧
    (ob.kind env.tc = .console (.async cfg.t q b) ∨ ∃ c, ob.kind env.tc = .rolling c (.async cfg.t q b)) ∧
    (cfg.queueSize : Int) = q ∧ (cfg.batchNum : Int) = b ∧ cfg.f = w.formatterOf env.lib env.stack env.other ob

/-- Events with the goroutines that sent them and the stacks on which they were formatted; without the stacks. -/
def calls (q : List (Nat × Event V × List Frame)) : List (Nat × Event V) := q.map fun x => (x.1, x.2.1)

/-- The lines for those of the events that are at or above the threshold. -/
def linesOf (lib : Lib V) (t : Level) (f : List Frame → Option (Formatter V)) (q : List (Nat × Event V × List Frame)) : List Bytes :=
  (q.filter fun x => decide (t ≤ x.2.1.level)).map fun x => textOf lib (f x.2.2) x.2.1

/-- The messages for a syslog daemon. -/
inductive SysSent (lib : Lib V) (t : Level) (f : List Frame → Option (Formatter V)) : List (Nat × Event V × List Frame) → List SysCall → Prop
  | nil : SysSent lib t f [] []
  | low {q cs u e stack} : SysSent lib t f q cs → e.level < t → SysSent lib t f (q ++ [(u, e, stack)]) cs
  | strange {q cs u e stack} : SysSent lib t f q cs → (∀ call, ¬ Severity e.level call) → SysSent lib t f (q ++ [(u, e, stack)]) cs
  | sent {q cs u e stack call} : SysSent lib t f q cs → t ≤ e.level → Severity e.level call →
      SysSent lib t f (q ++ [(u, e, stack)]) (cs ++ [call (match f stack with | some f => f e | none => utf8 (messageText lib e))])

end Log4g.Spec
