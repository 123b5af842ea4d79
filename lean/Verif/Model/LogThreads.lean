import Verif.Model.Logger

/-! # A log call while other goroutines change the configuration — `internal/logger.go`

`Model/Logger.lean` runs a log call in one go.  Here it runs statement by statement, and between its
statements other goroutines run statements of theirs.  Nothing synchronises the two: `write` takes no lock.

Simplification: a read or write of a field of a logger is atomic (the Go memory model does not promise this
for the slice `outputs`). -/

namespace Log4g
variable {V : Type}

namespace World

/-- The first statement of `SetOutputs` — internal/logger.go:100. -/
def assignOutputs (w : World) (r : Nat) (ops : List Nat) : World := w.update r fun l => { l with outputs := ops }

/-- One round of the loop of `SetOutputs` — internal/logger.go:101-105. -/
def raiseOne (w : World) (r : Nat) (o : Nat) : World :=
  w.update r fun l =>
    { l with callerInfoFlag := if l.callerInfoFlag < w.mgr.outFlag o then w.mgr.outFlag o else l.callerInfoFlag }

end World

/-- A statement of another goroutine.
(internal/logger.go:81, 96, 100-105, internal/logger_manager.go:41-140, internal/logger_factory.go:23-101) -/
inductive Move
  /-- `l.level = lvl` — internal/logger.go:81 -/
  | level (r : Nat) (lvl : Level)
  /-- `l.outputs = outputs` — internal/logger.go:100 -/
  | outputs (r : Nat) (ops : List Nat)
  /-- one round of the loop — internal/logger.go:101-105 -/
  | raise (r : Nat) (o : Nat)
  /-- `l.callerSkip = callerSkip + skip` — internal/logger.go:96 -/
  | skip (r : Nat) (k : Int)
  /-- Anything that changes the manager or the maps of the factory or makes new loggers, but leaves the
  loggers there are as they are — internal/logger_manager.go:41-134, internal/logger_factory.go:61-88. -/
  | rest (mgr : Manager) (root : Option Nat) (loggers : Map Str Nat) (new : List Logger)

/-- The effect of a statement.  (internal/logger.go:81, 96, 100-105; the rest as `Move.rest` says,
internal/logger_manager.go:41-134) -/
def Move.run (w : World) : Move → World
  | .level r lvl => w.setLevel r lvl
  | .outputs r ops => w.assignOutputs r ops
  | .raise r o => w.raiseOne r o
  | .skip r k => w.setCallerSkip r k
  | .rest mgr root loggers new => { mgr := mgr, root := root, loggers := loggers, heap := w.heap ++ new }

/-- Statements one after the other.  (As in internal/logger.go:99-106.) -/
def runMoves (w : World) (ms : List Move) : World := ms.foldl Move.run w

/-- The statements of `SetOutputs` — internal/logger.go:99-106. -/
def setOutputsMoves (r : Nat) (ops : List Nat) : List Move := .outputs r ops :: ops.map (.raise r)

/-- The statements of one round of `notify` — internal/logger_factory.go:94-99. -/
def configureMoves (w : World) (r : Nat) (name : Str) : List Move :=
  match w.mgr.getLoggerOutputs name with
  | (.error _, m) => [.rest m w.root w.loggers []]
  | (.ok (ops, lvl), m) => .rest m w.root w.loggers [] :: .level r lvl :: setOutputsMoves r ops

/-- The statements of the loop of `notify` — internal/logger_factory.go:93-100, run alone from `w`. -/
def notifyMoves (w : World) : (order : List Nat) → List Move
  | [] => []
  | r :: rs =>
    match w.heap[r]? with
    | none => notifyMoves w rs
    | some l => configureMoves w r l.name ++ notifyMoves (w.configure r l.name) rs

/-- The statements of `SetConfig` — internal/logger_manager.go:128-140, run alone from `w`. -/
def setConfigMoves (w : World) (cfg : Config) (order : List Nat) : List Move :=
  match validateConfig cfg with
  | some _ => []
  | none =>
    .rest { w.mgr with config := cfg } w.root w.loggers [] ::
      notifyMoves { w with mgr := { w.mgr with config := cfg } } order

/-- An activation of `write`: the stack below it, its `l.logger`, `l.ctx`, and the arguments `name` and `skip` —
internal/logger.go:165. -/
structure WriteCall (V : Type) where
  stack : List Frame
  r : Nat
  ctx : Ctx V
  name : Str
  skip : Int

/-- Where a log call is: the statement it will run next, which reads one field of one logger.
(internal/logger.go:84-93, 161-199) -/
inductive LogPc (V : Type)
  /-- `l.logger.callerSkip` — internal/logger.go:162 -/
  | printf (stack : List Frame) (r : Nat) (ctx : Ctx V)
  /-- `cl.level != api.Uninitialized` in the loop of `Level()` — internal/logger.go:86-87 -/
  | level (f : WriteCall V) (cl : Option Nat)
  /-- `return cl.level` — internal/logger.go:88 -/
  | level2 (f : WriteCall V) (cl : Nat)
  /-- `len(l.logger.outputs) == 0` — internal/logger.go:170 -/
  | outs (f : WriteCall V)
  /-- `l.logger.callerInfoFlag == ciFuncFlag` — internal/logger.go:189 -/
  | flag (f : WriteCall V)
  /-- `l.logger.callerInfoFlag == ciFileFlag` — internal/logger.go:191 -/
  | flag2 (f : WriteCall V)
  /-- `range l.logger.outputs` — internal/logger.go:196 -/
  | send (r : Nat) (evt : Event V)
  | done (o : World.Outcome V)

/-- What a log call logs, and the time it gets from the clock.  (internal/logger.go:161, 180) -/
structure LogArgs (V : Type) where
  now : Nat
  lvl : Level
  fmt : Str
  args : List V

namespace LogPc

/-- `evt := &api.Event{…}` — internal/logger.go:179-187. -/
def event (a : LogArgs V) (f : WriteCall V) : Event V :=
  { format := a.fmt, arguments := a.args, name := f.name, level := a.lvl, time := a.now,
    callDepth := f.skip, ctx := f.ctx }

/-- `getCallerInfo(evt, needFun)` — internal/logger.go:190, 192. -/
def capture (a : LogArgs V) (f : WriteCall V) (needFun : Bool) : LogPc V :=
  match getCallerInfo (World.callerFrame :: World.writeFrame :: f.stack) (event a f) needFun with
  | none => .done .panic
  | some (_, evt) => .send f.r evt

/-- One statement of a log call — internal/logger.go:84-93, 161-199. -/
def step (w : World) (a : LogArgs V) : LogPc V → LogPc V
  | .printf stack r ctx =>
    match w.heap[r]? with
    | none => .done (.sent [])
    | some l => .level ⟨World.printfFrame :: stack, r, ctx, l.name, l.callerSkip⟩ (some r)
  | .level f none => if Level.Off ≤ a.lvl then .outs f else .done (.sent [])
  | .level f (some c) =>
    match w.heap[c]? with
    | none => if Level.Off ≤ a.lvl then .outs f else .done (.sent [])
    | some l => if l.level ≠ Level.Uninitialized then .level2 f c else .level f l.parent
  | .level2 f c =>
    match w.heap[c]? with
    | none => .done (.sent [])
    | some l => if l.level ≤ a.lvl then .outs f else .done (.sent [])
  | .outs f =>
    match w.heap[f.r]? with
    | none => .done (.sent [])
    | some l =>
      if l.outputs = [] then
        match l.parent with
        | some p => .level ⟨World.writeFrame :: f.stack, p, [], f.name, f.skip + 1⟩ (some p)
        | none => .flag f
      else .flag f
  | .flag f =>
    match w.heap[f.r]? with
    | none => .done (.sent [])
    | some l => if l.callerInfoFlag = ciFuncFlag then capture a f true else .flag2 f
  | .flag2 f =>
    match w.heap[f.r]? with
    | none => .done (.sent [])
    | some l => if l.callerInfoFlag = ciFileFlag then capture a f false else .send f.r (event a f)
  | .send r evt =>
    match w.heap[r]? with
    | none => .done (.sent [])
    | some l => .done (.sent (l.outputs.map fun o => ⟨o, evt⟩))
  | .done o => .done o

end LogPc

/-- An execution: the log call has run `k` statements, the other goroutines have run the statements `ms`, in
some interleaving.  (internal/logger.go:84-93, 161-199 against internal/logger.go:80-106.) -/
inductive LogExec (a : LogArgs V) (w0 : World) (p0 : LogPc V) : (k : Nat) → (ms : List Move) → World → LogPc V → Prop
  | refl : LogExec a w0 p0 0 [] w0 p0
  | own {k ms w p} : LogExec a w0 p0 k ms w p → LogExec a w0 p0 (k + 1) ms w (p.step w a)
  | other {k ms w p} (m : Move) : LogExec a w0 p0 k ms w p → LogExec a w0 p0 k (ms ++ [m]) (m.run w) p

end Log4g
