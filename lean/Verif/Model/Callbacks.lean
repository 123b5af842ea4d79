import Verif.Model.World

/-! # Creators and outputs that use the library — `internal/logger_manager.go`, `internal/logger_factory.go`

The manager calls creators, and `Close` of outputs, while it holds its lock, and the factory calls the manager while it
holds its own.  Go's locks do not know who holds them: a goroutine that locks one a second time waits for itself.  Here
the two locks are part of the state, the code the library calls makes calls of its own, and it may panic.

Simplifications: one goroutine makes calls (others are covered as far as they wait for a lock that is never given back);
loading a configuration is left out (it is `SetConfig` of what was loaded); what a creator does apart from calling the
library is its result, as in `Model/Manager.lean`; `SetFormatter` and `CallerInfoFlag` of an output do not call the
library. -/

namespace Log4g

/-- A call of the library.  (api/logger_mange.go:14-39, api/logger_api.go:74-105) -/
inductive CbCall
  | registerFormatter (stype : Str) (f : FmtCreator)
  | registerOutput (stype : Str) (f : OutCreator)
  | setConfig (cfg : Config) (order : List Nat)
  | getLogger (name : Str)
  | queryOutputs (name : Str)
  /-- `Close` of the manager; outputs are closed in the order `order` -/
  | close (order : List Nat)
  | setLevel (r : Nat) (lvl : Level)
  /-- a message on a logger the program has: no lock, and nothing here changes (internal/logger.go:165-199) -/
  | log

/-- What code called by the library does: calls, one after the other, and perhaps a panic.
(An `api.FormatterFuncCreator`, `api.OutputFuncCreator`, api/logger_mange.go:8,11, or a `Close`, api/logger_api.go:164.) -/
structure Body where
  calls : List CbCall := []
  panics : Bool := false

/-- The creator that is called as the `k`th, and `Close` of output `o`.  (Called at internal/logger_manager.go:81, 94, 192.) -/
structure Callbacks where
  make : Nat → Body := fun _ => {}
  shut : Nat → Body := fun _ => {}

/-- The library, and whether the locks of the factory and of the manager are held.
(internal/logger_factory.go:17, internal/logger_manager.go:22) -/
structure CbState where
  w : World := {}
  f : Bool := false
  m : Bool := false

/-- How a call ends: it returns, panics, or waits for a lock this goroutine holds.
(Of internal/logger_manager.go:41-195 and internal/logger_factory.go:23-101.) -/
inductive Ended (α : Type)
  | done (a : α) (s : CbState)
  | panic (s : CbState)
  | stuck (s : CbState)

/-- Code that runs in the library.  (internal/logger_manager.go:41-195, internal/logger_factory.go:23-101) -/
def Op (α : Type) := CbState → Ended α

namespace Op

/-- A result.  (`return`, e.g. internal/logger_manager.go:102) -/
def ret (a : α) : Op α := fun s => .done a s

/-- One statement after another: not reached after a panic or a lock that is never free.
(Statements of internal/logger_manager.go:41-195, internal/logger_factory.go:23-101.) -/
def andThen (x : Op α) (g : α → Op β) : Op β := fun s =>
  match x s with
  | .done a s => g a s
  | .panic s => .panic s
  | .stuck s => .stuck s

/-- Statements in sequence.  (internal/logger_manager.go:41-195, internal/logger_factory.go:23-101) -/
instance : Monad Op where
  pure := ret
  bind := andThen

/-- The state.  (Fields of internal/logger_manager.go:21-29, internal/logger_factory.go:16-21.) -/
def world : Op World := fun s => .done s.w s

/-- Assignments to fields.  (Fields of internal/logger_manager.go:21-29, internal/logger_factory.go:16-21.) -/
def change (g : World → World) : Op Unit := fun s => .done () { s with w := g s.w }

/-- `f.Lock()` — internal/logger_factory.go:24, 91. -/
def lockF : Op Unit := fun s => if s.f then .stuck s else .done () { s with f := true }

/-- `m.Lock()` — internal/logger_manager.go:42, 48, 55, 133, 190. -/
def lockM : Op Unit := fun s => if s.m then .stuck s else .done () { s with m := true }

/-- `m.Unlock()` — internal/logger_manager.go:44, 50, 135, 194. -/
def unlockM : Op Unit := fun s => .done () { s with m := false }

/-- `defer f.Unlock()` — internal/logger_factory.go:25, 92: also after a panic. -/
def deferUnlockF (x : Op α) : Op α := fun s =>
  match x s with
  | .done a s => .done a { s with f := false }
  | .panic s => .panic { s with f := false }
  | .stuck s => .stuck s

/-- `defer m.Unlock()` — internal/logger_manager.go:56. -/
def deferUnlockM (x : Op α) : Op α := fun s =>
  match x s with
  | .done a s => .done a { s with m := false }
  | .panic s => .panic { s with m := false }
  | .stuck s => .stuck s

/-- Calls, one after the other.  (Of a creator, api/logger_mange.go:8, 11.) -/
def runAll (call : CbCall → Op Unit) : List CbCall → Op Unit
  | [] => ret ()
  | c :: cs => do
    call c
    runAll call cs

/-- Code called by the library.  (Called at internal/logger_manager.go:81, 94, 192.) -/
def runBody (call : CbCall → Op Unit) (b : Body) : Op Unit := do
  runAll call b.calls
  if b.panics then (fun s => .panic s) else ret ()

/-- A call of a creator — internal/logger_manager.go:81, 94. -/
def create (cb : Callbacks) (call : CbCall → Op Unit) (cr : Nat → CfgMap → Except Str α) (c : CfgMap) : Op (Except Str α) := do
  let k := (← world).mgr.calls
  change fun w => { w with mgr := { w.mgr with calls := k + 1 } }
  runBody call (cb.make k)
  ret (cr k c)

/-- The formatter part of one round of the loop — internal/logger_manager.go:74-85. -/
def getFormat (cb : Callbacks) (call : CbCall → Op Unit) (fmtcfg : CfgMap) : Op (Except MgrErr Nat) := do
  let m := (← world).mgr
  match Map.get m.fmtCreators fmtcfg.type with
  | none => ret (.error (.noFormatCreator fmtcfg.type))
  | some creator =>
    match Map.get m.formats fmtcfg.name with
    | some f => ret (.ok f)
    | none => do
      match ← create cb call creator fmtcfg with
      | .error e => ret (.error (.formatCreator e))
      | .ok flag => do
        let i := (← world).mgr.fheap.length
        change fun w => { w with mgr := { w.mgr with fheap := w.mgr.fheap ++ [⟨fmtcfg, flag⟩],
                                                     formats := Map.set w.mgr.formats fmtcfg.name i } }
        ret (.ok i)

/-- The output part of one round of the loop — internal/logger_manager.go:87-99. -/
def getOutput (cb : Callbacks) (call : CbCall → Op Unit) (opcfg : CfgMap) (fmtt : Nat) : Op (Except MgrErr Nat) := do
  let m := (← world).mgr
  match Map.get m.outCreators opcfg.type with
  | none => ret (.error (.noOutputCreator opcfg.type))
  | some creator =>
    match Map.get m.outputs opcfg.name with
    | some o => ret (.ok o)
    | none => do
      match ← create cb call creator opcfg with
      | .error e => ret (.error (.outputCreator e))
      | .ok () => do
        let i := (← world).mgr.oheap.length
        change fun w => { w with mgr := { w.mgr with oheap := w.mgr.oheap ++ [⟨.managed opcfg, some fmtt⟩],
                                                     outputs := Map.set w.mgr.outputs opcfg.name i } }
        ret (.ok i)

/-- One round of the loop — internal/logger_manager.go:63-101. -/
def one (cb : Callbacks) (call : CbCall → Op Unit) (opid : Str) : Op (Except MgrErr Nat) := do
  let cfg := (← world).mgr.config
  let opcfg := cfg.getCfgOutput opid
  if opcfg = none then ret (.error (.noOutput opid))
  else
    let fmtcfg := cfg.getCfgFormat opcfg.formatName
    if fmtcfg = none then ret (.error (.noFormat opcfg.formatName))
    else do
      match ← getFormat cb call fmtcfg with
      | .error e => ret (.error e)
      | .ok fmtt => getOutput cb call opcfg fmtt

/-- The loop — internal/logger_manager.go:63-101. -/
def loop (cb : Callbacks) (call : CbCall → Op Unit) : List Str → Op (Except MgrErr (List Nat))
  | [] => ret (.ok [])
  | opid :: rest => do
    match ← one cb call opid with
    | .error e => ret (.error e)
    | .ok o => do
      match ← loop cb call rest with
      | .error e => ret (.error e)
      | .ok os => ret (.ok (o :: os))

/-- `GetLoggerOutputs` behind its `m.Lock()` — internal/logger_manager.go:57-102. -/
def outputsOf (cb : Callbacks) (call : CbCall → Op Unit) (name : Str) : Op (Except MgrErr (List Nat × Level)) := do
  match (← world).mgr.config.getCfgLogger name with
  | none => ret (.error (.noLogger name))
  | some lc => do
    match ← loop cb call lc.outputNames with
    | .error e => ret (.error e)
    | .ok ops => ret (.ok (ops, Level.levelFrom lc.level))

/-- `GetLoggerOutputs` — internal/logger_manager.go:53-103. -/
def getLoggerOutputs (cb : Callbacks) (call : CbCall → Op Unit) (name : Str) : Op (Except MgrErr (List Nat × Level)) := do
  lockM
  deferUnlockM (outputsOf cb call name)

/-- The lines of internal/logger_factory.go:34-39 and :94-99. -/
def configure (cb : Callbacks) (call : CbCall → Op Unit) (r : Nat) (name : Str) : Op Unit := do
  match ← getLoggerOutputs cb call name with
  | .error _ => ret ()
  | .ok (ops, lvl) => change fun w => (w.setLevel r lvl).setOutputs r ops

/-- `getRootLogger` — internal/logger_factory.go:71-88. -/
def getRootLogger (cb : Callbacks) (call : CbCall → Op Unit) : Op Nat := do
  match (← world).root with
  | some r => ret r
  | none => do
    let r := (← world).heap.length
    change fun w => { w with root := some r, heap := w.heap ++ [newLogger rootLoggerName] }
    match ← getLoggerOutputs cb call rootLoggerName with
    | .error _ => do
      change fun w => w.setLevel r Level.Debug
      let o := (← world).mgr.oheap.length
      change fun w => { w with mgr := { w.mgr with oheap := w.mgr.oheap ++ [{ origin := .console, fmt := none }] } }
      change fun w => w.setOutputs r [o]
    | .ok (ops, lvl) => change fun w => (w.setLevel r lvl).setOutputs r ops
    change fun w => { w with loggers := Map.set w.loggers rootLoggerName r }
    ret r

/-- `GetLogger` behind its `f.Lock()` — internal/logger_factory.go:27-42. -/
def loggerOf (cb : Callbacks) (call : CbCall → Op Unit) (name : Str) : Op Unit := do
  if name = [] ∨ name = rootLoggerName then do
    let _ ← getRootLogger cb call
    ret ()
  else do
    match Map.get (← world).loggers name with
    | some _ => ret ()
    | none => do
      let root ← getRootLogger cb call
      let (p, w) := (← world).parentLoop root [] name
      let (r, w) := w.createLogger name (some p)
      change fun _ => w
      configure cb call r name

/-- `GetLogger` — internal/logger_factory.go:23-43.  The logger it returns is left out: it is the one of this name. -/
def getLogger (cb : Callbacks) (call : CbCall → Op Unit) (name : Str) : Op Unit := do
  lockF
  deferUnlockF (loggerOf cb call name)

/-- The loop of `notify` — internal/logger_factory.go:93-100. -/
def notifyLoop (cb : Callbacks) (call : CbCall → Op Unit) : List Nat → Op Unit
  | [] => ret ()
  | r :: rs => do
    match (← world).heap[r]? with
    | none => notifyLoop cb call rs
    | some l => do
      configure cb call r l.name
      notifyLoop cb call rs

/-- `setConfig` — internal/logger_manager.go:128-140 — and `notify` — internal/logger_factory.go:90-101.  An error changes nothing. -/
def setConfig (cb : Callbacks) (call : CbCall → Op Unit) (cfg : Config) (order : List Nat) : Op Unit :=
  match validateConfig cfg with
  | some _ => ret ()
  | none => do
    lockM
    change fun w => { w with mgr := { w.mgr with config := cfg } }
    unlockM
    lockF
    deferUnlockF (notifyLoop cb call order)

/-- The loop of `Close` — internal/logger_manager.go:191-193. -/
def closeLoop (cb : Callbacks) (call : CbCall → Op Unit) : List Nat → Op Unit
  | [] => ret ()
  | o :: os => do
    runBody call (cb.shut o)
    closeLoop cb call os

/-- `Close` — internal/logger_manager.go:189-195: no `defer`. -/
def close (cb : Callbacks) (call : CbCall → Op Unit) (order : List Nat) : Op Unit := do
  lockM
  closeLoop cb call order
  unlockM

/-- A call.  `call` is what calls made by creators and by outputs do.  (internal/logger_manager.go:41-195,
internal/logger_factory.go:23-101, internal/logger.go:80-82) -/
def callWith (cb : Callbacks) (call : CbCall → Op Unit) : CbCall → Op Unit
  | .registerFormatter t f => do lockM; change fun w => w.registerFormatter t f; unlockM
  | .registerOutput t f => do lockM; change fun w => w.registerOutput t f; unlockM
  | .setConfig cfg order => setConfig cb call cfg order
  | .getLogger name => getLogger cb call name
  | .queryOutputs name => do let _ ← getLoggerOutputs cb call name; ret ()
  | .close order => close cb call order
  | .setLevel r lvl => change fun w => w.setLevel r lvl
  | .log => ret ()

/-- A call of the program.  Creators and outputs are called while the manager's lock is held, so the calls they make do not
get as far as calling creators or outputs themselves: what would happen then (here: nothing) does not matter, by
`held_any` in `Lemmas/Callbacks.lean`.  (internal/logger_manager.go:41-195, internal/logger_factory.go:23-101) -/
def run (cb : Callbacks) : CbCall → Op Unit := callWith cb (callWith cb fun _ => ret ())

end Op

/-- When a program can make a call: `notify` visits every logger of the map once, `Close` every output, in some order, and
methods are called on loggers that exist.  (internal/logger_factory.go:93, internal/logger_manager.go:191) -/
def CbCall.ok (w : World) : CbCall → Prop
  | .setConfig _ order => order.Perm (w.loggers.map (·.2))
  | .close order => order.Perm (w.mgr.outputs.map (·.2))
  | .setLevel r _ => r < w.heap.length
  | _ => True

/-- A program that makes calls one after the other and recovers from panics; with each call, whether it panicked.
(Calls of internal/logger_manager.go:41-195, internal/logger_factory.go:23-101, internal/logger.go:80-82.) -/
inductive CbSteps (cb : Callbacks) : CbState → List (CbCall × Bool) → CbState → Prop
  | refl (s) : CbSteps cb s [] s
  | done {s tr s' c s''} : CbSteps cb s tr s' → c.ok s'.w → Op.run cb c s' = .done () s'' → CbSteps cb s (tr ++ [(c, false)]) s''
  | panic {s tr s' c s''} : CbSteps cb s tr s' → c.ok s'.w → Op.run cb c s' = .panic s'' → CbSteps cb s (tr ++ [(c, true)]) s''

end Log4g
