import Verif.Model.Manager
import Verif.Model.Event

/-! # Loggers and the factory — `internal/logger.go`, `internal/logger_factory.go` -/

namespace Log4g

/-- `callerSkip` — internal/logger.go:12. -/
def callerSkip : Int := 3

/-- `defLogger` — internal/logger.go:16-25.  A pointer to a logger is its position in the heap.  The
embedded `*defWriter` is determined by the logger (its context is the background context). -/
structure Logger where
  name : Str
  level : Level
  parent : Option Nat
  outputs : List Nat
  callerSkip : Int
  callerInfoFlag : Int
  deriving DecidableEq

/-- `newLogger` — internal/logger.go:27-36. -/
def newLogger (name : Str) : Logger :=
  { name := name, level := Level.Uninitialized, parent := none, outputs := [],
    callerSkip := callerSkip, callerInfoFlag := 0 }

/-- The state of the library: manager, factory (internal/logger_factory.go:16-21) and the heap of
logger objects. -/
structure World where
  mgr : Manager := {}
  root : Option Nat := none
  loggers : Map Str Nat := []
  heap : List Logger := []

/-- The name of the root logger — internal/logger_factory.go:10. -/
def rootLoggerName : Str := c!"root"

/-- `packageSepBySlash`, `packageSepByDot` — internal/logger_factory.go:11-12. -/
def isSep (c : Char) : Bool := c = '/' || c = '.'

namespace World

/-- The assignments to fields of a logger.  (internal/logger.go:81, 96, 100-104) -/
def update (w : World) (r : Nat) (f : Logger → Logger) : World :=
  { w with heap := w.heap.modify r f }

/-- `SetLevel` — internal/logger.go:80-82. -/
def setLevel (w : World) (r : Nat) (lvl : Level) : World := w.update r fun l => { l with level := lvl }

/-- `SetCallerSkip` — internal/logger.go:95-97. -/
def setCallerSkip (w : World) (r : Nat) (skip : Int) : World :=
  w.update r fun l => { l with callerSkip := Log4g.callerSkip + skip }

/-- The loop of `SetOutputs` — internal/logger.go:101-105. -/
def raiseFlag (m : Manager) (flag : Int) : List Nat → Int
  | [] => flag
  | o :: os => raiseFlag m (if flag < m.outFlag o then m.outFlag o else flag) os

/-- `SetOutputs` — internal/logger.go:99-106. -/
def setOutputs (w : World) (r : Nat) (ops : List Nat) : World :=
  w.update r fun l => { l with outputs := ops, callerInfoFlag := raiseFlag w.mgr l.callerInfoFlag ops }

/-- The lines `if ops, lvl, err := f.manager.GetLoggerOutputs(name); err != nil { } else {
l.SetLevel(lvl); l.SetOutputs(ops) }` — internal/logger_factory.go:34-39 and :94-99. -/
def configure (w : World) (r : Nat) (name : Str) : World :=
  match w.mgr.getLoggerOutputs name with
  | (.error _, m) => { w with mgr := m }
  | (.ok (ops, lvl), m) => (({ w with mgr := m }).setLevel r lvl).setOutputs r ops

/-- `createLogger` — internal/logger_factory.go:61-69. -/
def createLogger (w : World) (name : Str) (parent : Option Nat) : Nat × World :=
  match Map.get w.loggers name with
  | some r => (r, w)
  | none =>
    let r := w.heap.length
    (r, { w with heap := w.heap ++ [{ newLogger name with parent := parent }],
                 loggers := Map.set w.loggers name r })

/-- `getRootLogger` — internal/logger_factory.go:71-88.  `NewConsoleOutput(nil)` never fails
(internal/output_console.go:18-28). -/
def getRootLogger (w : World) : Nat × World :=
  match w.root with
  | some r => (r, w)
  | none =>
    let r := w.heap.length
    let w : World := { w with root := some r, heap := w.heap ++ [newLogger rootLoggerName] }
    let w : World := match w.mgr.getLoggerOutputs rootLoggerName with
      | (.error _, m) =>
        let w : World := ({ w with mgr := m }).setLevel r Level.Debug
        let o := w.mgr.oheap.length
        let w : World := { w with mgr := { w.mgr with oheap := w.mgr.oheap ++ [{ origin := .console, fmt := none }] } }
        w.setOutputs r [o]
      | (.ok (ops, lvl), m) => (({ w with mgr := m }).setLevel r lvl).setOutputs r ops
    (r, { w with loggers := Map.set w.loggers rootLoggerName r })

/-- The loop of `getParent` — internal/logger_factory.go:48-56: `before` is the part of the name
already scanned. -/
def parentLoop (w : World) (parent : Nat) : (before : Str) → (rest : Str) → Nat × World
  | _, [] => (parent, w)
  | before, c :: rest =>
    if isSep c = true ∧ before ≠ [] then
      let (p, w) := w.createLogger before (some parent)
      parentLoop w p (before ++ [c]) rest
    else parentLoop w parent (before ++ [c]) rest

/-- `getParent` — internal/logger_factory.go:46-58. -/
def getParent (w : World) (name : Str) : Nat × World :=
  let (root, w) := w.getRootLogger
  parentLoop w root [] name

/-- `GetLogger` — internal/logger_factory.go:23-43, as one step (it runs under the factory's lock).
The functions users call go straight to it (log4g.go:11-13, internal/log4g.go:50-52). -/
def getLogger (w : World) (name : Str) : Nat × World :=
  if name = [] ∨ name = rootLoggerName then w.getRootLogger
  else match Map.get w.loggers name with
    | some r => (r, w)
    | none =>
      let (p, w) := w.getParent name
      let (r, w) := w.createLogger name (some p)
      (r, w.configure r name)

/-- The loop of `notify` — internal/logger_factory.go:93-100, the one function given to
internal/logger_manager.go:197-199, over loggers in the order `order`. -/
def notify (w : World) : (order : List Nat) → World
  | [] => w
  | r :: rs =>
    match w.heap[r]? with
    | none => notify w rs
    | some l => notify (w.configure r l.name) rs

/-- `SetConfig` — internal/logger_manager.go:128-140,185-187, with the order in which `notify` ranges
over the map of loggers. -/
def setConfig (w : World) (cfg : Config) (order : List Nat) : Option MgrErr × World :=
  match validateConfig cfg with
  | some e => (some e, w)
  | none => (none, notify { w with mgr := { w.mgr with config := cfg } } order)

/-- `strings.ToLower` on an extension.  Only comparisons with "yaml", "yml" and "json" matter.
Simplification: only ASCII letters are lowered; no character outside ASCII has one of the letters of
these names as its lower case (U+212A and U+0130 give `k` and `i`), so the comparisons agree.
(Used at internal/logger_manager.go:115.) -/
def lowerExt (ext : Str) : Str := ext.map Char.toLower

/-- The decoders `yaml.Unmarshal` and `json.Unmarshal` applied to an empty `Config`: what they leave
in the `Config`, and whether they report an error.  (Used at internal/logger_manager.go:120, 122.) -/
structure Decoders where
  yaml : Bytes → Config × Bool
  json : Bytes → Config × Bool

/-- `LoadConfig` — internal/logger_manager.go:114-126.  The error of the decoder (or of an unknown
extension) is assigned to `err` and never looked at. -/
def loadConfig (d : Decoders) (w : World) (bs : Bytes) (ext : Str) (order : List Nat) : Option MgrErr × World :=
  let ext := lowerExt ext
  let cfg : Config :=
    if ext = c!"yaml" ∨ ext = c!"yml" then (d.yaml bs).1
    else if ext = c!"json" then (d.json bs).1
    else {}
  w.setConfig cfg order

/-- `path.Ext` — Go library: the suffix from the last dot of the last path element, "" if it has
none.  (Used at internal/logger_manager.go:110.) -/
def pathExt (file : Str) : Str :=
  let base := file.drop (afterLast '/' file)
  if '.' ∈ base then base.drop (afterLast '.' base - 1) else []

/-- The outcome of `LoadConfigFile`.  (internal/logger_manager.go:105-112) -/
inductive LoadOutcome
  | panic
  | returned (err : Option (MgrErr ⊕ Unit))

/-- `LoadConfigFile` — internal/logger_manager.go:105-112.  `read` is the result of
`ioutil.ReadFile`; `ext[1:]` on an empty extension panics. -/
def loadConfigFile (d : Decoders) (w : World) (file : Str) (read : Option Bytes) (order : List Nat) :
    LoadOutcome × World :=
  match read with
  | none => (.returned (some (.inr ())), w)
  | some bs =>
    match pathExt file with
    | [] => (.panic, w)
    | _ :: ext =>
      let (e, w) := w.loadConfig d bs ext order
      (.returned (e.map .inl), w)

/-- `RegisterFormatterCreator` — internal/logger_manager.go:41-45. -/
def registerFormatter (w : World) (stype : Str) (f : FmtCreator) : World :=
  { w with mgr := { w.mgr with fmtCreators := Map.set w.mgr.fmtCreators stype f } }

/-- `RegisterOutputCreator` — internal/logger_manager.go:47-51. -/
def registerOutput (w : World) (stype : Str) (f : OutCreator) : World :=
  { w with mgr := { w.mgr with outCreators := Map.set w.mgr.outCreators stype f } }

/-- A user makes an output of their own, whose `CallerInfoFlag()` answers `flag`.
(An implementation of api/logger_api.go:153-165.) -/
def userOutput (w : World) (flag : Int) : World :=
  { w with mgr := { w.mgr with oheap := w.mgr.oheap ++ [{ origin := .user flag, fmt := none }] } }

/-- The public `GetLoggerOutputs` called by a user.  (internal/logger_manager.go:53-103) -/
def queryOutputs (w : World) (name : Str) : World := { w with mgr := (w.mgr.getLoggerOutputs name).2 }

end World

/-- The API calls.  Simplification: calls are atomic here; `Model/Concurrent.lean` interleaves them.
(api/logger_api.go:74-100, 103-105, api/logger_mange.go:14-39) -/
inductive Act
  | registerFormatter (stype : Str) (f : FmtCreator)
  | registerOutput (stype : Str) (f : OutCreator)
  | setConfig (cfg : Config) (order : List Nat)
  | loadConfig (d : World.Decoders) (bs : Bytes) (ext : Str) (order : List Nat)
  | loadConfigFile (d : World.Decoders) (file : Str) (read : Option Bytes) (order : List Nat)
  | getLogger (name : Str)
  | queryOutputs (name : Str)
  | userOutput (flag : Int)
  | setLevel (r : Nat) (lvl : Level)
  | setCallerSkip (r : Nat) (skip : Int)
  | setOutputs (r : Nat) (ops : List Nat)

/-- The effect of a call.  (api/logger_api.go:74-105, api/logger_mange.go:14-39) -/
def Act.run (w : World) : Act → World
  | .registerFormatter t f => w.registerFormatter t f
  | .registerOutput t f => w.registerOutput t f
  | .setConfig cfg order => (w.setConfig cfg order).2
  | .loadConfig d bs ext order => (w.loadConfig d bs ext order).2
  | .loadConfigFile d file read order => (w.loadConfigFile d file read order).2
  | .getLogger name => (w.getLogger name).2
  | .queryOutputs name => w.queryOutputs name
  | .userOutput flag => w.userOutput flag
  | .setLevel r lvl => w.setLevel r lvl
  | .setCallerSkip r skip => w.setCallerSkip r skip
  | .setOutputs r ops => w.setOutputs r ops

/-- When a program can make the call: methods are called on loggers that exist, outputs exist, and
`notify` visits every logger of the map once, in some order.  (api/logger_api.go:74-105) -/
def Act.ok (w : World) : Act → Prop
  | .setConfig _ order | .loadConfig _ _ _ order | .loadConfigFile _ _ _ order => order.Perm (w.loggers.map (·.2))
  | .setLevel r _ | .setCallerSkip r _ => r < w.heap.length
  | .setOutputs r ops => r < w.heap.length ∧ ∀ o ∈ ops, o < w.mgr.oheap.length
  | _ => True

/-- A history of API calls.  (Of the calls of api/logger_api.go:74-105 and api/logger_mange.go:14-39.) -/
inductive Steps : World → List Act → World → Prop
  | refl (w) : Steps w [] w
  | tail {w w' as a} : Steps w as w' → a.ok w' → Steps w (as ++ [a]) (a.run w')

/-- The worlds a program can be in.  The empty world is the state before the `init` of the library
(internal/log4g.go:15-45), which is itself such a history of calls. -/
def Reach (w : World) : Prop := ∃ as, Steps {} as w

end Log4g
