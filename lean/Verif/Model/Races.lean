import Verif.Model.World

/-! # Every access to memory

The other models let goroutines take turns and every step see what the steps before it did.  Go promises this only of
programs without data races.  Here the functions of the API are written down access by access: which variables they read and
write, which locks they hold meanwhile, what they send and receive.

Simplifications.  Two reads of a variable in one statement are one.  A Go map counts as one variable with whatever it holds, and so does
the buffer of an output, and all fields of a rolling writer.  Variables that are written only before `main` starts
(`cfgNotifications`, the tables of verbs) and what a program owns itself (configurations, arguments) are not
looked at.  `os.Stdout` and `syslog.Writer` may be used by several goroutines at a time, as their documentation says. -/

namespace Log4g.Races

/-- A goroutine: one of the program, or the worker of an asynchronous output — internal/output_base.go:116. -/
inductive Who
  | user (t : Nat)
  | worker (o : Nat)
  deriving DecidableEq

/-- The locks — internal/logger_factory.go:17, internal/logger_manager.go:22, internal/output_rollingwriter.go:199. -/
inductive Mx
  | factory
  | manager
  | roll (o : Nat)
  deriving DecidableEq

/-- What an output writes to.  (internal/output_console.go:20-24, internal/output_memory.go:24, internal/output_rolling.go:50-62) -/
inductive Sink
  | shared
  | memory
  | rolling
  deriving DecidableEq

/-- How an output sends.  (internal/output_base.go:40, 130, internal/output_syslog.go:19; `user` is an output the program has
implemented itself, whose `CallerInfoFlag()` answers `flag`, api/logger_api.go:153-165) -/
inductive How
  | sync
  | async (queue batch : Nat)
  | syslog
  | user (flag : Int)
  deriving DecidableEq

/-- The fields of an output that are set when it is made — internal/output_base.go:28, 30, 121, 122, internal/output_syslog.go:14, 16. -/
structure Shape where
  how : How := .sync
  sink : Sink := .shared
  thr : Level := Level.All

/-- A formatter: a text formatter, with the verbs of its layout that want to know the caller (with function or without) —
internal/format_text.go:13-16, internal/format_parser.go:217-259 —, or one of the program's with what it answers to `CallerInfoFlag()`. -/
inductive Fmt
  | text (verbs : List Bool)
  | user (flag : Int)

/-- `CallerInfoFlag()` of a formatter — internal/format_text.go:40-48. -/
def Fmt.flag : Fmt → Int
  | .text vs => if true ∈ vs then 2 else if vs = [] then 0 else 1
  | .user flag => flag

/-- Variables.  (internal/logger_factory.go:19-20, internal/logger_manager.go:23-27, internal/logger.go:17-22, internal/output_base.go:28-30, 121-126) -/
inductive Loc
  /-- `f.root`, `f.loggers` — internal/logger_factory.go:19-20 -/
  | root | loggers
  /-- the fields of the manager — internal/logger_manager.go:23-27 -/
  | fmtCreators | outCreators | formats | outputs | config
  /-- the fields of a logger — internal/logger.go:17-22 -/
  | name (r : Nat) | level (r : Nat) | parent (r : Nat) | ops (r : Nat) | skip (r : Nat) | flag (r : Nat)
  /-- the fields of an output that are set when it is made, and its formatter — internal/output_base.go:28-30, 121-123, internal/output_syslog.go:14-16 -/
  | shape (o : Nat) | fmt (o : Nat)
  /-- `buf` and `currNum` of an asynchronous output, its wait group — internal/output_base.go:124-126 -/
  | buf (o : Nat) | wait (o : Nat)
  /-- the buffer of a memory output — internal/output_memory.go:15 —, the fields of a rolling writer — internal/output_rollingwriter.go:182-199 -/
  | data (o : Nat) | file (o : Nat)
  /-- an event but for its context, the context — api/logger_api.go:107-116 —, and the caller information in it — internal/logger_callerinfo.go:17-23 -/
  | evt (e : Nat) | ctx (e : Nat) | info (e : Nat)
  deriving DecidableEq

/-- What the variables hold.  Of an event: its level, and whether the function of its caller is known to the runtime (internal/logger_callerinfo.go:43);
of its context whether it has caller information; of that whether it has package and function.  The buffer of a memory output, the fields
of a rolling writer and wait groups are not modelled here (they are in `Model/Output.lean`, `Model/Rolling.lean`, `Model/Async.lean`).
(internal/logger_factory.go:19-20, internal/logger_manager.go:23-27, internal/logger.go:17-22, internal/output_base.go:28-30, 121-126) -/
@[reducible] def Val : Loc → Type
  | .root => Option Nat
  | .loggers => Map Str Nat
  | .fmtCreators => Map Str (CfgMap → Option Fmt)
  | .outCreators => Map Str (CfgMap → Option Shape)
  | .formats => Map Str Fmt
  | .outputs => Map Str Nat
  | .config => Config
  | .name _ => Str
  | .level _ => Level
  | .parent _ => Option Nat
  | .ops _ => List Nat
  | .skip _ => Int
  | .flag _ => Int
  | .shape _ => Shape
  | .fmt _ => Option Fmt
  | .buf _ => Nat
  | .wait _ => Unit
  | .data _ => Unit
  | .file _ => Unit
  | .evt _ => Level × Bool
  | .ctx _ => Bool
  | .info _ => Bool

/-- The memory.  (See `Loc`: internal/logger_factory.go:19-20 and so on.) -/
abbrev Mem := (l : Loc) → Val l

/-- An assignment.  (For example internal/logger.go:81.) -/
def Mem.upd (m : Mem) (l : Loc) (v : Val l) : Mem := fun l' => if h : l' = l then h ▸ v else m l'

/-- Code, access by access: what a goroutine does up to the end of a call.  (The constructs used in internal/logger_factory.go:23-101,
internal/logger_manager.go:41-195, internal/logger.go:80-199 and internal/output_base.go:33-181.) -/
inductive Code (α : Type) : Type
  | ret (a : α)
  | read (l : Loc) (k : Val l → Code α)
  | write (l : Loc) (v : Val l) (k : Code α)
  | lock (m : Mx) (k : Code α)
  | unlock (m : Mx) (k : Code α)
  /-- `&defLogger{…}`, with its name — internal/logger.go:28 -/
  | newLogger (name : Str) (k : Nat → Code α)
  /-- `&baseOutput{…}` and the like — internal/output_base.go:35, 112-115, internal/output_syslog.go:71-74 -/
  | newOutput (sh : Shape) (k : Nat → Code α)
  /-- `&api.Event{…}` — internal/logger.go:179-187 -/
  | newEvent (v : Level × Bool) (k : Nat → Code α)
  /-- `go o.loop()` — internal/output_base.go:116 -/
  | go (o : Nat) (k : Code α)
  /-- `o.evtChan <- e` — internal/output_base.go:134, 142 -/
  | send (o : Nat) (e : Option Nat) (k : Code α)
  /-- `close(o.evtChan)` — internal/output_base.go:145 -/
  | close (o : Nat) (k : Code α)
  /-- `atomic.LoadInt32(&o.closed)`, `atomic.StoreInt32(&o.closed, flagClosed)` — internal/output_base.go:131, 139, 144 -/
  | load (o : Nat) (k : Bool → Code α)
  | store (o : Nat) (k : Code α)
  /-- `o.wait.Add(1)`, `o.wait.Done()`, the return of `o.wait.Wait()` — internal/output_base.go:143, 156-157 -/
  | add (o : Nat) (k : Code α)
  | done (o : Nat) (k : Code α)
  | waited (o : Nat) (k : Code α)
  /-- a panic: the goroutine does nothing more -/
  | halt
  /-- code that is never reached -/
  | impossible

/-- One piece of code after the other.  (As in internal/logger_factory.go:33-34.) -/
def Code.bind {α β : Type} : Code α → (α → Code β) → Code β
  | .ret a, f => f a
  | .read l k, f => .read l fun v => (k v).bind f
  | .write l v k, f => .write l v (k.bind f)
  | .lock m k, f => .lock m (k.bind f)
  | .unlock m k, f => .unlock m (k.bind f)
  | .newLogger n k, f => .newLogger n fun r => (k r).bind f
  | .newOutput sh k, f => .newOutput sh fun o => (k o).bind f
  | .newEvent v k, f => .newEvent v fun e => (k e).bind f
  | .go o k, f => .go o (k.bind f)
  | .send o e k, f => .send o e (k.bind f)
  | .close o k, f => .close o (k.bind f)
  | .load o k, f => .load o fun b => (k b).bind f
  | .store o k, f => .store o (k.bind f)
  | .add o k, f => .add o (k.bind f)
  | .done o k, f => .done o (k.bind f)
  | .waited o k, f => .waited o (k.bind f)
  | .halt, _ => .halt
  | .impossible, _ => .impossible

/-- Code in sequence is written as in Go.  (For example internal/logger_factory.go:23-43.) -/
instance : Monad Code where
  pure := .ret
  bind := Code.bind

/-- A read of a variable.  (For example internal/logger.go:170.) -/
def rd (l : Loc) : Code (Val l) := .read l .ret

/-- An assignment to a variable.  (For example internal/logger.go:81.) -/
def wr (l : Loc) (v : Val l) : Code Unit := .write l v (.ret ())

/-- `m.Lock()`.  (For example internal/logger_manager.go:55.) -/
def acquire (m : Mx) : Code Unit := .lock m (.ret ())

/-- `m.Unlock()`.  (For example internal/logger_manager.go:56.) -/
def release (m : Mx) : Code Unit := .unlock m (.ret ())

/-! ## The manager -/

/-- The formatter part of one round of the loop of `GetLoggerOutputs` — internal/logger_manager.go:74-85. -/
def fetchFormat (fmtcfg : CfgMap) : Code (Option Fmt) := do
  let fcs ← rd .fmtCreators
  match Map.get fcs fmtcfg.type with
  | none => pure none
  | some creator =>
    let fs ← rd .formats
    match Map.get fs fmtcfg.name with
    | some f => pure (some f)
    | none =>
      match creator fmtcfg with
      | none => pure none
      | some f => do
        let fs ← rd .formats
        wr .formats (Map.set fs fmtcfg.name f)
        pure (some f)

/-- A creator of outputs: the output is made, and if it is asynchronous its worker is started — internal/output_base.go:33-37, 110-118. -/
def makeOutput (sh : Shape) : Code Nat :=
  .newOutput sh fun o =>
    match sh.how with
    | .async _ _ => .go o (.ret o)
    | _ => .ret o

/-- The output part of one round — internal/logger_manager.go:87-100; `SetFormatter`, internal/output_base.go:57-60, internal/output_syslog.go:45-48. -/
def fetchOutput (opcfg : CfgMap) (f : Fmt) : Code (Option Nat) := do
  let ocs ← rd .outCreators
  match Map.get ocs opcfg.type with
  | none => pure none
  | some creator =>
    let os ← rd .outputs
    match Map.get os opcfg.name with
    | some o => pure (some o)
    | none =>
      match creator opcfg with
      | none => pure none
      | some sh => do
        let o ← makeOutput sh
        wr (.fmt o) (some f)
        let os ← rd .outputs
        wr .outputs (Map.set os opcfg.name o)
        pure (some o)

/-- One round of the loop of `GetLoggerOutputs` — internal/logger_manager.go:63-101. -/
def fetchOne (opid : Str) : Code (Option Nat) := do
  let cfg ← rd .config
  let opcfg := cfg.getCfgOutput opid
  if opcfg = none then pure none
  else
    let cfg ← rd .config
    let fmtcfg := cfg.getCfgFormat opcfg.formatName
    if fmtcfg = none then pure none
    else
      match ← fetchFormat fmtcfg with
      | none => pure none
      | some f => fetchOutput opcfg f

/-- The loop of `GetLoggerOutputs` — internal/logger_manager.go:63-101. -/
def fetchAll : List Str → Code (Option (List Nat))
  | [] => pure (some [])
  | n :: ns => do
    match ← fetchOne n with
    | none => pure none
    | some o =>
      match ← fetchAll ns with
      | none => pure none
      | some os => pure (some (o :: os))

/-- `GetLoggerOutputs` between `Lock` and `Unlock` — internal/logger_manager.go:57-102. -/
def fetchLocked (name : Str) : Code (Option (List Nat × Level)) := do
  let cfg ← rd .config
  match cfg.getCfgLogger name with
  | none => pure none
  | some lc =>
    match ← fetchAll lc.outputNames with
    | none => pure none
    | some os => pure (some (os, Level.levelFrom lc.level))

/-- `GetLoggerOutputs` — internal/logger_manager.go:53-103. -/
def fetch (name : Str) : Code (Option (List Nat × Level)) := do
  acquire .manager
  let res ← fetchLocked name
  release .manager
  pure res

/-! ## Loggers and the factory -/

/-- `CallerInfoFlag()` of an output — internal/output_base.go:62-67, internal/output_syslog.go:51-56. -/
def callerFlag (o : Nat) : Code Int := do
  let sh ← rd (.shape o)
  match sh.how with
  | .user flag => pure flag
  | _ =>
    match ← rd (.fmt o) with
    | none => pure 0
    | some f => pure f.flag

/-- The loop of `SetOutputs` — internal/logger.go:101-105. -/
def raiseFlag (r : Nat) : List Nat → Code Unit
  | [] => pure ()
  | o :: os => do
    let fl ← rd (.flag r)
    let c ← callerFlag o
    if fl < c then
      let c ← callerFlag o
      wr (.flag r) c
      raiseFlag r os
    else raiseFlag r os

/-- `SetOutputs` — internal/logger.go:99-106. -/
def setOutputs (r : Nat) (ops : List Nat) : Code Unit := do
  wr (.ops r) ops
  raiseFlag r ops

/-- `newLogger` — internal/logger.go:27-36.  The other fields are zero from the start. -/
def makeLogger (name : Str) : Code Nat :=
  .newLogger name fun r => .write (.level r) Level.Uninitialized (.write (.skip r) callerSkip (.ret r))

/-- `createLogger` — internal/logger_factory.go:61-69. -/
def createLogger (name : Str) (parent : Nat) : Code Nat := do
  let ls ← rd .loggers
  match Map.get ls name with
  | some r => pure r
  | none => do
    let r ← makeLogger name
    wr (.parent r) (some parent)
    let ls ← rd .loggers
    wr .loggers (Map.set ls name r)
    pure r

/-- `getRootLogger` — internal/logger_factory.go:71-88. -/
def getRoot : Code Nat := do
  match ← rd .root with
  | some r => pure r
  | none => do
    let r ← makeLogger rootLoggerName
    wr .root (some r)
    match ← fetch rootLoggerName with
    | none => do
      wr (.level r) Level.Debug
      let o ← makeOutput {}
      setOutputs r [o]
    | some (ops, lvl) => do
      wr (.level r) lvl
      setOutputs r ops
    let ls ← rd .loggers
    wr .loggers (Map.set ls rootLoggerName r)
    pure r

/-- The loop of `getParent` — internal/logger_factory.go:48-56. -/
def parentLoop (parent : Nat) : (before : Str) → (rest : Str) → Code Nat
  | _, [] => pure parent
  | before, c :: rest =>
    if isSep c = true ∧ before ≠ [] then do
      let p ← createLogger before parent
      parentLoop p (before ++ [c]) rest
    else parentLoop parent (before ++ [c]) rest

/-- `GetLogger` of a name other than that of the root logger, between `Lock` and `Unlock` — internal/logger_factory.go:31-42. -/
def getNamed (name : Str) : Code Nat := do
  let ls ← rd .loggers
  match Map.get ls name with
  | some r => pure r
  | none => do
    let root ← getRoot
    let p ← parentLoop root [] name
    let r ← createLogger name p
    match ← fetch name with
    | none => pure r
    | some (ops, lvl) => do
      wr (.level r) lvl
      setOutputs r ops
      pure r

/-- `GetLogger` — internal/logger_factory.go:23-43. -/
def getLogger (name : Str) : Code Nat := do
  acquire .factory
  let r ← if name = [] ∨ name = rootLoggerName then getRoot else getNamed name
  release .factory
  pure r

/-- The loop of `notify` — internal/logger_factory.go:93-100. -/
def notifyLoop : List Nat → Code Unit
  | [] => pure ()
  | r :: rs => do
    let name ← rd (.name r)
    match ← fetch name with
    | none => notifyLoop rs
    | some (ops, lvl) => do
      wr (.level r) lvl
      setOutputs r ops
      notifyLoop rs

/-- `SetConfig` — internal/logger_manager.go:128-140; `notify`, internal/logger_factory.go:90-101.  `ord` is the order in which it goes through the map of loggers. -/
def setConfig (cfg : Config) (ord : Map Str Nat → List Nat) : Code Unit :=
  match validateConfig cfg with
  | some _ => pure ()
  | none => do
    acquire .manager
    wr .config cfg
    release .manager
    acquire .factory
    let ls ← rd .loggers
    notifyLoop (ord ls)
    release .factory

/-! ## Log calls and outputs -/

/-- `getCallerInfo` — internal/logger_callerinfo.go:25-55.  `found`: `runtime.FuncForPC` knows the function. -/
def callerInfo (e : Nat) (needFun found : Bool) : Code Unit := do
  let has ← rd (.ctx e)
  if has = false then
    wr (.info e) false
    wr (.ctx e) true
  if needFun = true then
    let filled ← rd (.info e)
    if filled = false ∧ found = true then wr (.info e) true

/-- The verbs of a layout that ask for the caller, one after the other.  (internal/format_parser.go:161-184, 217-259) -/
def runVerbs (e : Nat) (found : Bool) : List Bool → Code Unit
  | [] => pure ()
  | v :: vs => do
    callerInfo e v found
    runVerbs e found vs

/-- `Format` — internal/format_text.go:33-37, internal/format_parser.go:160-184; a formatter of the program's leaves the event as it is. -/
def format (f : Option Fmt) (e : Nat) (found : Bool) : Code Unit :=
  match f with
  | some (.text vs) => runVerbs e found vs
  | _ => pure ()

/-- `o.w.Write(…)` — internal/output_base.go:46, 150: a memory output writes to its buffer (internal/output_memory.go:24), a rolling writer does its work under its lock
(internal/output_rollingwriter.go:512-532). -/
def put (o : Nat) : Sink → Code Unit
  | .shared => pure ()
  | .memory => do
    let _ ← rd (.data o)
    wr (.data o) ()
  | .rolling => do
    acquire (.roll o)
    let _ ← rd (.file o)
    wr (.file o) ()
    release (.roll o)

/-- `Send` — internal/output_base.go:40-55, 130-135, internal/output_syslog.go:19-43. -/
def sendTo (o e : Nat) : Code Unit := do
  let sh ← rd (.shape o)
  match sh.how with
  | .async _ _ => .load o fun closed => if closed = true then .ret () else .send o (some e) (.ret ())
  | .user _ => pure ()
  | .sync => do
    let (lvl, found) ← rd (.evt e)
    if lvl < sh.thr then pure ()
    else
      let f ← rd (.fmt o)
      format f e found
      put o sh.sink
  | .syslog => do
    let (lvl, found) ← rd (.evt e)
    if lvl < sh.thr then pure ()
    else
      let f ← rd (.fmt o)
      format f e found

/-- The loop over the outputs — internal/logger.go:196-198. -/
def sendAll (e : Nat) : List Nat → Code Unit
  | [] => pure ()
  | o :: os => do
    sendTo o e
    sendAll e os

/-- `Level()` — internal/logger.go:84-93.  Loggers are made after their parents, so the loop ends. -/
def levelOf : (fuel : Nat) → Nat → Code Level
  | 0, _ => .impossible
  | k + 1, r => do
    let lv ← rd (.level r)
    if lv ≠ Level.Uninitialized then rd (.level r)
    else
      match ← rd (.parent r) with
      | some p => levelOf k p
      | none => pure Level.Off

/-- `write` from where the event is made — internal/logger.go:178-198. -/
def dispatch (r : Nat) (lvl : Level) (found : Bool) : Code Unit :=
  .newEvent (lvl, found) fun e => do
    wr (.ctx e) false
    let fl ← rd (.flag r)
    if fl = 2 then callerInfo e true found
    else
      let fl ← rd (.flag r)
      if fl = 1 then callerInfo e false found
    let ops ← rd (.ops r)
    sendAll e ops

/-- `write` — internal/logger.go:165-199. -/
def writeLog (lvl : Level) (found : Bool) : (fuel : Nat) → Nat → Code Unit
  | 0, _ => .impossible
  | k + 1, r => do
    let lv ← levelOf (r + 1) r
    if lvl < lv then pure ()
    else
      let ops ← rd (.ops r)
      if ops = [] then
        match ← rd (.parent r) with
        | some p => writeLog lvl found k p
        | none => dispatch r lvl found
      else dispatch r lvl found

/-- `Printf` and the methods that call it — internal/logger.go:113-163. -/
def logCall (r : Nat) (lvl : Level) (found : Bool) : Code Unit := do
  let _ ← rd (.name r)
  let _ ← rd (.skip r)
  writeLog lvl found (r + 1) r

/-- `Close` of an output — internal/output_base.go:137-146, 70-72. -/
def closeOutput (o : Nat) : Code Unit := do
  let sh ← rd (.shape o)
  match sh.how with
  | .async _ _ =>
    .load o fun closed =>
      if closed = true then .ret ()
      else .send o none (.read (.wait o) fun _ => .waited o (.store o (.close o (.ret ()))))
  | _ => pure ()

/-- The loop of `Close` — internal/logger_manager.go:191-193. -/
def closeAll : List Nat → Code Unit
  | [] => pure ()
  | o :: os => do
    closeOutput o
    closeAll os

/-- `Close` — internal/logger_manager.go:189-195; `ord` is the order in which it goes through the map. -/
def closeManager (ord : Map Str Nat → List Nat) : Code Unit := do
  acquire .manager
  let os ← rd .outputs
  closeAll (ord os)
  release .manager

/-! ## The worker of an asynchronous output -/

/-- `flush` — internal/output_base.go:148-153. -/
def flush (o : Nat) : Code Unit := do
  let _ ← rd (.buf o)
  let sh ← rd (.shape o)
  put o sh.sink
  wr (.buf o) 0

/-- What the worker does with an event — internal/output_base.go:171-177.  Without formatter it panics. -/
def handle (o e : Nat) : Code Unit := do
  let (lvl, found) ← rd (.evt e)
  let sh ← rd (.shape o)
  if lvl < sh.thr then pure ()
  else
    match ← rd (.fmt o) with
    | none => .halt
    | some f => do
      format (some f) e found
      let k ← rd (.buf o)
      wr (.buf o) (k + 1)
      match sh.how with
      | .async _ batch => if batch ≤ k + 1 then flush o
      | _ => pure ()

/-! ## Programs -/

/-- What a goroutine does: calls of the API, or a round of the loop of a worker.  (api/logger_api.go:74-105, 153-165, api/logger_mange.go:14-39,
internal/output_base.go:155-181) -/
inductive Task
  | registerFormatter (type : Str) (f : CfgMap → Option Fmt)
  | registerOutput (type : Str) (f : CfgMap → Option Shape)
  | setConfig (cfg : Config) (ord : Map Str Nat → List Nat)
  | getLogger (name : Str)
  | getLoggerOutputs (name : Str)
  /-- the program makes an output of its own -/
  | newOutput (flag : Int)
  | setLevel (r : Nat) (lvl : Level)
  | setCallerSkip (r : Nat) (k : Int)
  | setOutputs (r : Nat) (ops : List Nat)
  | setFormatter (o : Nat) (f : Option Fmt)
  | log (r : Nat) (lvl : Level) (found : Bool)
  | close (ord : Map Str Nat → List Nat)
  /-- the worker begins; a tick; an event; nil, received from `Close` -/
  | begin (o : Nat)
  | tick (o : Nat)
  | event (o e : Nat)
  | stop (o : Nat)

/-- What a call returns.  (api/logger_api.go:103-105, api/logger_mange.go:22) -/
inductive Res
  | unit
  | logger (r : Nat)
  | outputs (os : List Nat)
  deriving DecidableEq

/-- A call that returns nothing.  (For example api/logger_api.go:93.) -/
def noResult (c : Code Unit) : Code Res := do
  c
  pure .unit

/-- The code of a call.  (internal/logger_manager.go:41-51, 53, 185, 189, internal/logger_factory.go:23, internal/logger.go:80-106, 161, internal/output_base.go:58,
155-181) -/
def Task.code : Task → Code Res
  | .registerFormatter t f => noResult do
    acquire .manager
    let fcs ← rd .fmtCreators
    wr .fmtCreators (Map.set fcs t f)
    release .manager
  | .registerOutput t f => noResult do
    acquire .manager
    let ocs ← rd .outCreators
    wr .outCreators (Map.set ocs t f)
    release .manager
  | .setConfig cfg ord => noResult (Races.setConfig cfg ord)
  | .getLogger name => do
    let r ← Races.getLogger name
    pure (.logger r)
  | .getLoggerOutputs name => do
    match ← fetch name with
    | none => pure (.outputs [])
    | some (os, _) => pure (.outputs os)
  | .newOutput flag => do
    let o ← makeOutput { how := .user flag }
    pure (.outputs [o])
  | .setLevel r lvl => noResult (wr (.level r) lvl)
  | .setCallerSkip r k => noResult (wr (.skip r) (callerSkip + k))
  | .setOutputs r ops => noResult (Races.setOutputs r ops)
  | .setFormatter o f => noResult (wr (.fmt o) f)
  | .log r lvl found => noResult (logCall r lvl found)
  | .close ord => noResult (closeManager ord)
  | .begin o => noResult (.add o (.ret ()))
  | .tick o => noResult (flush o)
  | .event o e => noResult (handle o e)
  | .stop o => noResult do
    flush o
    .done o (.ret ())

/-- What the steps of goroutines are.  A receive tells at which place of the execution its value was sent, and a send that finds room because
something was received tells where (the `k`-th receive from a channel of capacity `c` comes before the send number `k + c`).
(See `Code`: internal/output_base.go:110-181, internal/logger.go:80-199 and so on.) -/
inductive StepKind
  | call
  | ret (res : Res)
  | acc (write : Bool) (l : Loc)
  | lock (m : Mx)
  | unlock (m : Mx)
  | go (o : Nat)
  | begin (o : Nat)
  | send (o : Nat) (e : Option Nat) (room : Option Nat)
  | recv (o : Nat) (e : Option Nat) (src : Nat)
  | close (o : Nat)
  | load (o : Nat)
  | store (o : Nat)
  | done (o : Nat)
  | waited (o : Nat)
  deriving DecidableEq

/-- A step of an execution: who makes it, in which call (`cid` is the place at which the call begins), and what it is.
(internal/output_base.go:110-181, internal/logger.go:80-199) -/
structure Entry where
  who : Who
  cid : Nat
  task : Task
  act : StepKind

/-- A call under way.  (api/logger_api.go:74-105) -/
structure Running where
  cid : Nat
  task : Task
  code : Code Res

/-- The state of a program.  (See `Loc`: internal/logger_factory.go:19-20 and so on; internal/output_base.go:121-127.) -/
structure State where
  mem : Mem
  nlog : Nat := 0
  nout : Nat := 0
  nevt : Nat := 0
  owner : Mx → Option Who := fun _ => none
  /-- what is in the queue of an output, with the place where it was sent -/
  chan : Nat → List (Option Nat × Nat) := fun _ => []
  sent : Nat → Nat := fun _ => 0
  recvs : Nat → List Nat := fun _ => []
  shut : Nat → Bool := fun _ => false
  closed : Nat → Bool := fun _ => false
  /-- the counter of the wait group -/
  count : Nat → Bool := fun _ => false
  /-- the worker: 0 if there is none, 1 before it has begun, 2 in its loop, 3 when it has received nil -/
  worker : Nat → Nat := fun _ => 0
  running : Who → Option Running := fun _ => none

/-- The memory before the `init` of the library.  (internal/logger_manager.go:31-39, internal/logger_factory.go:104-108) -/
def emptyMem : Mem
  | .root => none
  | .loggers => []
  | .fmtCreators => []
  | .outCreators => []
  | .formats => []
  | .outputs => []
  | .config => {}
  | .name _ => []
  | .level _ => Level.Uninitialized
  | .parent _ => none
  | .ops _ => []
  | .skip _ => (0 : Int)
  | .flag _ => (0 : Int)
  | .shape _ => {}
  | .fmt _ => none
  | .buf _ => (0 : Nat)
  | .wait _ => ()
  | .data _ => ()
  | .file _ => ()
  | .evt _ => (Level.Off, false)
  | .ctx _ => false
  | .info _ => false

/-- A function with another value at one place.  (For example internal/output_base.go:144.) -/
def set {α β : Type} [DecidableEq α] (f : α → β) (a : α) (b : β) : α → β := fun x => if x = a then b else f x

/-- How many events the queue of an output holds — internal/output_base.go:113. -/
def State.cap (s : State) (o : Nat) : Nat :=
  match (s.mem (.shape o)).how with
  | .async q _ => q
  | _ => 0

/-- The next step of goroutine `t` in its call, at place `i` of the execution; `none` if the call is at its end, or waits, or has panicked.
(See `Code`: internal/output_base.go:110-181, internal/logger.go:80-199 and so on.) -/
def next (i : Nat) (s : State) (t : Who) : Code Res → Option (StepKind × Code Res × State)
  | .ret _ => none
  | .read l k => some (.acc false l, k (s.mem l), s)
  | .write l v k => some (.acc true l, k, { s with mem := s.mem.upd l v })
  | .lock m k => if s.owner m = none then some (.lock m, k, { s with owner := set s.owner m (some t) }) else none
  | .unlock m k => some (.unlock m, k, { s with owner := set s.owner m none })
  | .newLogger n k => some (.acc true (.name s.nlog), k s.nlog, { s with nlog := s.nlog + 1, mem := s.mem.upd (.name s.nlog) n })
  | .newOutput sh k => some (.acc true (.shape s.nout), k s.nout, { s with nout := s.nout + 1, mem := s.mem.upd (.shape s.nout) sh })
  | .newEvent v k => some (.acc true (.evt s.nevt), k s.nevt, { s with nevt := s.nevt + 1, mem := s.mem.upd (.evt s.nevt) v })
  | .go o k => some (.go o, k, { s with worker := set s.worker o 1 })
  | .send o e k =>
    if s.shut o = false ∧ (s.chan o).length < s.cap o then
      some (.send o e (if s.sent o < s.cap o then none else (s.recvs o)[s.sent o - s.cap o]?), k,
        { s with chan := set s.chan o (s.chan o ++ [(e, i)]), sent := set s.sent o (s.sent o + 1) })
    else none
  | .close o k => if s.shut o = false then some (.close o, k, { s with shut := set s.shut o true }) else none
  | .load o k => some (.load o, k (s.closed o), s)
  | .store o k => some (.store o, k, { s with closed := set s.closed o true })
  | .add o k => some (.acc true (.wait o), k, { s with count := set s.count o true })
  | .done o k => some (.done o, k, { s with count := set s.count o false })
  | .waited o k => if s.count o = false then some (.waited o, k, s) else none
  | .halt => none
  | .impossible => none

/-- The first step of a call, and what it does; `none` if the call cannot begin.  A worker begins once, and receives what is in its queue.
(internal/output_base.go:116, 155-169) -/
def first (i : Nat) (s : State) : Who → Task → Option (StepKind × State)
  | .worker o, .begin o' => if o' = o ∧ s.worker o = 1 then some (.begin o, { s with worker := set s.worker o 2 }) else none
  | .worker o, .tick o' => if o' = o ∧ s.worker o = 2 then some (.call, s) else none
  | .worker o, .event o' e =>
    if o' = o ∧ s.worker o = 2 then
      match s.chan o with
      | (some e', src) :: q =>
        if e' = e then some (.recv o (some e) src, { s with chan := set s.chan o q, recvs := set s.recvs o (s.recvs o ++ [i]) }) else none
      | _ => none
    else none
  | .worker o, .stop o' =>
    if o' = o ∧ s.worker o = 2 then
      match s.chan o with
      | (none, src) :: q =>
        some (.recv o none src, { s with chan := set s.chan o q, recvs := set s.recvs o (s.recvs o ++ [i]), worker := set s.worker o 3 })
      | _ => none
    else none
  | .worker _, _ => none
  | .user _, .begin _ => none
  | .user _, .tick _ => none
  | .user _, .event _ _ => none
  | .user _, .stop _ => none
  | .user _, _ => some (.call, s)

/-- The executions of a program: any number of goroutines make any calls, and whoever can makes the next step.  Maps are gone through in some order.
(internal/logger_factory.go:93, internal/logger_manager.go:191) -/
inductive Exec : List Entry → State → Prop
  | start : Exec [] { mem := emptyMem }
  | call {tr s t c a s'} : Exec tr s → s.running t = none → (∀ cfg ord, c = .setConfig cfg ord ∨ c = .close ord → ∀ m, (ord m).Perm (m.map (·.2))) →
      first tr.length s t c = some (a, s') →
      Exec (tr ++ [⟨t, tr.length, c, a⟩]) { s' with running := set s.running t (some ⟨tr.length, c, c.code⟩) }
  | step {tr s t p a k s'} : Exec tr s → s.running t = some p → next tr.length s t p.code = some (a, k, s') →
      Exec (tr ++ [⟨t, p.cid, p.task, a⟩]) { s' with running := set s.running t (some { p with code := k }) }
  | ret {tr s t p res} : Exec tr s → s.running t = some p → p.code = .ret res →
      Exec (tr ++ [⟨t, p.cid, p.task, .ret res⟩]) { s with running := set s.running t none }

end Log4g.Races
