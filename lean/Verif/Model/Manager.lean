import Verif.Model.ConfigVals

/-! # Configuration and manager — `api/logger_mange.go`, `internal/logger_manager.go` -/

namespace Log4g

/-- `CfgOutput`, `CfgFormat` — api/logger_mange.go:86,104: Go maps from strings to strings; `none`
is the nil map. -/
abbrev CfgMap := Option (Map Str Str)

/-- `c[key]` on a possibly nil map; "" if absent.  (Used at api/logger_mange.go:90, 95, 100.) -/
def CfgMap.at (c : CfgMap) (key : Str) : Str := ((c.bind fun m => Map.get m key)).getD []

/-- `Name()` — api/logger_mange.go:89-91, 107-109. -/
def CfgMap.name (c : CfgMap) : Str := c.at c!"name"
/-- `Type()` — api/logger_mange.go:94-96, 112-114. -/
def CfgMap.type (c : CfgMap) : Str := c.at c!"type"
/-- `FormatName()` — api/logger_mange.go:99-101. -/
def CfgMap.formatName (c : CfgMap) : Str := c.at c!"format"

/-- `CfgLogger` — api/logger_mange.go:79-83. -/
structure CfgLogger where
  name : Str
  level : Str
  outputNames : List Str
  deriving DecidableEq

/-- `Config` — api/logger_mange.go:42-46.  Simplification: the manager keeps a pointer to the
caller's `Config`; the model copies it.  `Model/Handed.lean` is about callers that change a `Config`
after passing it to `SetConfig`. -/
structure Config where
  formats : List CfgMap := []
  outputs : List CfgMap := []
  loggers : List CfgLogger := []

/-- `GetCfgLogger` — api/logger_mange.go:49-56. -/
def Config.getCfgLogger (c : Config) (name : Str) : Option CfgLogger :=
  c.loggers.find? (fun l => l.name = name)

/-- `GetCfgOutput` — api/logger_mange.go:59-66: the first entry with the name; a nil map is
returned as nil, which callers take for "not found". -/
def Config.getCfgOutput (c : Config) (name : Str) : CfgMap :=
  (c.outputs.find? (fun l => CfgMap.name l = name)).getD none

/-- `GetCfgFormat` — api/logger_mange.go:69-76. -/
def Config.getCfgFormat (c : Config) (name : Str) : CfgMap :=
  (c.formats.find? (fun l => CfgMap.name l = name)).getD none

/-- Why a configuration is rejected, or the outputs of a logger are not available: the error values
of internal/logger_manager.go:59,66,71,76,81,89,94 and :148,157,161,170,176. -/
inductive MgrErr
  | noLogger (name : Str)
  | noOutput (name : Str)
  | noFormat (name : Str)
  | noFormatCreator (type : Str)
  | formatCreator (e : Str)
  | noOutputCreator (type : Str)
  | outputCreator (e : Str)
  | dupFormat (name : Str)
  | dupOutput (name : Str)
  | outputFormatMissing (fmt out : Str)
  | dupLogger (name : Str)
  | loggerOutputMissing (out logger : Str)
  deriving DecidableEq

/-- A registered formatter creator (`FormatterFuncCreator`, api/logger_mange.go:8).  It may have
effects and may fail; its result may depend on how many creators ran before (first argument).  Of
the formatter it makes, the manager model keeps its `CallerInfoFlag()`. -/
abbrev FmtCreator := Nat → CfgMap → Except Str Int

/-- A registered output creator (`OutputFuncCreator`, api/logger_mange.go:11); as above.
Simplification: the output it makes answers `CallerInfoFlag()` from the formatter set on it, as all
outputs of the library do. -/
abbrev OutCreator := Nat → CfgMap → Except Str Unit

/-- A formatter instance.  (A value of internal/logger_manager.go:25.) -/
structure FmtObj where
  cfg : CfgMap
  flag : Int

/-- Where an output instance comes from: the manager, the console made by `getRootLogger`
(internal/logger_factory.go:79), or the user (with the flag its `CallerInfoFlag()` answers). -/
inductive Origin
  | managed (cfg : CfgMap)
  | console
  | user (flag : Int)

/-- An output instance, with the formatter given to it by `SetFormatter`.
(A value of internal/logger_manager.go:26, with what internal/logger_manager.go:97 has set; likewise internal/output_syslog.go:46-48.) -/
structure OutObj where
  origin : Origin
  fmt : Option Nat

/-- `defManager` — internal/logger_manager.go:21-29; a new one is empty (31-39).  There is one, which users
get by log4g.go:16-18 and internal/log4g.go:55-57.  Instances are numbers: positions in `fheap` and
`oheap`, which only grow (they stand for the Go heap).  `calls` counts creator calls.
`cfgNotifications` always holds the one factory (internal/log4g.go:12, internal/logger_factory.go:109). -/
structure Manager where
  fmtCreators : Map Str FmtCreator := []
  outCreators : Map Str OutCreator := []
  formats : Map Str Nat := []
  outputs : Map Str Nat := []
  config : Config := {}
  fheap : List FmtObj := []
  oheap : List OutObj := []
  calls : Nat := 0

/-- `CallerInfoFlag()` of an output instance — internal/output_base.go:62-67,
internal/output_syslog.go:51-56. -/
def Manager.outFlag (m : Manager) (o : Nat) : Int :=
  match m.oheap[o]? with
  | none => 0
  | some ob => match ob.origin with
    | .user flag => flag
    | _ => match ob.fmt with
      | none => 0
      | some f => match m.fheap[f]? with
        | none => 0
        | some fo => fo.flag

/-- The formatter part of one round of the loop — internal/logger_manager.go:74-85. -/
def Manager.getFormat (m : Manager) (fmtcfg : CfgMap) : Except MgrErr Nat × Manager :=
  match Map.get m.fmtCreators fmtcfg.type with
  | none => (.error (.noFormatCreator fmtcfg.type), m)
  | some creator =>
    match Map.get m.formats fmtcfg.name with
    | some f => (.ok f, m)
    | none =>
      match creator m.calls fmtcfg with
      | .error e => (.error (.formatCreator e), { m with calls := m.calls + 1 })
      | .ok flag =>
        (.ok m.fheap.length,
         { m with calls := m.calls + 1, fheap := m.fheap ++ [⟨fmtcfg, flag⟩],
                  formats := Map.set m.formats fmtcfg.name m.fheap.length })

/-- The output part of one round of the loop — internal/logger_manager.go:87-99. -/
def Manager.getOutput (m : Manager) (opcfg : CfgMap) (fmtt : Nat) : Except MgrErr Nat × Manager :=
  match Map.get m.outCreators opcfg.type with
  | none => (.error (.noOutputCreator opcfg.type), m)
  | some creator =>
    match Map.get m.outputs opcfg.name with
    | some o => (.ok o, m)
    | none =>
      match creator m.calls opcfg with
      | .error e => (.error (.outputCreator e), { m with calls := m.calls + 1 })
      | .ok () =>
        (.ok m.oheap.length,
         { m with calls := m.calls + 1, oheap := m.oheap ++ [⟨.managed opcfg, some fmtt⟩],
                  outputs := Map.set m.outputs opcfg.name m.oheap.length })

/-- One round of the loop — internal/logger_manager.go:63-101. -/
def Manager.one (m : Manager) (opid : Str) : Except MgrErr Nat × Manager :=
  let opcfg := m.config.getCfgOutput opid
  if opcfg = none then (.error (.noOutput opid), m)
  else
    let fmtcfg := m.config.getCfgFormat opcfg.formatName
    if fmtcfg = none then (.error (.noFormat opcfg.formatName), m)
    else match m.getFormat fmtcfg with
      | (.error e, m) => (.error e, m)
      | (.ok fmtt, m) => m.getOutput opcfg fmtt

/-- The loop — internal/logger_manager.go:63-101.  Simplification: on an error the partial list the
Go code may return next to the error is dropped (no caller uses it). -/
def Manager.loop (m : Manager) : List Str → Except MgrErr (List Nat) × Manager
  | [] => (.ok [], m)
  | opid :: rest =>
    match m.one opid with
    | (.error e, m) => (.error e, m)
    | (.ok o, m) =>
      match m.loop rest with
      | (.error e, m) => (.error e, m)
      | (.ok os, m) => (.ok (o :: os), m)

/-- `GetLoggerOutputs` — internal/logger_manager.go:53-103: outputs and level, or an error. -/
def Manager.getLoggerOutputs (m : Manager) (name : Str) : Except MgrErr (List Nat × Level) × Manager :=
  match m.config.getCfgLogger name with
  | none => (.error (.noLogger name), m)
  | some lc =>
    match m.loop lc.outputNames with
    | (.error e, m) => (.error e, m)
    | (.ok ops, m) => (.ok (ops, Level.levelFrom lc.level), m)

/-- The first loop of `validateConfig` — internal/logger_manager.go:145-152; `seen` is the map
`formats` (only its keys matter). -/
def validateFormats : List Str → List CfgMap → Except MgrErr (List Str)
  | seen, [] => .ok seen
  | seen, f :: fs =>
    if f.name ∈ seen then .error (.dupFormat f.name) else validateFormats (f.name :: seen) fs

/-- The second loop — internal/logger_manager.go:154-165. -/
def validateOutputs (formats : List Str) : List Str → List CfgMap → Except MgrErr (List Str)
  | seen, [] => .ok seen
  | seen, o :: os =>
    if o.name ∈ seen then .error (.dupOutput o.name)
    else if o.formatName ∉ formats then .error (.outputFormatMissing o.formatName o.name)
    else validateOutputs formats (o.name :: seen) os

/-- The inner loop over output names — internal/logger_manager.go:174-179. -/
def validateNames (outputs : List Str) (logger : Str) : List Str → Option MgrErr
  | [] => none
  | n :: ns => if n ∉ outputs then some (.loggerOutputMissing n logger) else validateNames outputs logger ns

/-- The third loop — internal/logger_manager.go:167-180.  The map `loggers` (:167) is consulted at
:169 but never written, so `seen` stays what it is. -/
def validateLoggers (outputs : List Str) (seen : List Str) : List CfgLogger → Option MgrErr
  | [] => none
  | l :: ls =>
    if l.name ∈ seen then some (.dupLogger l.name)
    else match validateNames outputs l.name l.outputNames with
      | some e => some e
      | none => validateLoggers outputs seen ls

/-- `validateConfig` — internal/logger_manager.go:142-183. -/
def validateConfig (cfg : Config) : Option MgrErr :=
  match validateFormats [] cfg.formats with
  | .error e => some e
  | .ok formats =>
    match validateOutputs formats [] cfg.outputs with
    | .error e => some e
    | .ok outputs => validateLoggers outputs [] cfg.loggers

end Log4g
