import Verif.Model.Output
import Verif.Model.RollOutput

/-! # The library as it starts — `internal/log4g.go` — and what its own outputs are -/

namespace Log4g
open Strconv
variable {V : Type}

/-- `NewTextFormatter` as a creator — internal/format_text.go:19-30, 40-48: of the formatter the manager model keeps
`CallerInfoFlag()`.  The text of the error (internal/format_parser.go:127) is not modelled. -/
def textCreator : FmtCreator := fun _ cfg =>
  match newTextFormatter cfg with
  | none => .error c!"layout"
  | some parts => .ok (callerInfoFlag parts)

/-- `NewConsoleOutput`, `NewMemoryOutput` and `NewRollingOutput` as creators: they never answer an error —
internal/output_console.go:27, internal/output_memory.go:26, internal/output_rolling.go:72.  (`NewRollingOutput` panics
for other types than its two, internal/output_rolling.go:63, but the manager does not call it for any.) -/
def okCreator : OutCreator := fun _ _ => .ok ()

/-- `NewSyslogOutput` as a creator — internal/output_syslog.go:66-76: an error if the syslog daemon is not there. -/
def syslogCreator (up : Nat → Bool) : OutCreator := fun n _ => if up n then .ok () else .error c!"syslog"

/-- `typeText` and the types of outputs — internal/format_text.go:10, internal/output_console.go:10,
internal/output_memory.go:10, internal/output_rolling.go:13-14, internal/output_syslog.go:10. -/
def typeText : Str := c!"text"
/-- The types of outputs `init` registers — internal/log4g.go:19-23. -/
def stdTypes : List Str := [c!"console", c!"memory", c!"size_rolling_file", c!"time_rolling_file", c!"syslog"]

/-- The layout of the default configuration — internal/log4g.go:31. -/
def initLayout : Str :=
  c!"%{time}|%{level:-5s}|%{pid:6d}|%{module} >> %{msg} (%{longfunc}@%{longpkg}/%{shortfile}:%{line}) \n"

/-- The default configuration — internal/log4g.go:26-36. -/
def initConfig : Config where
  loggers := [⟨c!"root", c!"all", [c!"c1"]⟩]
  formats := [some [(c!"type", c!"text"), (c!"name", c!"f1"), (c!"layout", initLayout)]]
  outputs := [some [(c!"type", c!"console"), (c!"name", c!"c1"), (c!"format", c!"f1")]]

/-- What `init` does before the program starts — internal/log4g.go:16-37.  What the goroutine that waits for a signal
(:39-44) does is in `Model/System.lean`. -/
def initActs (up : Nat → Bool) : List Act :=
  [.registerFormatter c!"text" textCreator, .registerOutput c!"console" okCreator, .registerOutput c!"memory" okCreator,
   .registerOutput c!"size_rolling_file" okCreator, .registerOutput c!"time_rolling_file" okCreator,
   .registerOutput c!"syslog" (syslogCreator up), .setConfig initConfig []]

/-- What an output instance is: one of the library's own — internal/log4g.go:19-23 — or something else. -/
inductive OutKind
  | console (k : ConsoleKind)
  | memory
  | rolling (c : RCfg) (k : ConsoleKind)
  | syslog (t : Level)
  | other

/-- What the library's creators make of a configuration — internal/log4g.go:19-23 —, and the console
`getRootLogger` makes (internal/logger_factory.go:79). -/
def OutObj.kind (tc : Toolchain) (ob : OutObj) : OutKind :=
  match ob.origin with
  | .console => .console (newConsoleOutput none)
  | .user _ => .other
  | .managed cfg =>
    if cfg.type = c!"console" then .console (newConsoleOutput cfg)
    else if cfg.type = c!"memory" then .memory
    else if cfg.type = c!"size_rolling_file" ∨ cfg.type = c!"time_rolling_file" then
      match newRollingOutput tc cfg with
      | some (c, k) => .rolling c k
      | none => .other
    else if cfg.type = c!"syslog" then .syslog (GetThresholdLvl (cfg.at c!"threshold"))
    else .other

/-- The formatter of an output: the one the manager gave it — internal/logger_manager.go:97.  For text formatters that
is what internal/format_text.go:32-38 does; formatters of the user are arbitrary. -/
def World.formatterOf (lib : Lib V) (stack : List Frame) (other : Nat → Formatter V) (w : World) (ob : OutObj) :
    Option (Formatter V) :=
  ob.fmt.map fun i =>
    match w.mgr.fheap[i]? with
    | none => other i
    | some fo =>
      if fo.cfg.type = typeText then
        match newTextFormatter fo.cfg with
        | some parts => textFormatter lib stack parts
        | none => other i
      else other i

/-- The writes on its writer an output makes in one `Send`, if it is one of the library's and not asynchronous —
internal/output_base.go:40-55 with the writers of internal/output_console.go:24, internal/output_memory.go:25 and
internal/output_rolling.go:70. -/
def World.sendWrites (tc : Toolchain) (lib : Lib V) (stack : List Frame) (other : Nat → Formatter V) (w : World)
    (d : World.Delivery V) : List Bytes :=
  match w.mgr.oheap[d.out]? with
  | none => []
  | some ob =>
    let f := w.formatterOf lib stack other ob
    match ob.kind tc with
    | .console (.sync t) => (({ t := t, f := f } : BaseOutput V).send lib d.evt).w
    | .memory => (((newMemoryOutput : BaseOutput V).setFormatter f).send lib d.evt).w
    | .rolling _ (.sync t) => (({ t := t, f := f } : BaseOutput V).send lib d.evt).w
    | _ => []

/-- What a log call has printed on standard output when it returns: what the synchronous console outputs among its
receivers have written, in this order — internal/logger.go:196-198. -/
def World.stdout (tc : Toolchain) (lib : Lib V) (stack : List Frame) (other : Nat → Formatter V) (w : World)
    (o : World.Outcome V) : List Bytes :=
  o.deliveries.flatMap fun d =>
    match w.mgr.oheap[d.out]? with
    | none => []
    | some ob => match ob.kind tc with
      | .console _ => w.sendWrites tc lib stack other d
      | _ => []

end Log4g
