import Verif.Model.Format

/-! # Outputs — `internal/output_base.go` (synchronous part), `output_console.go`, `output_memory.go`,
`output_syslog.go`

An `io.Writer` is represented by the list of the `Write` calls made on it (their bytes, oldest first);
whether a write fails is not visible to an output, which ignores the result.  A formatter is a function
from events to bytes.  Simplification: panics of formatters are not represented here (see `format` for
those of the text formatter). -/

namespace Log4g
variable {V : Type}

/-- `api.Formatter` as far as `Format` goes — api/logger_api.go:135-142. -/
abbrev Formatter (V : Type) := Event V → Bytes

/-- `[]byte(s)`.  (Used at internal/output_base.go:46 and internal/format_parser.go:172-179.) -/
def Str.bytes (s : Str) : Bytes := s.flatMap String.utf8EncodeChar

/-- `textFormatter.Format` — internal/format_text.go:32-38, with the stack it is called on. -/
def textFormatter (lib : Lib V) (stack : List Frame) (parts : List Part) : Formatter V :=
  fun e => match format lib stack e parts with
    | some (s, _) => s.bytes
    | none => []

/-- `defaultLayout` — internal/output_base.go:16. -/
def defaultLayout : Str := c!"%-5s [%s] %s: %s\n"

/-- What `fmt.Fprintf` writes without formatter — internal/output_base.go:50-54. -/
def defaultFormat (lib : Lib V) : Formatter V := fun e =>
  Str.bytes (lib.sprintf defaultLayout
    [.str (Level.toStr e.level), .str (lib.timeFormat e.time defaultTimeLayout), .str e.name, .str (e.message lib)])

/-- `baseOutput` — internal/output_base.go:27-37. -/
structure BaseOutput (V : Type) where
  w : List Bytes := []
  f : Option (Formatter V) := none
  t : Level

/-- `baseOutput.Send` — internal/output_base.go:40-55. -/
def BaseOutput.send (lib : Lib V) (o : BaseOutput V) (e : Event V) : BaseOutput V :=
  if e.level < o.t then o
  else match o.f with
    | some f => { o with w := o.w ++ [f e] }
    | none => { o with w := o.w ++ [defaultFormat lib e] }

/-- `baseOutput.SetFormatter` — internal/output_base.go:58-60. -/
def BaseOutput.setFormatter (o : BaseOutput V) (f : Option (Formatter V)) : BaseOutput V := { o with f := f }

/-- `baseOutput.Close` — internal/output_base.go:70-72. -/
def BaseOutput.close (o : BaseOutput V) : BaseOutput V := o

/-- `NewMemoryOutput` — internal/output_memory.go:23-27. -/
def newMemoryOutput : BaseOutput V := { t := Level.All }

/-- `memoryOutput.String` — internal/output_memory.go:18-20: a `bytes.Buffer` holds what was written. -/
def BaseOutput.string (o : BaseOutput V) : Bytes := o.w.flatten

/-- What an output configured as `console` is — internal/output_console.go:18-28. -/
inductive ConsoleKind
  | sync (t : Level)
  | async (t : Level) (queueSize batchNum : Int)
  deriving DecidableEq

/-- `NewConsoleOutput` — internal/output_console.go:18-28. -/
def newConsoleOutput (cfg : CfgMap) : ConsoleKind :=
  if cfg ≠ none ∧ cfg.at c!"async" = c!"true" then
    .async (GetThresholdLvl (cfg.at c!"threshold")) (GetQueueSize (cfg.at c!"queue_size")) (GetBatchNum (cfg.at c!"batch_num"))
  else .sync (GetThresholdLvl (cfg.at c!"threshold"))

/-- The methods of `syslog.Writer` the output calls.  (internal/output_syslog.go:31-42) -/
inductive SysCall
  | debug (m : Bytes) | info (m : Bytes) | warning (m : Bytes) | err (m : Bytes) | crit (m : Bytes)
  deriving DecidableEq

/-- `syslogOutput` — internal/output_syslog.go:13-17, with the calls made on its writer. -/
structure SyslogOutput (V : Type) where
  w : List SysCall := []
  f : Option (Formatter V) := none
  t : Level

/-- `syslogOutput.Send` — internal/output_syslog.go:19-43. -/
def SyslogOutput.send (lib : Lib V) (o : SyslogOutput V) (e : Event V) : SyslogOutput V :=
  if e.level < o.t then o
  else
    let m := match o.f with
      | some f => f e
      | none => (e.message lib).bytes
    if e.level = Level.Trace ∨ e.level = Level.Debug then { o with w := o.w ++ [.debug m] }
    else if e.level = Level.Info then { o with w := o.w ++ [.info m] }
    else if e.level = Level.Warn then { o with w := o.w ++ [.warning m] }
    else if e.level = Level.Error then { o with w := o.w ++ [.err m] }
    else if e.level = Level.Critical then { o with w := o.w ++ [.crit m] }
    else o

/-! ## Concurrent sends to a memory output

A `bytes.Buffer` is not protected by a lock.  `Write` finds the length of the buffer, makes it longer and
copies the bytes to the place found (Go's `bytes` package); `io.Writer`s with a lock do all this in one
step. -/

/-- Where a goroutine is that writes `bs`.  (The writer under internal/output_base.go:46, 50.) -/
inductive WPc
  | ready (bs : Bytes)
  /-- the length has been read -/
  | at (bs : Bytes) (pos : Nat)
  | done

/-- A buffer with goroutines writing to it.  (`memoryOutput.buf`, internal/output_memory.go:15.) -/
structure WState where
  buf : Bytes
  pc : Nat → WPc

/-- Goroutine `t` gets on (internal/output_base.go:46, internal/output_memory.go:25). -/
def WState.set (s : WState) (t : Nat) (x : WPc) : WState := { s with pc := fun u => if u = t then x else s.pc u }

/-- A `Write` under a lock, as `os.File` and the rolling writer do it.
(internal/output_rollingwriter.go:513-514; `os.Stdout` at internal/output_console.go:24) -/
inductive LockedStep : WState → Nat → WState → Prop
  | write {s t bs} : s.pc t = .ready bs → LockedStep s t (({ s with buf := s.buf ++ bs } : WState).set t .done)

/-- `bytes.Buffer.Write`: `m, ok := b.tryGrowByReslice(len(p))` and `copy(b.buf[m:], p)`.
(Under internal/output_base.go:46 for internal/output_memory.go:25.) -/
inductive BufferStep : WState → Nat → WState → Prop
  | length {s t bs} : s.pc t = .ready bs → BufferStep s t (s.set t (.at bs s.buf.length))
  | copy {s t bs pos} : s.pc t = .at bs pos →
      BufferStep s t (({ s with buf := s.buf.take pos ++ bs ++ s.buf.drop (pos + bs.length) } : WState).set t .done)

end Log4g
