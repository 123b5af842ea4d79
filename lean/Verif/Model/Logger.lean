import Verif.Model.World

/-! # Writing log messages — `internal/logger.go` -/

namespace Log4g
variable {V : Type}

namespace World

/-- The loop of `Level()` — internal/logger.go:84-93.  `fuel` bounds the walk; `none` says it did not
suffice (`level_terminates` shows that the size of the heap always does). -/
def levelWalk (w : World) : (fuel : Nat) → Option Nat → Option Level
  | _, none => some Level.Off
  | 0, some _ => none
  | fuel + 1, some r =>
    match w.heap[r]? with
    | none => some Level.Off
    | some l => if l.level ≠ Level.Uninitialized then some l.level else levelWalk w fuel l.parent

/-- `Level()` — internal/logger.go:84-93. -/
def level (w : World) (r : Nat) : Level := (w.levelWalk w.heap.length (some r)).getD Level.Off

/-- `LevelEnabled` — internal/logger.go:76-78. -/
def levelEnabled (w : World) (r : Nat) (lvl : Level) : Bool := w.level r ≤ lvl

/-- The six `XxxEnabled` methods — internal/logger.go:52-74. -/
def traceEnabled (w : World) (r : Nat) : Bool := w.levelEnabled r Level.Trace
/-- `DebugEnabled` — internal/logger.go:56-58. -/
def debugEnabled (w : World) (r : Nat) : Bool := w.levelEnabled r Level.Debug
/-- `InfoEnabled` — internal/logger.go:60-62. -/
def infoEnabled (w : World) (r : Nat) : Bool := w.levelEnabled r Level.Info
/-- `WarnEnabled` — internal/logger.go:64-66. -/
def warnEnabled (w : World) (r : Nat) : Bool := w.levelEnabled r Level.Warn
/-- `ErrorEnabled` — internal/logger.go:68-70. -/
def errorEnabled (w : World) (r : Nat) : Bool := w.levelEnabled r Level.Error
/-- `CriticalEnabled` — internal/logger.go:72-74. -/
def criticalEnabled (w : World) (r : Nat) : Bool := w.levelEnabled r Level.Critical

/-- A call `Send(evt)` on an output.  (internal/logger.go:197) -/
structure Delivery (V : Type) where
  out : Nat
  evt : Event V

/-- What a log call does: panic, or send events to outputs, in this order.  (internal/logger.go:165-199) -/
inductive Outcome (V : Type)
  | panic
  | sent (ds : List (Delivery V))

/-- The deliveries of an outcome (none on a panic: it happens before the dispatch loop).  (internal/logger.go:196-198) -/
def Outcome.deliveries : Outcome V → List (Delivery V)
  | .panic => []
  | .sent ds => ds

/-- The frames of the library's own functions.
(`write`, internal/logger.go:165; the line is that of the call of `getCallerInfo`.) -/
def writeFrame : Frame := ⟨c!"internal/logger.go", 165, c!"github.com/xtfly/log4g/internal.(*defWriter).write"⟩
/-- The frame of `Printf` — internal/logger.go:161. -/
def printfFrame : Frame := ⟨c!"internal/logger.go", 161, c!"github.com/xtfly/log4g/internal.(*defWriter).Printf"⟩
/-- The frame of a level method — internal/logger.go:113-159. -/
def methodFrame : Frame := ⟨c!"internal/logger.go", 113, c!"github.com/xtfly/log4g/internal.(*defWriter).Method"⟩
/-- The frame of `getCallerInfo` — internal/logger_callerinfo.go:25. -/
def callerFrame : Frame := ⟨c!"internal/logger_callerinfo.go", 25, c!"github.com/xtfly/log4g/internal.getCallerInfo"⟩

/-- The part of `write` after the delegation — internal/logger.go:178-198. `stack` has `write`'s own
frame on top, `now` is what `time.Now()` answers. -/
def dispatch (l : Logger) (stack : List Frame) (now : Nat) (ctx : Ctx V) (name : Str) (skip : Int)
    (lvl : Level) (fmt : Str) (args : List V) : Outcome V :=
  let evt : Event V := { format := fmt, arguments := args, name := name, level := lvl, time := now,
                         callDepth := skip, ctx := ctx }
  let evt? : Option (Event V) :=
    if l.callerInfoFlag = ciFuncFlag then (getCallerInfo (callerFrame :: stack) evt true).map (·.2)
    else if l.callerInfoFlag = ciFileFlag then (getCallerInfo (callerFrame :: stack) evt false).map (·.2)
    else some evt
  match evt? with
  | none => .panic
  | some evt => .sent (l.outputs.map fun o => ⟨o, evt⟩)

/-- `write` — internal/logger.go:165-199, of the `defWriter` with logger `r` and context `ctx`.
`stack` is the stack below the call of `write`.  The parent's `write` is that of the parent's own
`defWriter`, whose context is the background context (:33, :172).  The warning printed through the
standard `log` package at :175 is in `Model/Stderr.lean`. -/
def write (w : World) (now : Nat) : (fuel : Nat) → (stack : List Frame) → (r : Nat) → Ctx V → (name : Str) →
    (skip : Int) → (lvl : Level) → (fmt : Str) → (args : List V) → Outcome V
  | 0, _, _, _, _, _, _, _, _ => .sent []
  | fuel + 1, stack, r, ctx, name, skip, lvl, fmt, args =>
    match w.heap[r]? with
    | none => .sent []
    | some l =>
      if w.levelEnabled r lvl = false then .sent []
      else if l.outputs = [] then
        match l.parent with
        | some p => write w now fuel (writeFrame :: stack) p [] name (skip + 1) lvl fmt args
        | none => dispatch l (writeFrame :: stack) now ctx name skip lvl fmt args
      else dispatch l (writeFrame :: stack) now ctx name skip lvl fmt args

/-- `Printf` — internal/logger.go:161-163, called with `stack` below it. -/
def printf (w : World) (now : Nat) (stack : List Frame) (r : Nat) (ctx : Ctx V) (lvl : Level) (fmt : Str)
    (args : List V) : Outcome V :=
  match w.heap[r]? with
  | none => .sent []
  | some l => w.write now w.heap.length (printfFrame :: stack) r ctx l.name l.callerSkip lvl fmt args

/-- The twelve methods — internal/logger.go:113-159. -/
inductive Method
  | tracef (fmt : Str) | trace | debugf (fmt : Str) | debug | infof (fmt : Str) | info
  | warnf (fmt : Str) | warn | errorf (fmt : Str) | error | criticalf (fmt : Str) | critical

/-- The level and format the methods pass to `Printf`.  (internal/logger.go:113-159) -/
def Method.lvlFmt : Method → Level × Str
  | .tracef f => (Level.Trace, f) | .trace => (Level.Trace, [])
  | .debugf f => (Level.Debug, f) | .debug => (Level.Debug, [])
  | .infof f => (Level.Info, f) | .info => (Level.Info, [])
  | .warnf f => (Level.Warn, f) | .warn => (Level.Warn, [])
  | .errorf f => (Level.Error, f) | .error => (Level.Error, [])
  | .criticalf f => (Level.Critical, f) | .critical => (Level.Critical, [])

/-- A call of one of the twelve methods; `stack` is the user's stack.  (internal/logger.go:113-159) -/
def call (w : World) (now : Nat) (stack : List Frame) (r : Nat) (ctx : Ctx V) (m : Method) (args : List V) :
    Outcome V :=
  w.printf now (methodFrame :: stack) r ctx m.lvlFmt.1 m.lvlFmt.2 args

/-- `WithFields` — internal/logger.go:38-46: the context of the writer it returns. -/
def withFields (fields : List (Field V)) : Ctx V :=
  fields.foldl (fun ctx f => ctx.withValue f.key f.val) []

/-- `WithCtx` — internal/logger.go:48-50. -/
def withCtx (ctx : Ctx V) : Ctx V := ctx

end World

end Log4g
