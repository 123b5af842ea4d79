import Verif.Model.Regex
import Verif.Model.Logger
import Verif.Model.Strconv

/-! # Layouts and formatting — `internal/format_parser.go`, `internal/format_text.go`,
`api/logger_api.go:120-130` -/

namespace Log4g
variable {V : Type}

/-- A value given to the `fmt` package by the library.  (internal/format_parser.go:181, 184) -/
inductive Arg (V : Type)
  | str (s : Str)
  | int (n : Int)
  | any (v : CtxVal V)

/-- What the library uses of `fmt`, `time` and `os`.  The functions are arbitrary; where a property needs to
know something about them it says so.
(Used at internal/format_parser.go:36-37, 178-184, 268-270 and api/logger_api.go:124-126.) -/
structure Lib (V : Type) where
  /-- `fmt.Sprintf`, `fmt.Fprintf` -/
  sprintf : Str → List (Arg V) → Str
  /-- `fmt.Sprint` -/
  sprint : List V → Str
  /-- `v.(string)` -/
  asString : V → Option Str
  /-- `t.Format(layout)` -/
  timeFormat : Nat → Str → Str
  /-- `os.Getpid()` — internal/format_parser.go:36 -/
  pid : Int
  /-- `filepath.Base(os.Args[0])` — internal/format_parser.go:37 -/
  program : Str

/-- `[a-zA-Z0-9]`.  (internal/format_parser.go:58) -/
def isAlnum (c : Char) : Bool :=
  ('a' ≤ c && c ≤ 'z') || ('A' ≤ c && c ≤ 'Z') || ('0' ≤ c && c ≤ '9')

/-- `formatRe` — internal/format_parser.go:58: `%{([a-zA-Z0-9]+)(?::(.*?[^\\]))?}`.  Without flags, `.` is any
character but a newline. -/
def formatRe : Re :=
  .seq (.chr '%') <| .seq (.chr '{') <| .seq (.group 1 (.plus isAlnum)) <|
  .seq (.opt (.seq (.chr ':') (.group 2 (.seq (.lazyStar (· ≠ '\n')) (.cls (· ≠ '\\')))))) <|
  .chr '}'

/-- The constants of internal/format_parser.go:21-26. -/
inductive VerbType
  | name | static | time | extend
  deriving DecidableEq

/-- The format functions — internal/format_parser.go:61-77. -/
inductive FormatFn
  | pid | program | module_ | msg | level | lvl | line | longfile | shortfile | longpkg | shortpkg
  | longfunc | shortfunc | time | extend
  deriving DecidableEq

/-- `formatFuncs` — internal/format_parser.go:61-77. -/
def formatFuncs : Map Str FormatFn :=
  [(c!"pid", .pid), (c!"program", .program), (c!"module", .module_), (c!"msg", .msg), (c!"level", .level),
   (c!"lvl", .lvl), (c!"line", .line), (c!"longfile", .longfile), (c!"shortfile", .shortfile),
   (c!"longpkg", .longpkg), (c!"shortpkg", .shortpkg), (c!"longfunc", .longfunc), (c!"shortfunc", .shortfunc),
   (c!"time", .time), (c!"_extend", .extend)]

/-- `formatCallerFlags` — internal/format_parser.go:79-87. -/
def formatCallerFlags : Map Str Int :=
  [(c!"line", ciFileFlag), (c!"longfile", ciFileFlag), (c!"shortfile", ciFileFlag),
   (c!"longpkg", ciFuncFlag), (c!"shortpkg", ciFuncFlag), (c!"longfunc", ciFuncFlag), (c!"shortfunc", ciFuncFlag)]

/-- `part` — internal/format_parser.go:44-50.  `fmtFunc` is nil in static parts and not looked at. -/
structure Part where
  verbType : VerbType
  verbName : Str := []
  fmtStr : Str := []
  fmtFunc : FormatFn := .extend
  layout : Str := []
  deriving DecidableEq

/-- `s[i:j]` within bounds.  (internal/format_parser.go:134, 137, 150, 152) -/
def slice (s : Str) (i j : Nat) : Str := (s.take j).drop i

/-- The verb made of one match — internal/format_parser.go:137-154.  Group 1 takes part in every match. -/
def verbPart (layout : Str) (m : Match) : Part :=
  let g1 := (Map.get m.caps 1).getD (0, 0)
  let name := slice layout g1.1 g1.2
  let part : Part := match Map.get formatFuncs name with
    | some f => { verbType := .name, verbName := name, fmtFunc := f }
    | none => { verbType := .extend, verbName := name, fmtFunc := .extend }
  match Map.get m.caps 2 with
  | none => part
  | some (i, j) =>
    if name = c!"time" then { part with verbType := .time, layout := slice layout i j }
    else { part with fmtStr := '%' :: slice layout i j }

/-- The loop of `Parser` and what follows it — internal/format_parser.go:130-164. -/
def parserLoop (layout : Str) : (prev : Nat) → List Match → List Part
  | prev, [] =>
    let rest := layout.drop prev
    if rest ≠ [] then [{ verbType := .static, fmtStr := rest }] else []
  | prev, m :: ms =>
    (if prev < m.start then [{ verbType := .static, fmtStr := slice layout prev m.start }] else []) ++
    verbPart layout m :: parserLoop layout m.stop ms

/-- `Parser` on a fresh formatter — internal/format_parser.go:122-165; `none` is the error. -/
def parser (layout : Str) : Option (List Part) :=
  match formatRe.findAll 0 0 layout with
  | [] => none
  | ms => some (parserLoop layout 0 ms)

/-- `Event.Message` — api/logger_api.go:120-130. -/
def Event.message (lib : Lib V) (e : Event V) : Str :=
  if e.arguments ≠ [] then
    if e.format ≠ [] then lib.sprintf e.format (e.arguments.map fun v => .any (.user v))
    else lib.sprint e.arguments
  else e.format

/-- `path.Base`, `filepath.Base` on Unix — Go library.  (Used at internal/format_parser.go:237, 249.) -/
def goBase (p : Str) : Str :=
  if p = [] then c!"."
  else
    let q := (p.reverse.dropWhile (· = '/')).reverse
    let b := q.drop (afterLast '/' q)
    if b = [] then c!"/" else b

/-- `defaultTimeLayout` — internal/format_parser.go:32. -/
def defaultTimeLayout : Str := c!"2006-01-02T15:04:05.000Z07:00"

/-- The frame of a format function.  (One of internal/format_parser.go:223-263.) -/
def fnFrame : Frame := ⟨c!"internal/format_parser.go", 224, c!"github.com/xtfly/log4g/internal.formatFunc"⟩

/-- `part.fmtFunc(e, part)` — internal/format_parser.go:193-276: the value and the event (`getCallerInfo` may
extend its context); `none` is a panic.  `stack` has the frame of `Format` on top. -/
def callFn (lib : Lib V) (stack : List Frame) (e : Event V) (part : Part) : Option (Arg V × Event V) :=
  let withInfo (needFun : Bool) (f : CallerInfo → Arg V) : Option (Arg V × Event V) :=
    (getCallerInfo (World.callerFrame :: fnFrame :: stack) e needFun).map fun x => (f x.1, x.2)
  match part.fmtFunc with
  | .pid => some (.int lib.pid, e)
  | .program => some (.str lib.program, e)
  | .module_ => some (.str e.name, e)
  | .msg => some (.str (e.message lib), e)
  | .level => some (.str (Level.toStr e.level), e)
  | .lvl => some (.str (Level.shortStr e.level), e)
  | .line => withInfo false fun ci => .int ci.line
  | .longfile => withInfo false fun ci => .str ci.file
  | .shortfile => withInfo false fun ci => .str (goBase ci.file)
  | .longpkg => withInfo true fun ci => .str ci.pkg
  | .shortpkg => withInfo true fun ci => .str (goBase ci.pkg)
  | .longfunc => withInfo true fun ci => .str ci.fun_
  | .shortfunc => withInfo true fun ci => .str (ci.fun_.drop (afterLast '.' ci.fun_))
  | .time => some (.str (lib.timeFormat e.time (if part.layout = [] then defaultTimeLayout else part.layout)), e)
  | .extend => some (.any (e.ctx.value part.verbName), e)

/-- `v.(string)`.  (internal/format_parser.go:174, 178) -/
def Arg.asString (lib : Lib V) : Arg V → Option Str
  | .str s => some s
  | .any (.user v) => lib.asString v
  | _ => none

/-- What one part writes — internal/format_parser.go:170-186.  A panic is `none`. -/
def formatPart (lib : Lib V) (stack : List Frame) (e : Event V) (part : Part) : Option (Str × Event V) :=
  match part.verbType with
  | .static => some (part.fmtStr, e)
  | .time =>
    match callFn lib stack e part with
    | none => none
    | some (a, e) => (a.asString lib).map fun s => (s, e)
  | _ =>
    if part.fmtStr = [] then
      match callFn lib stack e part with
      | none => none
      | some (a, e) =>
        match a.asString lib with
        | some s => some (s, e)
        | none =>
          match callFn lib stack e part with
          | none => none
          | some (a, e) => some (lib.sprintf c!"%v" [a], e)
    else
      match callFn lib stack e part with
      | none => none
      | some (a, e) => some (lib.sprintf part.fmtStr [a], e)

/-- `StringFormatter.Format` — internal/format_parser.go:168-188: everything written to `output`, in order. -/
def format (lib : Lib V) (stack : List Frame) : Event V → List Part → Option (Str × Event V)
  | e, [] => some ([], e)
  | e, p :: ps =>
    match formatPart lib stack e p with
    | none => none
    | some (s, e) =>
      match format lib stack e ps with
      | none => none
      | some (t, e) => some (s ++ t, e)

/-- `CallerInfoFlag` of a text formatter — internal/format_text.go:40-48. -/
def callerInfoFlag (parts : List Part) : Int :=
  parts.foldl (fun ret v =>
    match Map.get formatCallerFlags v.verbName with
    | some r => if ret < r then r else ret
    | none => ret) 0

/-- `NewTextFormatter` — internal/format_text.go:19-30; `none` is the error.  Called by the manager only with a
non-nil map (it panics otherwise). -/
def newTextFormatter (cfg : CfgMap) : Option (List Part) := parser (cfg.at c!"layout")

end Log4g
