import Verif.Model.Level

/-! # Contexts, call stacks, events and caller information — `api/logger_api.go`,
`internal/logger_callerinfo.go`

`V` is the type of the values users pass as arguments and fields (Go's `interface{}`). -/

namespace Log4g

/-- `callerInfo` — internal/logger_callerinfo.go:17-23.  The program counter is replaced by the
qualified function name `runtime.FuncForPC(pc).Name()` finds for it (`none` if it finds nothing). -/
structure CallerInfo where
  file : Str := []
  line : Int := 0
  pkg : Str := []
  fun_ : Str := []
  pcName : Option Str := none
  deriving DecidableEq

/-- A value found in a `context.Context`: nil, a value of the user, or the library's own
`*callerInfo`.  (internal/logger_callerinfo.go:27-30) -/
inductive CtxVal (V : Type)
  | nil
  | user (v : V)
  | ci (c : CallerInfo)

/-- A `context.Context`, as far as lookups with string keys go: the bindings made by
`context.WithValue`, the latest first.  `context.Background()` is the empty list.
Simplification: a user's own context (`WithCtx`) is also such a list.  (api/logger_api.go:116) -/
abbrev Ctx (V : Type) := Map Str (CtxVal V)

/-- `ctx.Value(key)`.  (internal/logger_callerinfo.go:27, internal/format_parser.go:275) -/
def Ctx.value {V : Type} (c : Ctx V) (key : Str) : CtxVal V := (Map.get c key).getD .nil

/-- `context.WithValue(ctx, key, v)`.  (internal/logger.go:42, internal/logger_callerinfo.go:39) -/
def Ctx.withValue {V : Type} (c : Ctx V) (key : Str) (v : CtxVal V) : Ctx V := (key, v) :: c

/-- `Field` — api/logger_api.go:68-71. -/
structure Field (V : Type) where
  key : Str
  val : CtxVal V

/-- One frame of a call stack: file and line of the call site active in it and the qualified name
of its function.  (What internal/logger_callerinfo.go:35, 43-44 gets.) -/
structure Frame where
  file : Str
  line : Int
  func : Str
  deriving DecidableEq

/-- `Event` — api/logger_api.go:109-117.  `CallDepth` is an `int`. -/
structure Event (V : Type) where
  format : Str
  arguments : List V
  name : Str
  level : Level
  time : Nat
  callDepth : Int
  ctx : Ctx V

/-- The key under which the library stores its caller information —
internal/logger_callerinfo.go:27,39. -/
def callerInfoKey : Str := c!"__caller_info"

-- The flags of internal/logger_callerinfo.go:11-15.
/-- internal/logger_callerinfo.go:12. -/
def ciNoneFlag : Int := 0
/-- internal/logger_callerinfo.go:13. -/
def ciFileFlag : Int := 1
/-- internal/logger_callerinfo.go:14. -/
def ciFuncFlag : Int := 2

/-- `runtime.Caller(skip)` called from a function whose stack (itself first) is `stack`: frame 0 is
that function.  Simplification: frames are those the Go runtime reports, i.e. compiler generated
method wrappers (for the methods `defLogger` gets from the embedded `*defWriter`) do not count.
(Used at internal/logger_callerinfo.go:35.) -/
def runtimeCaller (stack : List Frame) (skip : Int) : Option Frame :=
  if skip < 0 then none else stack[skip.toNat]?

/-- `strings.LastIndex(s, c)`, as `LastIndex + 1`: the length of the prefix that ends with the last
`c`, 0 if there is none.  (Used at internal/logger_callerinfo.go:45, internal/format_parser.go:261.) -/
def afterLast (c : Char) : Str → Nat
  | [] => 0
  | x :: xs =>
    let r := afterLast c xs
    if r = 0 then (if x = c then 1 else 0) else r + 1

/-- `strings.Index(s, c)`; `none` for -1.  (Used at internal/logger_callerinfo.go:46.) -/
def indexOf (c : Char) : Str → Option Nat
  | [] => none
  | x :: xs => if x = c then some 0 else (indexOf c xs).map (· + 1)

/-- The split of a qualified function name — internal/logger_callerinfo.go:44-51, with
`i + 1 = afterLast '/' fs`. -/
def splitFunc (fs : Str) : Str × Str :=
  let i1 := afterLast '/' fs
  match indexOf '.' (fs.drop i1) with
  | none => (c!"???", c!"???")
  | some j =>
    if j < 1 then (c!"???", c!"???")
    else (fs.take (i1 + j), fs.drop (i1 + j + 1))

/-- `s[i:j]`; `none` is the panic of a slice out of bounds.  (As at internal/logger_callerinfo.go:46, 50.) -/
def sliceGo (s : Str) (i j : Int) : Option Str :=
  if 0 ≤ i ∧ i ≤ j ∧ j ≤ s.length then some ((s.take j.toNat).drop i.toNat) else none

/-- The same split with the indices and slices of the Go code, -1 for "not found" and panics included —
internal/logger_callerinfo.go:45-51.  `C41_split` shows that it never panics and agrees with `splitFunc`. -/
def splitFuncGo (fs : Str) : Option (Str × Str) :=
  let i : Int := afterLast '/' fs - 1
  match sliceGo fs (i + 1) fs.length with
  | none => none
  | some t =>
    let j : Int := match indexOf '.' t with
      | none => -1
      | some j => j
    if j < 1 then some (c!"???", c!"???")
    else match sliceGo fs 0 (i + j + 1), sliceGo fs (i + j + 2) fs.length with
      | some pkg, some fun_ => some (pkg, fun_)
      | _, _ => none

/-- `getCallerInfo` — internal/logger_callerinfo.go:25-56.  `stack` is the stack with
`getCallerInfo` itself on top.  Answers the information and the event with its new context, or
`none` for the panic of the type assertion `v.(*callerInfo)` at :29.  The Go code shares one
`*callerInfo` between the returned value and the context and fills in `pkg` and `fun` through it;
the model writes the completed value back into the context. -/
def getCallerInfo {V : Type} (stack : List Frame) (evt : Event V) (needFun : Bool) :
    Option (CallerInfo × Event V) :=
  let fill (ci : CallerInfo) : CallerInfo :=
    if needFun = true ∧ ci.pkg = [] then
      match ci.pcName with
      | none => ci
      | some fs => { ci with pkg := (splitFunc fs).1, fun_ := (splitFunc fs).2 }
    else ci
  match evt.ctx.value callerInfoKey with
  | .user _ => none
  | .ci ci => some (fill ci, { evt with ctx := evt.ctx.withValue callerInfoKey (.ci (fill ci)) })
  | .nil =>
    let ci : CallerInfo := match runtimeCaller stack (evt.callDepth + 1) with
      | some fr => { file := fr.file, line := fr.line, pcName := some fr.func }
      | none => { file := c!"???", line := 0 }
    some (fill ci, { evt with ctx := evt.ctx.withValue callerInfoKey (.ci (fill ci)) })

end Log4g
