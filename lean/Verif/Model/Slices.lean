import Verif.Model.World

/-! # A slice that is changed after `SetOutputs` — `internal/logger.go:99-106`

`SetOutputs` keeps the slice it is given (internal/logger.go:100): the logger and the program share its elements.  Here a
program has slices of outputs, assigns to their elements and passes them to `SetOutputs`.

Simplification: no two slices share an array. -/

namespace Log4g

/-- The library (internal/logger_manager.go:21-29, internal/logger_factory.go:16-21), the slices of the program, and for each
logger the slice of the program its `outputs` field (internal/logger.go:20) is (`none`: one the program does not hold). -/
structure SlcWorld where
  w : World := {}
  slices : List (List Nat) := []
  held : Nat → Option Nat := fun _ => none

/-- What a program does: any call of the library (a slice given to `SetOutputs` here is not used for anything else), making
a slice, assigning to an element of a slice, and `SetOutputs` with a slice.  (api/logger_api.go:74-105) -/
inductive SlcAct
  | lib (a : Act)
  | make (ops : List Nat)
  | assign (i k o : Nat)
  | set (r i : Nat)

/-- Logger `r` gets another slice — internal/logger.go:100. -/
def letGo (held : Nat → Option Nat) (r : Nat) : Nat → Option Nat := fun q => if q = r then none else held q

/-- Which slices are held after the loop of `notify`, which calls `SetOutputs` for each logger it finds an entry for —
internal/logger_factory.go:93-100. -/
def notifyHeld (w : World) (held : Nat → Option Nat) : (order : List Nat) → Nat → Option Nat
  | [] => held
  | r :: rs =>
    match w.heap[r]? with
    | none => notifyHeld w held rs
    | some l => notifyHeld (w.configure r l.name)
        (match w.mgr.getLoggerOutputs l.name with
          | (.error _, _) => held
          | (.ok _, _) => letGo held r) rs

/-- Which slices are held after a call of the library.  A new logger holds none
(internal/logger_factory.go:34-39, 75-84, 93-100, internal/logger_manager.go:105-140). -/
def Act.heldAfter (w : World) (held : Nat → Option Nat) : Act → Nat → Option Nat
  | .setOutputs r _ => letGo held r
  | .setConfig cfg order => go cfg order
  | .loadConfig d bs ext order => go (decode d bs ext) order
  | .loadConfigFile d file (some bs) order =>
    match World.pathExt file with
    | [] => held
    | _ :: ext => go (decode d bs ext) order
  | _ => held
where
  /-- `SetConfig` — internal/logger_manager.go:128-140. -/
  go (cfg : Config) (order : List Nat) : Nat → Option Nat :=
    match validateConfig cfg with
    | some _ => held
    | none => notifyHeld { w with mgr := { w.mgr with config := cfg } } held order
  /-- What `LoadConfig` decodes — internal/logger_manager.go:115-123. -/
  decode (d : World.Decoders) (bs : Bytes) (ext : Str) : Config :=
    let ext := World.lowerExt ext
    if ext = c!"yaml" ∨ ext = c!"yml" then (d.yaml bs).1
    else if ext = c!"json" then (d.json bs).1
    else {}

/-- The loggers that hold slice `i` have the outputs `ops` now — internal/logger.go:100. -/
def SlcWorld.refresh (p : SlcWorld) (i : Nat) (ops : List Nat) : World :=
  { p.w with heap := p.w.heap.mapIdx fun r l => if p.held r = some i then { l with outputs := ops } else l }

/-- The effect of each.  `write` ranges over the slice the logger holds (internal/logger.go:170, 196), so an assignment to
an element is one to the outputs of each logger that holds the slice; the flag was computed before (:101-105). -/
def SlcAct.run (p : SlcWorld) : SlcAct → SlcWorld
  | .lib a => { p with w := a.run p.w, held := a.heldAfter p.w p.held }
  | .make ops => { p with slices := p.slices ++ [ops] }
  | .assign i k o =>
    { p with slices := p.slices.modify i (·.set k o), w := p.refresh i (((p.slices[i]?).getD []).set k o) }
  | .set r i => { p with w := p.w.setOutputs r ((p.slices[i]?).getD []), held := fun q => if q = r then some i else p.held q }

/-- When a program can do it (as `Act.ok`; api/logger_api.go:74-105): outputs and loggers exist, indexes are in range. -/
def SlcAct.ok (p : SlcWorld) : SlcAct → Prop
  | .lib a => a.ok p.w
  | .make ops => ∀ o ∈ ops, o < p.w.mgr.oheap.length
  | .assign i k o => (∃ ops, p.slices[i]? = some ops ∧ k < ops.length) ∧ o < p.w.mgr.oheap.length
  | .set r i => r < p.w.heap.length ∧ ∃ ops, p.slices[i]? = some ops ∧ ∀ o ∈ ops, o < p.w.mgr.oheap.length

/-- Histories of these (api/logger_api.go:74-105). -/
inductive SlcSteps : SlcWorld → List SlcAct → SlcWorld → Prop
  | refl (p) : SlcSteps p [] p
  | tail {p p' as a} : SlcSteps p as p' → a.ok p' → SlcSteps p (as ++ [a]) (a.run p')

end Log4g
