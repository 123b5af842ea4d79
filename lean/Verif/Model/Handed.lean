import Verif.Model.World

/-! # A `Config` that is changed after it was handed over — `internal/logger_manager.go:128-140`

`SetConfig` takes a pointer, and the manager keeps it (internal/logger_manager.go:134).  Here a program has `Config`
objects, changes them and passes them to `SetConfig`.

Simplification: no two objects share a map or slice. -/

namespace Log4g

/-- The library (internal/logger_manager.go:21-29, internal/logger_factory.go:16-21), the `Config` objects of the program,
and the one the manager's `config` field points to (`none`: one the program does not hold). -/
structure PtrWorld where
  w : World := {}
  conf : Nat → Config := fun _ => {}
  cur : Option Nat := none

/-- What a program does: any call of the library (a `Config` given to `SetConfig` here is not used for anything else), a
change of one of its objects, and `SetConfig` with such an object.  (api/logger_mange.go:14-39) -/
inductive PtrAct
  | lib (a : Act)
  | change (i : Nat) (c : Config)
  | set (i : Nat) (order : List Nat)

/-- The configuration a call of the library sets — internal/logger_manager.go:105-126, 185-187. -/
def Act.config : Act → Option Config
  | .setConfig cfg _ => some cfg
  | .loadConfig d bs ext _ => some (decoded d bs ext)
  | .loadConfigFile d file (some bs) _ => match World.pathExt file with
    | [] => none
    | _ :: ext => some (decoded d bs ext)
  | _ => none
where
  /-- What `LoadConfig` decodes — internal/logger_manager.go:115-123. -/
  decoded (d : World.Decoders) (bs : Bytes) (ext : Str) : Config :=
    let ext := World.lowerExt ext
    if ext = c!"yaml" ∨ ext = c!"yml" then (d.yaml bs).1
    else if ext = c!"json" then (d.json bs).1
    else {}

/-- The effect of each.  The manager reads the object it points to whenever it needs the configuration
(internal/logger_manager.go:57, 64, 69); `SetConfig` has it point to the new one if that is consistent (:129-135). -/
def PtrAct.run (p : PtrWorld) : PtrAct → PtrWorld
  | .lib a => { p with
      w := a.run p.w
      cur := match a.config with
        | some c => if validateConfig c = none then none else p.cur
        | none => p.cur }
  | .change i c => { p with
      conf := fun j => if j = i then c else p.conf j
      w := if p.cur = some i then { p.w with mgr := { p.w.mgr with config := c } } else p.w }
  | .set i order => { p with
      w := (p.w.setConfig (p.conf i) order).2
      cur := if validateConfig (p.conf i) = none then some i else p.cur }

/-- When a program can do it (as `Act.ok`; api/logger_api.go:74-105). -/
def PtrAct.ok (p : PtrWorld) : PtrAct → Prop
  | .lib a => a.ok p.w
  | .change _ _ => True
  | .set _ order => order.Perm (p.w.loggers.map (·.2))

/-- Histories of these (api/logger_mange.go:14-39). -/
inductive PtrSteps : PtrWorld → List PtrAct → PtrWorld → Prop
  | refl (p) : PtrSteps p [] p
  | tail {p p' as a} : PtrSteps p as p' → a.ok p' → PtrSteps p (as ++ [a]) (a.run p')

end Log4g
