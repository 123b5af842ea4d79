import Verif.Model.Syslog
import Verif.Spec.System

/-! # Specification vocabulary for messages to the syslog daemon -/

namespace Log4g.Spec
open Strconv
open scoped List
variable {V : Type}

/-- What the program did, without how the attempts to reach the daemon turned out. -/
def didOf (tr : List (PLab V × Dials)) : List (PLab V) := tr.map (·.1)

/-- The messages the daemon has got from output `o`, in order. -/
def gotFrom (o : Nat) (got : List (Nat × SysMsg)) : List SysMsg := (got.filter fun x => x.1 = o).map (·.2)

/-- A text that ends with a line break. -/
def lined (m : Bytes) : Bytes := if [10] <:+ m then m else m ++ [10]

/-- The message for a call: the number of its severity (the facility is that of the kernel, 0), the tag, the text. -/
def told (tag : Bytes) : SysCall → SysMsg
  | .debug m => ⟨7, tag, lined m⟩
  | .info m => ⟨6, tag, lined m⟩
  | .warning m => ⟨4, tag, lined m⟩
  | .err m => ⟨3, tag, lined m⟩
  | .crit m => ⟨2, tag, lined m⟩

/-- The tag of output `o`: its option `prefix`, or else the name under which the program was started. -/
def SysTag (args0 : Bytes) (w : World) (o : Nat) (tag : Bytes) : Prop :=
  ∃ cfg f, w.mgr.oheap[o]? = some ⟨.managed cfg, f⟩ ∧
    ((cfg.at c!"prefix" = [] ∧ tag = args0) ∨ (cfg.at c!"prefix" ≠ [] ∧ tag = utf8 (cfg.at c!"prefix")))

/-- Output `o` is a syslog output. -/
def IsSyslog (env : PEnv V) (w : World) (o : Nat) : Prop := ∃ ob t, w.mgr.oheap[o]? = some ob ∧ ob.kind env.tc = .syslog t

/-- A `Send` of output `o` in which the daemon cannot be reached anew. -/
def Unreached (o : Nat) (x : PLab V × Dials) : Bool :=
  match x.1 with
  | .plain _ p (.send _) => decide (p = o) && !(x.2.dial && x.2.fresh)
  | _ => false

/-- In how many calls of `Send` of output `o` the daemon could not be reached anew. -/
def unreached (o : Nat) (tr : List (PLab V × Dials)) : Nat := (tr.filter (Unreached o)).length

end Log4g.Spec
