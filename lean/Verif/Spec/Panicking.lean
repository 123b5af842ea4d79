import Verif.Model.Panicking
import Verif.Spec.Output

/-! # Specification vocabulary for formatters and outputs that panic -/

namespace Log4g.Spec
open World
variable {V : Type}

/-- The output panics when it is sent the event: a formatter that panics for an accepted event, or an output of the user's own that panics. -/
def Panics : ShakyOut V → Event V → Bool
  | .base _ (some g) t, e => decide (t ≤ e.level) && (g e).isNone
  | .syslog _ (some g) t, e => decide (t ≤ e.level) && (g e).isNone
  | .own _ p, e => p e
  | _, _ => false

/-- The events a log call gets to output `o`: those of its deliveries that come before the first one that panics. -/
def reaching (os : ShakyOuts V) (o : Nat) (oc : Outcome V) : List (Event V) :=
  ((oc.deliveries.takeWhile fun d => !Panics (os d.out) d.evt).filter fun d => d.out = o).map (·.evt)

/-- The formatter, where it does not panic. -/
def whole (f : Option (Shaky V)) : Option (Formatter V) := f.map fun g e => (g e).getD []

/-- What is handed to syslog for events: each with the severity of its level; other levels are left out. -/
inductive ToSyslog (lib : Lib V) (f : Option (Formatter V)) : List (Event V) → List SysCall → Prop
  | nil : ToSyslog lib f [] []
  | known {es cs e call} : ToSyslog lib f es cs → Severity e.level call →
      ToSyslog lib f (es ++ [e]) (cs ++ [call (match f with | some g => g e | none => utf8 (messageText lib e))])
  | unknown {es cs e} : ToSyslog lib f es cs → (∀ call, ¬ Severity e.level call) → ToSyslog lib f (es ++ [e]) cs

/-- Output `new` is what `old` becomes by getting `es`, none of which makes it panic. -/
def Gets (lib : Lib V) (old : ShakyOut V) (es : List (Event V)) (new : ShakyOut V) : Prop :=
  match old with
  | .base w f t => new = .base (w ++ (accepted t es).map (textOf lib (whole f))) f t
  | .syslog w f t => ∃ calls, new = .syslog (w ++ calls) f t ∧ ToSyslog lib (whole f) (accepted t es) calls
  | .own got p => new = .own (got ++ es) p

end Log4g.Spec
