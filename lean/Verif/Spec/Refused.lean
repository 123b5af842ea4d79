import Verif.Spec.Standard
import Verif.Spec.Config

/-! # Specification of outputs that cannot be made -/

namespace Log4g.Spec

/-- The output `k` is defined, there is no instance of it yet, and the creator of its type refuses to make one. -/
def Refused (m : Manager) (k : Str) : Prop :=
  ∃ oc cr, FirstEntry m.config.outputs k (some oc) ∧ Map.get m.outCreators (typeIn (some oc)) = some cr ∧
    (∀ i, ∃ e, cr i (some oc) = .error e) ∧ ∀ o, ¬ InstanceOf m k o

/-- The definition of the output `k` is one the library can carry out: it is of a type of the library, and if that is
syslog, the daemon answers; its format is a text format with a verb in its layout. -/
def Sound (up : Nat → Bool) (cfg : Config) (k : Str) : Prop :=
  ∃ oc fc, FirstEntry cfg.outputs k (some oc) ∧
    (CfgMap.at (some oc) c!"type" ∈ [c!"console", c!"memory", c!"size_rolling_file", c!"time_rolling_file"] ∨
      CfgMap.at (some oc) c!"type" = c!"syslog" ∧ ∀ i, up i = true) ∧
    FirstEntry cfg.formats (CfgMap.at (some oc) c!"format") (some fc) ∧ CfgMap.at (some fc) c!"type" = c!"text" ∧
    ∃ pre name spec post, VerbOK name spec ∧ CfgMap.at (some fc) c!"layout" = pre ++ verbText name spec ++ post

/-- The logger named `n` has neither a level nor outputs of its own. -/
def Unset (w : World) (n : Str) : Prop := ∃ l, loggerAt w n = some l ∧ l.level = 0 ∧ l.outputs = []

end Log4g.Spec
