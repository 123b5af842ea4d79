import Verif.Spec.Without
import Verif.Lemmas.Unused
import Verif.Lemmas.World

/-! # Helpers for C140 -/

namespace Log4g
open Spec World

theorem without_consistent {c : Config} (h : Consistent c) (ns : List Str) : Consistent (without c ns) :=
  ⟨h.formats, h.outputs, h.outputFormats, fun l hl => h.loggerOutputs l (List.mem_filter.mp hl).1⟩

theorem without_agree (c : Config) (ns : List Str) : AnswersOn (· ∉ ns) (without c ns) c := by
  refine ⟨fun _ _ _ _ => ⟨rfl, rfl⟩, fun n hn => ?_⟩
  simp only [Config.getCfgLogger, without, List.find?_filter]
  congr 1
  funext l
  by_cases e : l.name = n
  · simp [e, hn]
  · simp [e]

end Log4g
