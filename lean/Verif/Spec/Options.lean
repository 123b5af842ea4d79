import Verif.Spec.Level
import Verif.Spec.Numbers
import Verif.Model.Standard

/-! # What the options of an output mean — the list of the README -/

namespace Log4g.Spec
open Strconv

/-- A number option: a decimal number between 1 and the maximum is taken as it is, a larger one (and a text that
begins with more digits than 64 bits hold) is the maximum, everything else the default. -/
def NumberOption (dflt max : Int) (s : Str) (v : Int) : Prop :=
  (∃ n, Decimal s n ∧ 1 ≤ n ∧ n ≤ max ∧ v = n) ∨
  (((∃ n, Decimal s n ∧ max < n) ∨ (NotDecimal s ∧ (Overlong [] s ∨ Overlong ['+'] s))) ∧ v = max) ∨
  (((∃ n, Decimal s n ∧ n < 1) ∨ (NotDecimal s ∧ ¬ Overlong [] s ∧ ¬ Overlong ['+'] s)) ∧ v = dflt)

/-- A path is the directory `dir` and in it the file `name`. -/
def FileIn (path dir name : Str) : Prop :=
  '/' ∉ name ∧ ((path = name ∧ dir = c!".") ∨ ∃ d, path = d ++ c!"/" ++ name ∧ dir = d ++ c!"/")

/-- How an output sends: through a queue if the option `async` is "true", and else directly. -/
def SendsAs (m : CfgMap) (k : ConsoleKind) : Prop :=
  (m.at c!"async" ≠ c!"true" ∧ ∃ t, k = .sync t ∧ ThresholdNamed (m.at c!"threshold") t) ∨
  (m.at c!"async" = c!"true" ∧ ∃ t q b, k = .async t q b ∧ ThresholdNamed (m.at c!"threshold") t ∧
    NumberOption 1000 100000 (m.at c!"queue_size") q ∧ NumberOption 20 500 (m.at c!"batch_num") b)

/-- The files of a rolling output. -/
def RollsAs (m : CfgMap) (c : RCfg) : Prop :=
  FileIn (m.at c!"file") c.dirPath c.fileName ∧
  NumberOption 5 20 (m.at c!"backups") c.maxRolls ∧
  (c.mode = .pre ↔ m.at c!"name_mode" = c!"prefix") ∧
  (c.archive = .zip ↔ m.at c!"archive" = c!"zip") ∧ (c.archive = .gzip ↔ m.at c!"archive" = c!"gzip")

end Log4g.Spec
