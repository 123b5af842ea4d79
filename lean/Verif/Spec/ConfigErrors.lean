import Verif.Model.ConfigErrors
import Verif.Spec.Config

/-! # What can be wrong with a configuration -/

namespace Log4g.Spec

/-- An output named `n` is defined. -/
def HasOutput (cfg : Config) (n : Str) : Prop := ∃ o ∈ cfg.outputs, nameIn o = n

/-- The outputs `os` have different names and formats that are defined. -/
def SoundOutputs (cfg : Config) (os : List CfgMap) : Prop := (os.map nameIn).Nodup ∧ ∀ o ∈ os, ∃ f ∈ cfg.formats, nameIn f = formatIn o

/-- The first thing that is wrong with a configuration, where the formats are looked at first, then the outputs, then the loggers, each in the order of
the configuration: a format or output with the name of an earlier one, an output whose format is not defined, a logger with an output that is not defined. -/
inductive FirstFault (cfg : Config) : MgrErr → Prop
  | format {pre f post} : cfg.formats = pre ++ f :: post → (pre.map nameIn).Nodup → (∃ f' ∈ pre, nameIn f' = nameIn f) →
      FirstFault cfg (.dupFormat (nameIn f))
  | output {pre o post} : (cfg.formats.map nameIn).Nodup → cfg.outputs = pre ++ o :: post → SoundOutputs cfg pre → (∃ o' ∈ pre, nameIn o' = nameIn o) →
      FirstFault cfg (.dupOutput (nameIn o))
  | outputFormat {pre o post} : (cfg.formats.map nameIn).Nodup → cfg.outputs = pre ++ o :: post → SoundOutputs cfg pre → (∀ o' ∈ pre, nameIn o' ≠ nameIn o) →
      (∀ f ∈ cfg.formats, nameIn f ≠ formatIn o) → FirstFault cfg (.outputFormatMissing (formatIn o) (nameIn o))
  | loggerOutput {pre l post ns n ns'} : (cfg.formats.map nameIn).Nodup → SoundOutputs cfg cfg.outputs → cfg.loggers = pre ++ l :: post →
      (∀ l' ∈ pre, ∀ n' ∈ l'.outputNames, HasOutput cfg n') → l.outputNames = ns ++ n :: ns' → (∀ n' ∈ ns, HasOutput cfg n') → ¬ HasOutput cfg n →
      FirstFault cfg (.loggerOutputMissing n l.name)

/-- The names an error is about; those of creators have none. -/
def namesIn : MgrErr → List Str
  | .noLogger n | .noOutput n | .noFormat n | .noFormatCreator n | .noOutputCreator n | .dupFormat n | .dupOutput n | .dupLogger n => [n]
  | .outputFormatMissing f o => [f, o]
  | .loggerOutputMissing o l => [o, l]
  | .formatCreator _ | .outputCreator _ => []

end Log4g.Spec
