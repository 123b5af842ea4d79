import Verif.Model.Manager

/-! # Specification of configurations -/

namespace Log4g.Spec

/-- The name of a format or output: what its map has under `name` (nothing is the empty text). -/
def nameIn (c : CfgMap) : Str := c.at c!"name"

/-- The type of a format or output: what its map has under `type`. -/
def typeIn (c : CfgMap) : Str := c.at c!"type"

/-- The name of the format of an output: what its map has under `format`. -/
def formatIn (c : CfgMap) : Str := c.at c!"format"

/-- `c` is the first entry of `l` with name `n`. -/
def FirstEntry (l : List CfgMap) (n : Str) (c : CfgMap) : Prop :=
  ∃ pre post, l = pre ++ c :: post ∧ nameIn c = n ∧ ∀ x ∈ pre, nameIn x ≠ n

/-- `e` is the first logger entry of `cfg` with name `n`. -/
def FirstLogger (cfg : Config) (n : Str) (e : CfgLogger) : Prop :=
  ∃ pre post, cfg.loggers = pre ++ e :: post ∧ e.name = n ∧ ∀ x ∈ pre, x.name ≠ n

/-- The configuration has no logger entry named `n`. -/
def NoLogger (cfg : Config) (n : Str) : Prop := ∀ e ∈ cfg.loggers, e.name ≠ n

/-- The output `n` is defined, so is its format, both types are registered, and their creators
accept these definitions whenever they are called. -/
def Creatable (m : Manager) (n : Str) : Prop :=
  ∃ oc fc fcr ocr, FirstEntry m.config.outputs n (some oc) ∧
    FirstEntry m.config.formats (formatIn (some oc)) (some fc) ∧
    Map.get m.fmtCreators (typeIn (some fc)) = some fcr ∧ (∀ k, ∃ flag, fcr k (some fc) = .ok flag) ∧
    Map.get m.outCreators (typeIn (some oc)) = some ocr ∧ (∀ k, ocr k (some oc) = .ok ())

/-- A configuration without contradictions (the condition of C17). -/
structure Consistent (cfg : Config) : Prop where
  formats : (cfg.formats.map nameIn).Nodup
  outputs : (cfg.outputs.map nameIn).Nodup
  outputFormats : ∀ o ∈ cfg.outputs, ∃ f ∈ cfg.formats, nameIn f = formatIn o
  loggerOutputs : ∀ l ∈ cfg.loggers, ∀ n ∈ l.outputNames, ∃ o ∈ cfg.outputs, nameIn o = n

/-- `o` is an instance the manager made for an output definition named `n`. -/
def InstanceOf (m : Manager) (n : Str) (o : Nat) : Prop :=
  ∃ cfg f, m.oheap[o]? = some ⟨.managed cfg, f⟩ ∧ nameIn cfg = n

/-- `ops` are instances of the outputs `names`, one per name, in order. -/
def OutputsNamed (m : Manager) (names : List Str) (ops : List Nat) : Prop :=
  names.length = ops.length ∧ ∀ (i : Nat) n o, names[i]? = some n → ops[i]? = some o → InstanceOf m n o

/-- The first entry named `n` in `l` is missing (or is a nil map). -/
def Missing (l : List CfgMap) (n : Str) : Prop := ∀ c, ¬ FirstEntry l n (some c)

/-- The output `n` and its format are defined and their types are registered. -/
def Defined (m : Manager) (n : Str) : Prop :=
  ∃ oc fc, FirstEntry m.config.outputs n (some oc) ∧
    FirstEntry m.config.formats (formatIn (some oc)) (some fc) ∧
    Map.get m.fmtCreators (typeIn (some fc)) ≠ none ∧ Map.get m.outCreators (typeIn (some oc)) ≠ none

/-- Why the output `n` cannot be had. -/
inductive Obstacle (m : Manager) (n : Str) : MgrErr → Prop
  | noOutput : Missing m.config.outputs n → Obstacle m n (.noOutput n)
  | noFormat {oc} : FirstEntry m.config.outputs n (some oc) →
      Missing m.config.formats (formatIn (some oc)) → Obstacle m n (.noFormat (formatIn (some oc)))
  | noFormatCreator {oc fc} : FirstEntry m.config.outputs n (some oc) →
      FirstEntry m.config.formats (formatIn (some oc)) (some fc) →
      Map.get m.fmtCreators (typeIn (some fc)) = none → Obstacle m n (.noFormatCreator (typeIn (some fc)))
  | formatCreator {oc fc cr k e} : FirstEntry m.config.outputs n (some oc) →
      FirstEntry m.config.formats (formatIn (some oc)) (some fc) →
      Map.get m.fmtCreators (typeIn (some fc)) = some cr → cr k (some fc) = .error e → Obstacle m n (.formatCreator e)
  | noOutputCreator {oc fc} : FirstEntry m.config.outputs n (some oc) →
      FirstEntry m.config.formats (formatIn (some oc)) (some fc) →
      Map.get m.outCreators (typeIn (some oc)) = none → Obstacle m n (.noOutputCreator (typeIn (some oc)))
  | outputCreator {oc fc cr k e} : FirstEntry m.config.outputs n (some oc) →
      FirstEntry m.config.formats (formatIn (some oc)) (some fc) →
      Map.get m.outCreators (typeIn (some oc)) = some cr → cr k (some oc) = .error e → Obstacle m n (.outputCreator e)

end Log4g.Spec
