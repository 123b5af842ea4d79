import Verif.Model.Archive

/-! # Specification vocabulary for archives -/

namespace Log4g.Spec
open Archive

/-- A reader at the start of an archive with the entries `es`; a gzip file is an archive with one entry. -/
inductive Fresh : Reader → List Entry → Prop
  | tar {es} : Fresh (.tar es []) es
  | zip {es} : Fresh (.zip es none []) es
  | gzip {name data} : Fresh (.gzip name false data) [{ name, data }]
  | nop {r es} : Fresh r es → Fresh (.nop r) es

/-- The names and contents of entries. -/
def pairs (es : List Entry) : List (Str × Bytes) := es.map fun e => (e.name, e.data)

/-- The names and contents a writer has received. -/
def contents (w : Writer) : List (Str × Bytes) := w.parts.map fun p => (p.name, p.data)

/-- A writer that is ready for another file: all it has received is complete. -/
def Ready (w : Writer) : Prop := ∀ p ∈ w.parts, p.data.length = p.size

/-- The outcome of adding `new` to `old`: all of it if it succeeded; otherwise the first of them, the last perhaps in
part. -/
def Added (old new : List (Str × Bytes)) (ok : Bool) (got : List (Str × Bytes)) : Prop :=
  if ok = true then got = old ++ new
  else ∃ done rest last, new = done ++ rest ∧ got = old ++ done ++ last ∧
    (last = [] ∨ ∃ n bs k rest', rest = (n, bs) :: rest' ∧ last = [(n, bs.take k)])

/-- Nothing fails. -/
def NoFaults (faults : Faults) : Prop := ∀ i, faults i = none

end Log4g.Spec
