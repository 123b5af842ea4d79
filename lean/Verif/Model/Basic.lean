/-!
# Basic data of the model

Go strings are modelled as lists of characters (`Str`).  Simplification: invalid UTF-8 is not
represented.  All string operations of the code that the model covers cut strings at ASCII
characters, so byte offsets and character offsets cut at the same places.

Go maps are modelled as association lists (`Map`).  The iteration order of a Go map is not fixed;
wherever the code iterates over a map the model takes the order as an argument.
-/

namespace Log4g

/-- A Go string.  (For example api/logger_api.go:110.) -/
abbrev Str := List Char

/-- A Go byte slice.  (For example internal/output_base.go:149.) -/
abbrev Bytes := List UInt8

/-- `c!"abc"` is the character list `['a', 'b', 'c']`. -/
syntax:max "c!" str : term
macro_rules
  | `(c! $s:str) => do
    let cs := (s.getString.toList.map fun c => Lean.Syntax.mkCharLit c).toArray
    `(([$cs,*] : Str))

/-- A Go map with keys `κ` and values `α`, as an association list.  (For example internal/logger_manager.go:23-26.) -/
abbrev Map (κ α : Type) := List (κ × α)

namespace Map
variable {κ α : Type} [DecidableEq κ]

/-- `v, ok := m[k]`.  (For example internal/logger_manager.go:74.) -/
def get : Map κ α → κ → Option α
  | [], _ => none
  | (k', v) :: m, k => if k' = k then some v else get m k

/-- `m[k] = v`.  (For example internal/logger_manager.go:84.) -/
def set : Map κ α → κ → α → Map κ α
  | [], k, v => [(k, v)]
  | (k', v') :: m, k, v => if k' = k then (k', v) :: m else (k', v') :: set m k v

/-- The keys of a map.  (The loop of internal/logger_factory.go:93.) -/
def keys (m : Map κ α) : List κ := m.map (·.1)

/-- `_, ok := m[k]`.  (For example internal/logger_manager.go:147.) -/
def has (m : Map κ α) (k : κ) : Bool := (get m k).isSome

end Map

end Log4g
