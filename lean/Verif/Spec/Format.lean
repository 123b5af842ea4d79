import Verif.Model.Format
import Verif.Spec.Level

/-! # Specification vocabulary for layouts -/

namespace Log4g.Spec

/-- A piece of a layout. -/
inductive Piece
  | lit (text : Str)
  | verb (name : Str) (spec : Option Str)
  deriving DecidableEq

/-- A letter or digit. -/
def NameChar (c : Char) : Prop :=
  (97 ≤ c.toNat ∧ c.toNat ≤ 122) ∨ (65 ≤ c.toNat ∧ c.toNat ≤ 90) ∨ (48 ≤ c.toNat ∧ c.toNat ≤ 57)

/-- A verb: the name is made of letters and digits, the format (if there is one) has no newline except
perhaps at its end and does not end with a backslash. -/
structure VerbOK (name : Str) (spec : Option Str) : Prop where
  ne : name ≠ []
  chars : ∀ c ∈ name, NameChar c
  spec : ∀ sp, spec = some sp → ∃ x c, sp = x ++ [c] ∧ '\n' ∉ x ∧ c ≠ '\\'

/-- How a verb is written: `%{name}` or `%{name:format}`. -/
def verbText (name : Str) : Option Str → Str
  | none => c!"%{" ++ name ++ c!"}"
  | some sp => c!"%{" ++ name ++ c!":" ++ sp ++ c!"}"

/-- How a piece is written. -/
def Piece.text : Piece → Str
  | .lit s => s
  | .verb n sp => verbText n sp

/-- How a list of pieces is written. -/
def written (ps : List Piece) : Str := ps.flatMap Piece.text

/-- A verb is written in `s` behind the first `k` characters. -/
def VerbAt (s : Str) (k : Nat) (name : Str) (spec : Option Str) : Prop :=
  VerbOK name spec ∧ ∃ pre post, s = pre ++ verbText name spec ++ post ∧ pre.length = k

/-- A verb is written somewhere in `s`. -/
def HasVerb (s : Str) : Prop := ∃ k name spec, VerbAt s k name spec

/-- A literal piece, unless it is empty. -/
def litOf (s : Str) : List Piece := if s = [] then [] else [.lit s]

/-- The pieces of a layout: always take the leftmost verb, and there the shortest one. -/
inductive Cut : Str → List Piece → Prop
  | lit {s} : ¬ HasVerb s → Cut s (litOf s)
  | verb {pre name spec rest ps} : VerbOK name spec →
      (∀ k n sp, VerbAt (pre ++ verbText name spec ++ rest) k n sp →
        pre.length ≤ k ∧ (k = pre.length → (verbText name spec).length ≤ (verbText n sp).length)) →
      Cut rest ps → Cut (pre ++ verbText name spec ++ rest) (litOf pre ++ .verb name spec :: ps)

/-- A list of pieces as a careful user writes it: literals are not empty, not adjacent and do not contain
`%{`, formats contain `}` only behind a backslash. -/
inductive Careful : List Piece → Prop
  | nil : Careful []
  | lit {s ps} : s ≠ [] → (∀ a b, s ≠ a ++ c!"%{" ++ b) → (∀ t qs, ps ≠ .lit t :: qs) → Careful ps → Careful (.lit s :: ps)
  | verb {name spec ps} : VerbOK name spec →
      (∀ sp, spec = some sp → '\n' ∉ sp ∧ ∀ a b, sp = a ++ '}' :: b → ∃ a', a = a' ++ ['\\']) →
      Careful ps → Careful (.verb name spec :: ps)

/-- The piece of the layout a part of a parsed layout stands for. -/
def pieceOf (p : Part) : Piece :=
  match p.verbType with
  | .static => .lit p.fmtStr
  | .time => .verb p.verbName (some p.layout)
  | _ => .verb p.verbName (if p.fmtStr = [] then none else some p.fmtStr.tail)

/-- The built-in verbs. -/
def builtins : List Str :=
  [c!"pid", c!"program", c!"module", c!"msg", c!"level", c!"lvl", c!"line", c!"longfile", c!"shortfile",
   c!"longpkg", c!"shortpkg", c!"longfunc", c!"shortfunc", c!"time"]

/-- The verbs that need the file and line of the caller, and those that need its function. -/
def fileVerbs : List Str := [c!"line", c!"longfile", c!"shortfile"]
def funcVerbs : List Str := [c!"longpkg", c!"shortpkg", c!"longfunc", c!"shortfunc"]

/-- The part of a string behind the last `c`; all of it if there is none. -/
def LastPart (c : Char) (s t : Str) : Prop := c ∉ t ∧ (t = s ∨ ∃ a, s = a ++ c :: t)

/-- The last element of a path: slashes at its end do not count, a path of slashes only is "/", and the empty path ".". -/
inductive BaseName : Str → Str → Prop
  | empty : BaseName [] c!"."
  | slashes {p} : p ≠ [] → (∀ c ∈ p, c = '/') → BaseName p c!"/"
  | element {p b sl} : b ≠ [] → LastPart '/' p b → (∀ c ∈ sl, c = '/') → BaseName (p ++ sl) b

/-- The message of an event: the format if there are no arguments, else what `Sprintf` makes of format and
arguments, or `Sprint` of the arguments if there is no format. -/
def messageText {V : Type} (lib : Lib V) (e : Event V) : Str :=
  match e.arguments, e.format with
  | [], f => f
  | v :: vs, [] => lib.sprint (v :: vs)
  | v :: vs, c :: f => lib.sprintf (c :: f) ((v :: vs).map fun v => .any (.user v))

/-- The value of a verb without regard to its format, for an event with the caller information `ci`. -/
inductive Value {V : Type} (lib : Lib V) (e : Event V) (ci : CallerInfo) : Str → Arg V → Prop
  | pid : Value lib e ci c!"pid" (.int lib.pid)
  | program : Value lib e ci c!"program" (.str lib.program)
  | module_ : Value lib e ci c!"module" (.str e.name)
  | msg : Value lib e ci c!"msg" (.str (messageText lib e))
  | level : Value lib e ci c!"level" (.str (longName e.level))
  | lvl : Value lib e ci c!"lvl" (.str (shortName e.level))
  | line : Value lib e ci c!"line" (.int ci.line)
  | longfile : Value lib e ci c!"longfile" (.str ci.file)
  | shortfile {s} : BaseName ci.file s → Value lib e ci c!"shortfile" (.str s)
  | longpkg : Value lib e ci c!"longpkg" (.str ci.pkg)
  | shortpkg {s} : BaseName ci.pkg s → Value lib e ci c!"shortpkg" (.str s)
  | longfunc : Value lib e ci c!"longfunc" (.str ci.fun_)
  | shortfunc {s} : LastPart '.' ci.fun_ s → Value lib e ci c!"shortfunc" (.str s)
  | time : Value lib e ci c!"time" (.str (lib.timeFormat e.time c!"2006-01-02T15:04:05.000Z07:00"))
  | field {n} : n ∉ builtins → Value lib e ci n (.any (e.ctx.value n))

/-- A value printed without format: strings as they are, anything else as `%v`. -/
inductive Plain {V : Type} (lib : Lib V) : Arg V → Str → Prop
  | str {s} : Plain lib (.str s) s
  | userStr {v s} : lib.asString v = some s → Plain lib (.any (.user v)) s
  | other {a} : (∀ s, a ≠ .str s) → (∀ v s, a = .any (.user v) → lib.asString v ≠ some s) → Plain lib a (lib.sprintf c!"%v" [a])

/-- What a piece contributes to the line. -/
inductive Prints {V : Type} (lib : Lib V) (e : Event V) (ci : CallerInfo) : Piece → Str → Prop
  | lit {s} : Prints lib e ci (.lit s) s
  | plain {n a s} : Value lib e ci n a → Plain lib a s → Prints lib e ci (.verb n none) s
  | time {sp} : Prints lib e ci (.verb c!"time" (some sp)) (lib.timeFormat e.time sp)
  | fmt {n sp a} : n ≠ c!"time" → Value lib e ci n a → Prints lib e ci (.verb n (some sp)) (lib.sprintf ('%' :: sp) [a])

/-- The line is what the pieces contribute, in order. -/
inductive Line {V : Type} (lib : Lib V) (e : Event V) (ci : CallerInfo) : List Piece → Str → Prop
  | nil : Line lib e ci [] []
  | cons {p ps s t} : Prints lib e ci p s → Line lib e ci ps t → Line lib e ci (p :: ps) (s ++ t)

end Log4g.Spec

namespace Log4g.Spec

/-- The event carries what the verbs of the layout need to know about the caller. -/
structure Informed {V : Type} (e : Event V) (ci : CallerInfo) (ps : List Piece) : Prop where
  file : (∃ n sp, .verb n sp ∈ ps ∧ n ∈ fileVerbs ++ funcVerbs) → e.ctx.value c!"__caller_info" = .ci ci
  func : (∃ n sp, .verb n sp ∈ ps ∧ n ∈ funcVerbs) → ci.pkg ≠ [] ∨ ci.pcName = none

end Log4g.Spec
