import Verif.Spec.Output
import Verif.Model.Standard
import Verif.Spec.World
import Verif.Spec.Format

/-! # Specification vocabulary for programs that use the library as it comes -/

namespace Log4g.Spec

/-- One of the three details of caller information: nothing, file and line, package and function too. -/
def Detail (flag : Int) : Prop := flag = 0 ∨ flag = 1 ∨ flag = 2

/-- The program does not replace formatter or output types of the library, and formatters and outputs of its own ask
for one of the three details. -/
def Proper : Act → Prop
  | .registerFormatter t f => t ≠ c!"text" ∧ ∀ k cfg v, f k cfg = .ok v → Detail v
  | .registerOutput t _ => t ∉ [c!"console", c!"memory", c!"size_rolling_file", c!"time_rolling_file", c!"syslog"]
  | .userOutput flag => Detail flag
  | _ => True

/-- The program has made the calls `as` since the library's `init`, and is now in `w`. -/
structure Program (up : Nat → Bool) (as : List Act) (w : World) : Prop where
  steps : Steps {} (initActs up ++ as) w
  proper : ∀ a ∈ as, Proper a

/-- `o` is a console output made by the manager, synchronous, with threshold `t`, whose formatter is a text formatter
with the layout `layout`. -/
structure TextConsole (w : World) (o : Nat) (t : Level) (layout : Str) : Prop where
  made : ∃ cfg i fo, w.mgr.oheap[o]? = some ⟨.managed cfg, some i⟩ ∧ cfg.at c!"type" = c!"console" ∧
    cfg.at c!"async" ≠ c!"true" ∧ ThresholdNamed (cfg.at c!"threshold") t ∧
    w.mgr.fheap[i]? = some fo ∧ fo.cfg.at c!"type" = c!"text" ∧ fo.cfg.at c!"layout" = layout

/-- The caller information `ci` is right, as far as the pieces of a layout show it, about a call made in frame `fr`. -/
structure Site (fr : Frame) (ci : CallerInfo) (ps : List Piece) : Prop where
  file : (∃ v sp, .verb v sp ∈ ps ∧ v ∈ fileVerbs ++ funcVerbs) → ci.file = fr.file ∧ ci.line = fr.line
  func : (∃ v sp, .verb v sp ∈ ps ∧ v ∈ funcVerbs) →
    (∀ pkg fun_, QualName fr.func pkg fun_ → ci.pkg = pkg ∧ ci.fun_ = fun_) ∧
    ((∀ pkg fun_, ¬ QualName fr.func pkg fun_) → ci.pkg = c!"???" ∧ ci.fun_ = c!"???")

/-- `o` is not a console: the manager made it of another type, or the user made it. -/
def NoConsole (w : World) (o : Nat) : Prop :=
  (∃ cfg f, w.mgr.oheap[o]? = some ⟨.managed cfg, f⟩ ∧ cfg.at c!"type" ≠ c!"console") ∨ ∃ flag f, w.mgr.oheap[o]? = some ⟨.user flag, f⟩

/-- What is printed of one event of level `lvl`, if these are its receivers: synchronous console outputs with these
thresholds and layouts, and others (`none`), which are no consoles.  The consoles whose threshold lets it pass print one
line each, in order. -/
inductive Printed {V : Type} (lib : Lib V) (fr : Frame) (e : Event V) (lvl : Level) : List (Option (Level × Str)) → List Bytes → Prop
  | nil : Printed lib fr e lvl [] []
  | other {rest out} : Printed lib fr e lvl rest out → Printed lib fr e lvl (none :: rest) out
  | quiet {t layout rest out} : lvl < t → Printed lib fr e lvl rest out → Printed lib fr e lvl (some (t, layout) :: rest) out
  | line {t layout rest out ps ci text} : t ≤ lvl → Cut layout ps → Site fr ci ps → Line lib e ci ps text →
      Printed lib fr e lvl rest out → Printed lib fr e lvl (some (t, layout) :: rest) (utf8 text :: out)

/-- The pieces of the layout the library starts with. -/
def initPieces : List Piece :=
  [.verb c!"time" none, .lit c!"|", .verb c!"level" (some c!"-5s"), .lit c!"|", .verb c!"pid" (some c!"6d"), .lit c!"|",
   .verb c!"module" none, .lit c!" >> ", .verb c!"msg" none, .lit c!" (", .verb c!"longfunc" none, .lit c!"@",
   .verb c!"longpkg" none, .lit c!"/", .verb c!"shortfile" none, .lit c!":", .verb c!"line" none, .lit c!") \n"]

/-- The program only calls `GetLogger` and `SetCallerSkip`. -/
def Asks : Act → Prop
  | .getLogger _ => True
  | .setCallerSkip _ _ => True
  | _ => False

/-- The message of a log call: with arguments and a format, what `Sprintf` makes of them; with arguments only, what
`Sprint` makes of them; without arguments the format. -/
inductive Message {V : Type} (lib : Lib V) : Option Str → List V → Str → Prop
  | formatted {f args} : f ≠ [] → args ≠ [] → Message lib (some f) args (lib.sprintf f (args.map fun v => .any (.user v)))
  | printed {fmt args} : fmt = none ∨ fmt = some [] → args ≠ [] → Message lib fmt args (lib.sprint args)
  | bare {f} : Message lib (some f) [] f
  | nothing : Message lib none [] []

end Log4g.Spec
