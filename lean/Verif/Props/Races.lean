import Verif.Lemmas.RacesInfoInv
import Verif.Lemmas.RacesRun

/-! # Data races (C129) -/

namespace Log4g.Races
open Spec

/-! ## Sample programs -/

/-- A text format, one output, the root logger. -/
def raceCfg : Config where
  formats := [some [(c!"name", c!"f"), (c!"type", c!"text")]]
  outputs := [some [(c!"name", c!"o"), (c!"type", c!"out"), (c!"format", c!"f")]]
  loggers := [⟨c!"root", c!"debug", [c!"o"]⟩]

/-- The main goroutine registers the formatter and the output, sets the configuration and gets the root logger, number 0. -/
def raceSetup (sh : Shape) : List Do :=
  [.call (.user 0) (.registerFormatter c!"text" fun _ => some (.text [true])), .steps (.user 0) 99,
   .call (.user 0) (.registerOutput c!"out" fun _ => some sh), .steps (.user 0) 99,
   .config 0 raceCfg, .steps (.user 0) 99,
   .call (.user 0) (.getLogger []), .steps (.user 0) 99]

def raceInfo : Level := Level.levelFrom c!"info"

/-- Two goroutines log to a memory output. -/
def raceMemory : List Do :=
  raceSetup { sink := .memory } ++
    [.call (.user 1) (.log 0 raceInfo true), .steps (.user 1) 99, .call (.user 2) (.log 0 raceInfo true), .steps (.user 2) 99]

/-- The worker of an asynchronous output begins, a goroutine closes the manager. -/
def raceClose : List Do :=
  raceSetup { how := .async 4 2 } ++ [.call (.worker 0) (.begin 0), .steps (.worker 0) 99, .close 1, .steps (.user 1) 99]

/-- One goroutine logs, another sets the configuration again. -/
def raceConfig : List Do :=
  raceSetup {} ++ [.call (.user 1) (.log 0 raceInfo true), .steps (.user 1) 99, .config 2 raceCfg, .steps (.user 2) 99]

/-- One goroutine logs, another sets the level. -/
def raceLevel : List Do :=
  raceSetup {} ++ [.call (.user 1) (.log 0 raceInfo true), .steps (.user 1) 99, .call (.user 2) (.setLevel 0 raceInfo), .steps (.user 2) 99]

/-- One goroutine logs, another sets the formatter of the output. -/
def raceFormatter : List Do :=
  raceSetup {} ++ [.call (.user 0) (.getLoggerOutputs c!"root"), .steps (.user 0) 99,
    .call (.user 1) (.log 0 raceInfo true), .steps (.user 1) 99, .call (.user 2) (.setFormatter 0 none), .steps (.user 2) 99]

/-- Goroutines log, get loggers and close the manager while the worker of an asynchronous output is at work. -/
def raceNone : List Do :=
  raceSetup { how := .async 4 2 } ++
    [.call (.worker 0) (.begin 0), .steps (.worker 0) 99, .call (.user 1) (.log 0 raceInfo true), .steps (.user 1) 99,
     .call (.user 2) (.getLogger c!"a/b"), .steps (.user 2) 99, .call (.worker 0) (.event 0 0), .steps (.worker 0) 99,
     .call (.user 2) (.log 2 raceInfo true), .steps (.user 2) 99, .call (.worker 0) (.tick 0), .steps (.worker 0) 99,
     .call (.worker 0) (.event 0 1), .steps (.worker 0) 99, .close 1, .steps (.user 1) 99, .call (.worker 0) (.stop 0), .steps (.worker 0) 99,
     .steps (.user 1) 99]

/-- A configuration in which the root logger has three outputs, the first with a formatter of the program's own. -/
def callerCfg : Config where
  formats := [some [(c!"name", c!"f"), (c!"type", c!"text")], some [(c!"name", c!"g"), (c!"type", c!"own")]]
  outputs := [some [(c!"name", c!"o"), (c!"type", c!"out"), (c!"format", c!"g")],
    some [(c!"name", c!"p"), (c!"type", c!"out"), (c!"format", c!"f")], some [(c!"name", c!"q"), (c!"type", c!"out"), (c!"format", c!"f")]]
  loggers := [⟨c!"root", c!"debug", [c!"o", c!"p", c!"q"]⟩]

/-- The formatter answers `flag` to `CallerInfoFlag()`. -/
def callerSetup (flag : Int) : List Do :=
  [.call (.user 0) (.registerFormatter c!"text" fun _ => some (.text [true])), .steps (.user 0) 99,
   .call (.user 0) (.registerFormatter c!"own" fun _ => some (.user flag)), .steps (.user 0) 99,
   .call (.user 0) (.registerOutput c!"out" fun _ => some { how := .async 4 2 }), .steps (.user 0) 99,
   .config 0 callerCfg, .steps (.user 0) 99,
   .call (.user 0) (.getLogger []), .steps (.user 0) 199]

/-- A goroutine logs, and two workers format the event. -/
def raceCaller (flag : Int) : List Do :=
  callerSetup flag ++ [.call (.user 1) (.log 0 raceInfo true), .steps (.user 1) 99,
    .call (.worker 1) (.begin 1), .steps (.worker 1) 99, .call (.worker 2) (.begin 2), .steps (.worker 2) 99,
    .call (.worker 1) (.event 1 0), .steps (.worker 1) 99, .call (.worker 2) (.event 2 0), .steps (.worker 2) 99]

set_option maxRecDepth 100000

/-- What the sample programs do before other goroutines are started takes 54 or 55 steps, or 65. -/
example : (trace (raceSetup {})).length = 54 ∧ (trace (raceSetup { how := .async 4 2 })).length = 55 ∧ (trace (raceFormatter.take 10)).length = 65 := by decide +kernel

/-! ## The claim -/

/-- C129 does not hold: calls of the API from several goroutines race, even if nobody but the library sets formatters. -/
theorem C129_no_races_refuted :
    ¬ ∀ (user : Nat → Nat → Prop) (tr : List Entry) (s : State), Exec tr s → Obtained user tr → NoSetFormatter tr → ∀ l, ¬ Race user tr l := by
  intro h
  obtain ⟨s, hs⟩ := trace_exec raceConfig
  exact h (after 54) _ s hs (obtained_of (by decide +kernel)) (noSet_of (by decide +kernel)) (.level 0)
    (race_of (i := 57) (j := 91) (S := List.range' 57 18) (by decide +kernel))

/-- `SetConfig` races with log calls, on the level and on the outputs of the logger. -/
theorem C129_set_config_refuted :
    ∃ tr s, Exec tr s ∧ Obtained (after 54) tr ∧ NoSetFormatter tr ∧ (∀ a ∈ tr, ∀ r, sets a.task ≠ some r) ∧ Race (after 54) tr (.level 0) ∧ Race (after 54) tr (.ops 0) := by
  obtain ⟨s, hs⟩ := trace_exec raceConfig
  refine ⟨_, s, hs, obtained_of (by decide +kernel), noSet_of (by decide +kernel), ?_, race_of (i := 57) (j := 91) (S := List.range' 57 18) (by decide +kernel),
    race_of (i := 59) (j := 92) (S := List.range' 59 16) (by decide +kernel)⟩
  have : (trace raceConfig).all (fun a => (sets a.task).isNone) = true := by decide +kernel
  intro a ha r hr
  have := List.all_eq_true.mp this a ha
  rw [hr] at this
  cases this

/-- `SetLevel` races with log calls. -/
theorem C129_set_level_refuted : ∃ tr s, Exec tr s ∧ Obtained (after 54) tr ∧ NoSetFormatter tr ∧ Race (after 54) tr (.level 0) := by
  obtain ⟨s, hs⟩ := trace_exec raceLevel
  exact ⟨_, s, hs, obtained_of (by decide +kernel), noSet_of (by decide +kernel), race_of (i := 57) (j := 76) (S := List.range' 57 18) (by decide +kernel)⟩

/-- `SetFormatter` races with log calls. -/
theorem C129_set_formatter_refuted : ∃ tr s, Exec tr s ∧ Obtained (after 65) tr ∧ Ordered (after 65) tr ∧ Race (after 65) tr (.fmt 0) := by
  obtain ⟨s, hs⟩ := trace_exec raceFormatter
  exact ⟨_, s, hs, obtained_of (by decide +kernel), ordered_of (by decide +kernel), race_of (i := 82) (j := 87) (S := List.range' 82 4) (by decide +kernel)⟩

/-- Log calls to a memory output race with each other, on its buffer. -/
theorem C129_memory_refuted :
    ∃ tr s, Exec tr s ∧ Obtained (after 54) tr ∧ Ordered (after 54) tr ∧ NoSetFormatter tr ∧ Race (after 54) tr (.data 0) := by
  obtain ⟨s, hs⟩ := trace_exec raceMemory
  exact ⟨_, s, hs, obtained_of (by decide +kernel), ordered_of (by decide +kernel), noSet_of (by decide +kernel),
    race_of (i := 75) (j := 98) (S := [75, 76]) (by decide +kernel)⟩

/-- `Close` waits for the worker of an asynchronous output, which may not have said yet that there is something to wait for. -/
theorem C129_close_refuted :
    ∃ tr s, Exec tr s ∧ Obtained (after 55) tr ∧ Ordered (after 55) tr ∧ NoSetFormatter tr ∧ Race (after 55) tr (.wait 0) := by
  obtain ⟨s, hs⟩ := trace_exec raceClose
  exact ⟨_, s, hs, obtained_of (by decide +kernel), ordered_of (by decide +kernel), noSet_of (by decide +kernel),
    race_of (i := 56) (j := 64) (S := [56, 57]) (by decide +kernel)⟩

/-- If an output or formatter of the program's own answers 3 to `CallerInfoFlag()`, log calls no longer look up the caller, and the workers of asynchronous outputs
that want to know it race on the event. -/
theorem C129_caller_refuted :
    ∃ tr s, Exec tr s ∧ Obtained (after 91) tr ∧ Ordered (after 91) tr ∧ NoSetFormatter tr ∧ Race (after 91) tr (.ctx 0) ∧ Race (after 91) tr (.info 0) := by
  obtain ⟨s, hs⟩ := trace_exec (raceCaller 3)
  exact ⟨_, s, hs, obtained_of (by decide +kernel), ordered_of (by decide +kernel), noSet_of (by decide +kernel),
    race_of (i := 124) (j := 134) (S := List.range' 124 6) (by decide +kernel), race_of (i := 123) (j := 135) (S := List.range' 123 7) (by decide +kernel)⟩

/-- C129, partial: whatever a program does in however many goroutines, if it uses only loggers and outputs it was given,
if it calls neither `SetConfig` nor a setter of a logger while another goroutine logs (nor two such calls of which one is a setter at a time), and
leaves formatters alone, then the only races are those on the wait group of an asynchronous output, on the buffer of a
memory output, and on the caller information of an event.  Missing: programs that do otherwise, and these three; the code has these races. -/
theorem C129_races_partial {user : Nat → Nat → Prop} {tr : List Entry} {s : State} (h : Exec tr s) (hob : Obtained user tr) (hor : Ordered user tr)
    (hns : NoSetFormatter tr) {l : Loc} (hr : Race user tr l) : (∃ o, l = .wait o) ∨ (∃ o, l = .data o) ∨ (∃ e, l = .ctx e) ∨ ∃ e, l = .info e := by
  have := exec_safe h hob hor hns hr
  cases l <;> simp [exempt] at this ⊢

/-- A program in which goroutines log, get loggers and close the manager at the same time meets the hypotheses; its execution has 174 steps. -/
example : ∃ s, Exec (trace raceNone) s ∧ Obtained (after 55) (trace raceNone) ∧ Ordered (after 55) (trace raceNone) ∧ NoSetFormatter (trace raceNone) ∧
    (trace raceNone).length = 174 := by
  obtain ⟨s, hs⟩ := trace_exec raceNone
  exact ⟨s, hs, obtained_of (by decide +kernel), ordered_of (by decide +kernel), noSet_of (by decide +kernel), by decide +kernel⟩

/-- And so does the one that closes the manager, which has the race on the wait group. -/
example : ∃ o, Race (after 55) (trace raceClose) (.wait o) ∧ Obtained (after 55) (trace raceClose) ∧ Ordered (after 55) (trace raceClose) ∧ NoSetFormatter (trace raceClose) :=
  ⟨0, race_of (i := 56) (j := 64) (S := [56, 57]) (by decide +kernel), obtained_of (by decide +kernel), ordered_of (by decide +kernel), noSet_of (by decide +kernel)⟩

/-- C129, partial: if moreover all outputs answer 0, 1 or 2 to `CallerInfoFlag()`, as those of the library with a text formatter do, there are no races on caller information either:
all that is left are the wait group of an asynchronous output, in programs that call `Close`, and the buffer of a memory output that is not asynchronous. -/
theorem C129_known_flags_partial {user : Nat → Nat → Prop} {tr : List Entry} {s : State} (h : Exec tr s) (hob : Obtained user tr) (hor : Ordered user tr)
    (hns : NoSetFormatter tr) (hk : KnownFlags s) {l : Loc} (hr : Race user tr l) :
    (∃ o ord, l = .wait o ∧ ∃ a ∈ tr, a.task = .close ord) ∨ ∃ o, l = .data o ∧ o < s.nout ∧ (s.mem (.shape o)).how = .sync ∧ (s.mem (.shape o)).sink = .memory :=
  exec_known h hob hor hns hk hr

/-- C129, partial: so there is no race at all as long as nobody calls `Close` and there are no memory outputs but asynchronous ones. -/
theorem C129_none_partial {user : Nat → Nat → Prop} {tr : List Entry} {s : State} (h : Exec tr s) (hob : Obtained user tr) (hor : Ordered user tr)
    (hns : NoSetFormatter tr) (hk : KnownFlags s) (hc : ∀ a ∈ tr, ∀ ord, a.task ≠ .close ord)
    (hm : ∀ o, o < s.nout → (s.mem (.shape o)).how = .sync → (s.mem (.shape o)).sink ≠ .memory) (l : Loc) : ¬ Race user tr l := by
  intro hr
  rcases C129_known_flags_partial h hob hor hns hk hr with ⟨o, ord, -, a, h1, h2⟩ | ⟨o, -, h1, h2, h3⟩
  · exact hc a h1 ord h2
  · exact hm o h1 h2 h3

/-- The flags are known in the program that closes the manager. -/
example : Exec (trace raceNone) (final raceNone) ∧ KnownFlags (final raceNone) ∧ (final raceNone).nout = 1 := ⟨final_exec _, known_of (by decide +kernel), by decide +kernel⟩

/-- A program in which two workers format the same event, which wants the caller, meets the hypotheses: a formatter of its own answers 1. -/
example : Exec (trace (raceCaller 1)) (final (raceCaller 1)) ∧ Obtained (after 94) (trace (raceCaller 1)) ∧ Ordered (after 94) (trace (raceCaller 1)) ∧
    NoSetFormatter (trace (raceCaller 1)) ∧ KnownFlags (final (raceCaller 1)) ∧ (∀ a ∈ trace (raceCaller 1), ∀ ord, a.task ≠ .close ord) ∧
    (∀ o, o < (final (raceCaller 1)).nout → ((final (raceCaller 1)).mem (.shape o)).how = .sync → ((final (raceCaller 1)).mem (.shape o)).sink ≠ .memory) ∧
    (final (raceCaller 1)).nout = 3 ∧ (trace (raceCaller 1)).length = 143 := by
  refine ⟨final_exec _, obtained_of (by decide +kernel), ordered_of (by decide +kernel), noSet_of (by decide +kernel), known_of (by decide +kernel), ?_, ?_, by decide +kernel, by decide +kernel⟩
  · have : (trace (raceCaller 1)).all (fun a => match a.task with | .close _ => false | _ => true) = true := by decide +kernel
    intro a ha ord e
    have := List.all_eq_true.mp this a ha
    rw [e] at this
    cases this
  · have : (List.range (final (raceCaller 1)).nout).all (fun o => match ((final (raceCaller 1)).mem (.shape o)).how with | .sync => false | _ => true) = true := by decide +kernel
    intro o ho e
    have := List.all_eq_true.mp this o (List.mem_range.mpr ho)
    rw [e] at this
    cases this

end Log4g.Races
