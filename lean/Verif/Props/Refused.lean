import Verif.Lemmas.Refused
import Verif.Props.Config

/-! # C107 — outputs that cannot be made -/

namespace Log4g
open Spec World Strconv

namespace Demo

/-- The logger "a" logs to a file and to syslog, the logger "b" to the file only. -/
def half : Config where
  formats := [some [(c!"name", c!"f1"), (c!"type", c!"text"), (c!"layout", c!"%{msg}\n")]]
  outputs := [some [(c!"name", c!"file"), (c!"type", c!"size_rolling_file"), (c!"format", c!"f1"), (c!"file", c!"logs/log")],
              some [(c!"name", c!"sys"), (c!"type", c!"syslog"), (c!"format", c!"f1")],
              some [(c!"name", c!"con"), (c!"type", c!"console"), (c!"format", c!"f1")]]
  loggers := [⟨c!"root", c!"error", [c!"con"]⟩, ⟨c!"a", c!"debug", [c!"file", c!"sys"]⟩, ⟨c!"b", c!"debug", [c!"file"]⟩]

/-- The program after it has set this configuration, and has asked for the logger "b". -/
def halfWorld : World := [Act.setConfig half [], .getLogger c!"b"].foldl (fun w a => a.run w) (initWorld fun _ => false)

theorem half_program : Program (fun _ => false) [.setConfig half [], .getLogger c!"b"] halfWorld := by
  constructor
  · have h0 : Steps {} [] {} := .refl _
    have h1 := h0.tail (a := .registerFormatter c!"text" textCreator) trivial
    have h2 := h1.tail (a := .registerOutput c!"console" okCreator) trivial
    have h3 := h2.tail (a := .registerOutput c!"memory" okCreator) trivial
    have h4 := h3.tail (a := .registerOutput c!"size_rolling_file" okCreator) trivial
    have h5 := h4.tail (a := .registerOutput c!"time_rolling_file" okCreator) trivial
    have h6 := h5.tail (a := .registerOutput c!"syslog" (syslogCreator fun _ => false)) trivial
    have h7 := h6.tail (a := .setConfig initConfig []) (List.Perm.refl _)
    have h8 := h7.tail (a := .setConfig half []) (List.Perm.refl _)
    exact h8.tail (a := .getLogger c!"b") trivial
  · intro a ha
    simp only [List.mem_cons, List.not_mem_nil, or_false] at ha
    rcases ha with rfl | rfl <;> trivial

theorem half_a : FirstLogger half c!"a" ⟨c!"a", c!"debug", [c!"file", c!"sys"]⟩ := ⟨[_], [_], rfl, rfl, by decide⟩

theorem half_refused : Refused halfWorld.mgr c!"sys" := by
  refine ⟨_, syslogCreator fun _ => false, ⟨[_], [_], rfl, rfl, by decide⟩, rfl, fun i => ⟨c!"syslog", rfl⟩, ?_⟩
  rintro o ⟨cfg, f, h1, h2⟩
  have h1 : ([⟨.managed (some [(c!"name", c!"con"), (c!"type", c!"console"), (c!"format", c!"f1")]), some 0⟩,
      ⟨.managed (some [(c!"name", c!"file"), (c!"type", c!"size_rolling_file"), (c!"format", c!"f1"), (c!"file", c!"logs/log")]), some 0⟩] : List OutObj)[o]?
      = some ⟨.managed cfg, f⟩ := h1
  match o with
  | 0 => injection h1 with h1; injection h1 with h1 _; injection h1 with h1; subst h1; revert h2; decide
  | 1 => injection h1 with h1; injection h1 with h1 _; injection h1 with h1; subst h1; revert h2; decide
  | o + 2 => cases h1

theorem half_file (up : Nat → Bool) : Sound up half c!"file" :=
  ⟨_, _, ⟨[], _, rfl, rfl, by simp⟩, .inl (by decide), ⟨[], _, rfl, rfl, by simp⟩, rfl, [], c!"msg", none, c!"\n", ⟨by decide, by unfold NameChar; decide, fun _ h => by cases h⟩, rfl⟩

end Demo

/-- C107 is refuted: the syslog daemon does not answer, and the logger "a", configured to write to a file and to syslog,
at level Debug, gets neither its level nor its file: its errors go to the console of the root logger, its warnings
nowhere.  `SetConfig` has reported nothing, and the logger "b" writes the same file. -/
theorem C107_others_refuted : ∃ (up : Nat → Bool) (as : List Act) (w : World) (n file sys : Str) (e : CfgLogger) (o r : Nat),
    Program up as w ∧ FirstLogger w.mgr.config n e ∧ e.outputNames = [file, sys] ∧ LevelNamed e.level Level.Debug ∧
    Sound up w.mgr.config file ∧ Refused w.mgr sys ∧
    (∀ cfg order, .setConfig cfg order ∈ as → ((initWorld up).setConfig cfg order).1 = none) ∧
    InstanceOf (w.getLogger n).2.mgr file o ∧ Map.get (w.getLogger n).2.loggers n = some r ∧
    Unset (w.getLogger n).2 n ∧
    (∀ d ∈ ((w.getLogger n).2.call 0 [] r [] (.errorf c!"hi") ([] : List Nat)).deliveries, d.out ≠ o) ∧
    ((w.getLogger n).2.call 0 [] r [] (.warnf c!"hi") ([] : List Nat)).deliveries.length = 0 := by
  refine ⟨fun _ => false, _, _, c!"a", c!"file", c!"sys", _, 1, 2, Demo.half_program, Demo.half_a, rfl,
    Level.named_levelFrom _, Demo.half_file _, Demo.half_refused, ?_, ⟨_, _, rfl, rfl⟩, rfl, ⟨_, rfl, rfl, rfl⟩, ?_, ?_⟩
  · intro cfg order h
    simp only [List.mem_cons, List.not_mem_nil, or_false, Act.setConfig.injEq, reduceCtorEq] at h
    obtain ⟨rfl, rfl⟩ := h
    decide +kernel
  · intro d hd
    have : ((((Demo.halfWorld.getLogger c!"a").2.call 0 [] 2 [] (.errorf c!"hi") ([] : List Nat)).deliveries).map (·.out)) = [0] := by decide +kernel
    have hm := List.mem_map_of_mem (f := fun d : Delivery Nat => d.out) hd
    rw [this] at hm
    simp at hm
    omega
  · decide +kernel

/-- C107, what holds of loggers that name such an output: one that is asked for the first time has neither a level nor
outputs of its own. -/
theorem C107_unset_partial {w : World} (hw : Reach w) {n : Str} (h1 : n ≠ []) (h2 : n ≠ c!"root") (hnew : Map.get w.loggers n = none)
    {e : CfgLogger} (he : FirstLogger w.mgr.config n e) {k : Str} (hk : k ∈ e.outputNames) (hr : Refused w.mgr k) : Unset (w.getLogger n).2 n :=
  refused_fresh (reach_inv hw) hr h1 h2 hnew he hk

example : Reach Demo.halfWorld ∧ Map.get Demo.halfWorld.loggers c!"a" = none ∧ Refused Demo.halfWorld.mgr c!"sys" :=
  ⟨Demo.half_program.reach, rfl, Demo.half_refused⟩

/-- C107: one that exists stays as it is, in every respect, when the configuration is set. -/
theorem C107_kept_partial {w : World} (hw : Reach w) {cfg : Config} (order : List Nat) {n : Str} {l : Logger} (hl : loggerAt w n = some l)
    {e : CfgLogger} (he : FirstLogger cfg n e) {k : Str} (hk : k ∈ e.outputNames) (hr : Refused { w.mgr with config := cfg } k) :
    loggerAt (w.setConfig cfg order).2 n = some l := by
  have inv := reach_inv hw
  obtain ⟨r, hg, hh⟩ := Option.bind_eq_some_iff.mp hl
  obtain ⟨l', h1, h2⟩ := inv.named _ _ hg
  rw [hh] at h1; injection h1 with h1; subst h1
  unfold setConfig
  split
  · exact hl
  · have i := (withConfig_inv inv cfg).1
    obtain ⟨_, _, _, hlg, _⟩ := notify_spec i order
    exact loggerAt_of_get (by rw [hlg]; exact hg) (refused_notify i hr order hh (by rw [h2]; exact he) hk)

/-- The logger "b" stays at the file when it is configured to log to syslog too. -/
example : ∃ cfg e, FirstLogger cfg c!"b" e ∧ c!"sys" ∈ e.outputNames ∧ Refused { Demo.halfWorld.mgr with config := cfg } c!"sys" ∧
    validateConfig cfg = none ∧ ∃ l, loggerAt Demo.halfWorld c!"b" = some l ∧ l.outputs = [1] := by
  refine ⟨{ Demo.half with loggers := [⟨c!"b", c!"warn", [c!"con", c!"sys"]⟩] }, _, ⟨[], [], rfl, rfl, by simp⟩, by simp, ?_, by decide +kernel, _, rfl, rfl⟩
  obtain ⟨_, _, _, h2, h3, h4⟩ := Demo.half_refused
  exact ⟨_, syslogCreator fun _ => false, ⟨[_], [_], rfl, rfl, by decide⟩, rfl, fun i => ⟨c!"syslog", rfl⟩, h4⟩

/-- C107, what holds of the others: if all outputs a logger names are of the library's types, with formats that have a
verb, and the syslog daemon answers should it name it, then it gets its level and its outputs, whatever else the
configuration says about other loggers and outputs — when the configuration is set, if it exists, and when it is asked for,
if it does not. -/
theorem C107_sound_partial {up : Nat → Bool} {as : List Act} {w : World} (h : Program up as w) {n : Str} {e : CfgLogger} :
    (∀ cfg order, order.Perm (w.loggers.map (·.2)) → (w.setConfig cfg order).1 = none → FirstLogger cfg n e → (∀ k ∈ e.outputNames, Sound up cfg k) →
      loggerAt w n ≠ none → HasEntry (w.setConfig cfg order).2 n e) ∧
    (FirstLogger w.mgr.config n e → n ≠ [] → (∀ k ∈ e.outputNames, Sound up w.mgr.config k) → Map.get w.loggers n = none → HasEntry (w.getLogger n).2 n e) := by
  have hc := program_creators h
  constructor
  · intro cfg order hp hok he hs hn
    refine C21_reconfigure h.reach hp hok (fun hg => hn (by simp [loggerAt, hg])) he fun k hk => ?_
    exact sound_creatable (m := { w.mgr with config := cfg }) (hc.congr rfl rfl) (hs k hk)
  · intro he hne hs hn
    have := C10_configured_partial h.reach (n := n) (e := e) (by rw [if_neg hne]; exact hn) (by rw [if_neg hne]; exact he) fun k hk => sound_creatable hc (hs k hk)
    rw [if_neg hne] at this
    exact this.1

/-- In the same program the logger "b", which does not name syslog, has its entry. -/
example : FirstLogger Demo.half c!"b" ⟨c!"b", c!"debug", [c!"file"]⟩ ∧ (∀ k ∈ [c!"file"], Sound (fun _ => false) Demo.half k) ∧
    loggerAt Demo.halfWorld c!"b" ≠ none ∧ HasEntry Demo.halfWorld c!"b" ⟨c!"b", c!"debug", [c!"file"]⟩ := by
  refine ⟨⟨[_, _], [], rfl, rfl, by decide⟩, ?_, ?_, ?_⟩
  · intro k hk
    simp only [List.mem_singleton] at hk
    subst hk
    exact Demo.half_file _
  · exact fun h => nomatch (show (none : Option Logger) = some _ from h.symm)
  · refine ⟨_, rfl, Level.named_levelFrom c!"debug", rfl, ?_⟩
    intro i n o h1 h2
    match i with
    | 0 => injection h1 with h1; injection h2 with h2; subst h1 h2; exact ⟨_, _, rfl, rfl⟩
    | i + 1 => cases h1

end Log4g
