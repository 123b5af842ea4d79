import Verif.Spec.Late
import Verif.Lemmas.Registrations
import Verif.Lemmas.Shuffled

/-! # Helpers for C146 -/

namespace Log4g
open Spec World

/-- How the creators of one manager differ from those of another. -/
structure Differ where
  fmt : Str → Option FmtCreator → Option FmtCreator
  out : Str → Option OutCreator → Option OutCreator

/-- The managers are the same but for creators, which differ as `d` says. -/
def Late (d : Differ) (m m' : Manager) : Prop := ∃ fs os, m' = { m with fmtCreators := fs, outCreators := os } ∧
  (∀ t, Map.get fs t = d.fmt t (Map.get m.fmtCreators t)) ∧ ∀ t, Map.get os t = d.out t (Map.get m.outCreators t)

/-- The creators that the configuration needs do not differ. -/
def Unneeded (d : Differ) (c : Config) : Prop := (∀ x ∈ c.formats, ∀ y, d.fmt x.type y = y) ∧ ∀ x ∈ c.outputs, ∀ y, d.out x.type y = y

theorem getFormat_late {d : Differ} {m m' : Manager} (h : Late d m m') (fc : CfgMap) (hd : ∀ y, d.fmt fc.type y = y) :
    (m'.getFormat fc).1 = (m.getFormat fc).1 ∧ Late d (m.getFormat fc).2 (m'.getFormat fc).2 := by
  obtain ⟨fs, os, rfl, h1, h2⟩ := h
  simp only [Manager.getFormat, h1, hd]
  cases Map.get m.fmtCreators fc.type with
  | none => exact ⟨rfl, fs, os, rfl, h1, h2⟩
  | some cr =>
    cases Map.get m.formats fc.name with
    | some f => exact ⟨rfl, fs, os, rfl, h1, h2⟩
    | none =>
      simp only
      cases cr m.calls fc <;> exact ⟨rfl, fs, os, rfl, h1, h2⟩

theorem getOutput_late {d : Differ} {m m' : Manager} (h : Late d m m') (oc : CfgMap) (f : Nat) (hd : ∀ y, d.out oc.type y = y) :
    (m'.getOutput oc f).1 = (m.getOutput oc f).1 ∧ Late d (m.getOutput oc f).2 (m'.getOutput oc f).2 := by
  obtain ⟨fs, os, rfl, h1, h2⟩ := h
  simp only [Manager.getOutput, h2, hd]
  cases Map.get m.outCreators oc.type with
  | none => exact ⟨rfl, fs, os, rfl, h1, h2⟩
  | some cr =>
    cases Map.get m.outputs oc.name with
    | some f => exact ⟨rfl, fs, os, rfl, h1, h2⟩
    | none =>
      simp only
      cases cr m.calls oc <;> exact ⟨rfl, fs, os, rfl, h1, h2⟩

theorem late_config {d : Differ} {m m' : Manager} (h : Late d m m') : m'.config = m.config := by
  obtain ⟨_, _, rfl, _⟩ := h
  rfl

theorem found_mem {l : List CfgMap} {p : CfgMap → Bool} (h : (l.find? p).getD none ≠ none) : (l.find? p).getD none ∈ l := by
  cases e : l.find? p with
  | none => rw [e] at h; exact absurd rfl h
  | some x => exact List.mem_of_find?_eq_some e

theorem one_late {d : Differ} {m m' : Manager} (h : Late d m m') (hc : Unneeded d m.config) (n : Str) : (m'.one n).1 = (m.one n).1 ∧ Late d (m.one n).2 (m'.one n).2 := by
  simp only [Manager.one, late_config h]
  split
  · exact ⟨rfl, h⟩
  · rename_i ho
    split
    · exact ⟨rfl, h⟩
    · rename_i hf
      obtain ⟨h1, h2⟩ := getFormat_late h (m.config.getCfgFormat (m.config.getCfgOutput n).formatName) (hc.1 _ (found_mem hf))
      generalize m'.getFormat (m.config.getCfgFormat (m.config.getCfgOutput n).formatName) = x at h1 h2
      generalize m.getFormat (m.config.getCfgFormat (m.config.getCfgOutput n).formatName) = y at h1 h2
      obtain ⟨x, x2⟩ := x
      obtain ⟨y, y2⟩ := y
      simp only at h1 h2
      subst h1
      cases x with
      | error e => exact ⟨rfl, h2⟩
      | ok f => exact getOutput_late h2 _ _ (hc.2 _ (found_mem ho))

theorem loop_late {d : Differ} (names : List Str) {m m' : Manager} (h : Late d m m') (hc : Unneeded d m.config) : (m'.loop names).1 = (m.loop names).1 ∧ Late d (m.loop names).2 (m'.loop names).2 := by
  induction names generalizing m m' with
  | nil => exact ⟨rfl, h⟩
  | cons n ns ih =>
    simp only [Manager.loop]
    obtain ⟨h1, h2⟩ := one_late h hc n
    have hk := one_same m n
    generalize m'.one n = x at h1 h2
    generalize m.one n = y at h1 h2 hk
    obtain ⟨x, x2⟩ := x
    obtain ⟨y, y2⟩ := y
    simp only at h1 h2 hk
    subst h1
    cases x with
    | error e => exact ⟨rfl, h2⟩
    | ok o =>
      obtain ⟨h3, h4⟩ := ih h2 (hk ▸ hc)
      simp only
      generalize x2.loop ns = u at h3 h4
      generalize y2.loop ns = v at h3 h4
      obtain ⟨u, u2⟩ := u
      obtain ⟨v, v2⟩ := v
      simp only at h3 h4
      subst h3
      cases u <;> exact ⟨rfl, h4⟩

theorem outputs_late {d : Differ} {m m' : Manager} (h : Late d m m') (hc : Unneeded d m.config) (n : Str) :
    (m'.getLoggerOutputs n).1 = (m.getLoggerOutputs n).1 ∧ Late d (m.getLoggerOutputs n).2 (m'.getLoggerOutputs n).2 := by
  simp only [Manager.getLoggerOutputs, late_config h]
  cases m.config.getCfgLogger n with
  | none => exact ⟨rfl, h⟩
  | some lc =>
    obtain ⟨h3, h4⟩ := loop_late lc.outputNames h hc
    simp only
    generalize m'.loop lc.outputNames = u at h3 h4
    generalize m.loop lc.outputNames = v at h3 h4
    obtain ⟨u, u2⟩ := u
    obtain ⟨v, v2⟩ := v
    simp only at h3 h4
    subst h3
    cases u <;> exact ⟨rfl, h4⟩

theorem raiseFlag_late {d : Differ} {m m' : Manager} (h : Late d m m') (flag : Int) (ops : List Nat) : raiseFlag m' flag ops = raiseFlag m flag ops := by
  obtain ⟨fs, os, rfl, _⟩ := h
  induction ops generalizing flag with
  | nil => rfl
  | cons o os ih =>
    simp only [raiseFlag]
    exact ih _

/-- The worlds are the same but for creators, which differ as `d` says. -/
def Lates (d : Differ) (w w' : World) : Prop := ∃ m', w' = { w with mgr := m' } ∧ Late d w.mgr m'

theorem update_lates {d : Differ} {w w' : World} (h : Lates d w w') (r : Nat) (f : Logger → Logger) : Lates d (w.update r f) (w'.update r f) := by
  obtain ⟨m', rfl, h⟩ := h
  exact ⟨m', rfl, h⟩

theorem setOutputs_lates {d : Differ} {w w' : World} (h : Lates d w w') (r : Nat) (ops : List Nat) : Lates d (w.setOutputs r ops) (w'.setOutputs r ops) := by
  obtain ⟨m', rfl, h⟩ := h
  refine ⟨m', ?_, h⟩
  simp only [setOutputs, update, raiseFlag_late h]

theorem configure_lates {d : Differ} {w w' : World} (h : Lates d w w') (hc : Unneeded d w.mgr.config) (r : Nat) (n : Str) : Lates d (w.configure r n) (w'.configure r n) := by
  obtain ⟨m', rfl, h⟩ := h
  unfold configure
  obtain ⟨h1, h2⟩ := outputs_late h hc n
  simp only
  generalize m'.getLoggerOutputs n = x at h1 h2
  generalize w.mgr.getLoggerOutputs n = y at h1 h2
  obtain ⟨x, x2⟩ := x
  obtain ⟨y, y2⟩ := y
  simp only at h1 h2
  subst h1
  have t : Lates d { w with mgr := y2 } { w with mgr := x2 } := ⟨x2, rfl, h2⟩
  cases x with
  | error e => exact t
  | ok p => exact setOutputs_lates (update_lates t r _) r _

theorem root_lates {d : Differ} {w w' : World} (h : Lates d w w') (hc : Unneeded d w.mgr.config) : w'.getRootLogger.1 = w.getRootLogger.1 ∧ Lates d w.getRootLogger.2 w'.getRootLogger.2 := by
  obtain ⟨m', rfl, h⟩ := h
  obtain ⟨m, ro, lo, hp⟩ := w
  unfold getRootLogger
  cases ro with
  | some r => exact ⟨rfl, m', rfl, h⟩
  | none =>
    obtain ⟨h1, h2⟩ := outputs_late h hc rootLoggerName
    simp only at h1 h2 ⊢
    generalize m'.getLoggerOutputs rootLoggerName = x at h1 h2
    generalize m.getLoggerOutputs rootLoggerName = y at h1 h2
    obtain ⟨x, x2⟩ := x
    obtain ⟨y, y2⟩ := y
    simp only at h1 h2
    subst h1
    have fin : ∀ {v v' : World}, Lates d v v' → Lates d { v with loggers := Map.set v.loggers rootLoggerName hp.length } { v' with loggers := Map.set v'.loggers rootLoggerName hp.length } := by
      rintro v v' ⟨m, rfl, k⟩
      exact ⟨m, rfl, k⟩
    refine ⟨trivial, fin ?_⟩
    cases x with
    | error e =>
      obtain ⟨fs, os, rfl, k1, k2⟩ := h2
      simp only [setLevel, update]
      exact setOutputs_lates ⟨_, rfl, fs, os, rfl, k1, k2⟩ _ _
    | ok p => exact setOutputs_lates (update_lates ⟨x2, rfl, h2⟩ _ _) _ _

theorem create_lates {d : Differ} {w w' : World} (h : Lates d w w') (n : Str) (p : Option Nat) : (w'.createLogger n p).1 = (w.createLogger n p).1 ∧ Lates d (w.createLogger n p).2 (w'.createLogger n p).2 := by
  obtain ⟨m', rfl, h⟩ := h
  unfold createLogger
  simp only
  cases Map.get w.loggers n <;> exact ⟨rfl, m', rfl, h⟩

theorem parent_lates {d : Differ} : ∀ (rest : Str) {w w' : World} (_ : Lates d w w') (p : Nat) (before : Str),
    (w'.parentLoop p before rest).1 = (w.parentLoop p before rest).1 ∧ Lates d (w.parentLoop p before rest).2 (w'.parentLoop p before rest).2
  | [], _, _, h, _, _ => ⟨rfl, h⟩
  | c :: rest, w, w', h, p, before => by
    simp only [parentLoop]
    split
    · obtain ⟨h1, h2⟩ := create_lates h before (some p)
      rw [h1]
      exact parent_lates rest h2 _ _
    · exact parent_lates rest h _ _

theorem lates_loggers {d : Differ} {w w' : World} (h : Lates d w w') : w'.loggers = w.loggers ∧ w'.heap = w.heap := by
  obtain ⟨_, rfl, _⟩ := h
  exact ⟨rfl, rfl⟩

theorem get_lates {d : Differ} {w w' : World} (h : Lates d w w') (hc : Unneeded d w.mgr.config) (n : Str) : Lates d (w.getLogger n).2 (w'.getLogger n).2 := by
  unfold getLogger
  split
  · exact (root_lates h hc).2
  · rw [(lates_loggers h).1]
    cases Map.get w.loggers n with
    | some r => exact h
    | none =>
      simp only [getParent]
      obtain ⟨h1, h2⟩ := root_lates h hc
      rw [h1]
      obtain ⟨h3, h4⟩ := parent_lates n h2 w.getRootLogger.1 []
      rw [h3]
      obtain ⟨h5, h6⟩ := create_lates h4 n (some (w.getRootLogger.2.parentLoop w.getRootLogger.1 [] n).1)
      rw [h5]
      refine configure_lates h6 ?_ _ n
      rw [create_cfgKept, parent_cfgKept, root_cfgKept]
      exact hc

theorem notify_lates {d : Differ} (order : List Nat) {w w' : World} (h : Lates d w w') (hc : Unneeded d w.mgr.config) : Lates d (w.notify order) (w'.notify order) := by
  induction order generalizing w w' with
  | nil => exact h
  | cons r rs ih =>
    simp only [notify]
    rw [(lates_loggers h).2]
    cases w.heap[r]? with
    | none => exact ih h hc
    | some l => exact ih (configure_lates h hc r l.name) (by rw [configure_cfgKept]; exact hc)

theorem set_lates {d : Differ} {w w' : World} (h : Lates d w w') (cfg : Config) (order : List Nat) (hc : Unneeded d (w.setConfig cfg order).2.mgr.config) :
    Lates d (w.setConfig cfg order).2 (w'.setConfig cfg order).2 := by
  unfold setConfig at hc ⊢
  cases hv : validateConfig cfg with
  | some e => exact h
  | none =>
    rw [hv] at hc
    simp only [notify_cfgKept] at hc
    refine notify_lates order ?_ hc
    obtain ⟨_, rfl, fs, os, rfl, k1, k2⟩ := h
    exact ⟨_, rfl, fs, os, rfl, k1, k2⟩

/-- The call registers nothing that differs. -/
def Apart (d : Differ) : Act → Prop
  | .registerFormatter t _ => ∀ y, d.fmt t y = y
  | .registerOutput t _ => ∀ y, d.out t y = y
  | _ => True

theorem act_lates {d : Differ} {w w' : World} (h : Lates d w w') (a : Act) (ha : a.ok w) (hd : Apart d a) (hc : Unneeded d w.mgr.config) (hc' : Unneeded d (a.run w).mgr.config) :
    a.ok w' ∧ Lates d (a.run w) (a.run w') := by
  constructor
  · obtain ⟨_, rfl, fs, os, rfl, k1, k2⟩ := h
    cases a <;> exact ha
  · cases a with
    | registerFormatter t f =>
      obtain ⟨_, rfl, fs, os, rfl, k1, k2⟩ := h
      refine ⟨_, rfl, Map.set fs t f, os, rfl, fun t' => ?_, k2⟩
      simp only [Act.run, registerFormatter, Map.get_set]
      by_cases e : t = t'
      · subst e
        rw [if_pos rfl, if_pos rfl]
        exact (hd _).symm
      · rw [if_neg e, if_neg e, k1]
    | registerOutput t f =>
      obtain ⟨_, rfl, fs, os, rfl, k1, k2⟩ := h
      refine ⟨_, rfl, fs, Map.set os t f, rfl, k1, fun t' => ?_⟩
      simp only [Act.run, registerOutput, Map.get_set]
      by_cases e : t = t'
      · subst e
        rw [if_pos rfl, if_pos rfl]
        exact (hd _).symm
      · rw [if_neg e, if_neg e, k2]
    | setConfig cfg order => exact set_lates h cfg order hc'
    | loadConfig d bs ext order => exact set_lates h _ order hc'
    | loadConfigFile d file read order =>
      simp only [Act.run, loadConfigFile] at hc' ⊢
      cases read with
      | none => exact h
      | some bs =>
        simp only at hc' ⊢
        cases he : pathExt file with
        | nil => exact h
        | cons x ext =>
          rw [he] at hc'
          exact set_lates h _ order hc'
    | getLogger n => exact get_lates h hc n
    | queryOutputs n =>
      obtain ⟨m', rfl, k⟩ := h
      exact ⟨_, rfl, (outputs_late k hc n).2⟩
    | userOutput flag =>
      obtain ⟨_, rfl, fs, os, rfl, k1, k2⟩ := h
      exact ⟨_, rfl, fs, os, rfl, k1, k2⟩
    | setLevel r lvl => exact update_lates h _ _
    | setCallerSkip r s => exact update_lates h _ _
    | setOutputs r ops => exact setOutputs_lates h _ _

theorem steps_lates {d : Differ} {w w' : World} (h : Lates d w w') {as : List Act} {w1 : World} (hs : Steps w as w1) (hd : ∀ a ∈ as, Apart d a) (hc : Along (Unneeded d) w as) :
    ∃ w2, Steps w' as w2 ∧ Lates d w1 w2 := by
  induction hs with
  | refl => exact ⟨w', .refl _, h⟩
  | @tail v as a hs ha ih =>
    obtain ⟨w2, h1, h2⟩ := ih (fun a h => hd a (List.mem_append_left _ h)) fun pre post v e k => hc pre (post ++ [a]) v (by rw [e, List.append_assoc]) k
    obtain ⟨h3, h4⟩ := act_lates h2 a ha (hd a (by simp)) (hc as [a] v rfl hs) (hc (as ++ [a]) [] _ (by simp) (.tail hs ha))
    exact ⟨_, .tail h1 h3, h4⟩

/-- The difference that a registration makes. -/
def difference : Act → Differ
  | .registerFormatter t f => ⟨fun t' y => if t = t' then some f else y, fun _ y => y⟩
  | .registerOutput t f => ⟨fun _ y => y, fun t' y => if t = t' then some f else y⟩
  | _ => ⟨fun _ y => y, fun _ y => y⟩

theorem register_lates {a : Act} (ha : Registers a) (w : World) : Lates (difference a) w (a.run w) := by
  rcases ha with ⟨t, f, rfl⟩ | ⟨t, f, rfl⟩
  · exact ⟨_, rfl, _, _, rfl, fun t' => Map.get_set _ _ _ _, fun _ => rfl⟩
  · exact ⟨_, rfl, _, _, rfl, fun _ => rfl, fun t' => Map.get_set _ _ _ _⟩

theorem lates_same {a : Act} (ha : Registers a) {w w' : World} (h : Lates (difference a) w w') : SameLibrary (a.run w) w' := by
  obtain ⟨_, rfl, fs, os, rfl, k1, k2⟩ := h
  rcases ha with ⟨t, f, rfl⟩ | ⟨t, f, rfl⟩
  · exact ⟨rfl, rfl, rfl, rfl, rfl, rfl, rfl, rfl, rfl, fun t' => (k1 t').trans (Map.get_set _ _ _ _).symm, k2⟩
  · exact ⟨rfl, rfl, rfl, rfl, rfl, rfl, rfl, rfl, rfl, k1, fun t' => (k2 t').trans (Map.get_set _ _ _ _).symm⟩

theorem apart_of {a b : Act} (ha : Registers a) (h : ¬ SameType a b) : Apart (difference a) b := by
  rcases ha with ⟨t, f, rfl⟩ | ⟨t, f, rfl⟩
  · cases b with
    | registerFormatter t' g => exact fun y => if_neg h
    | registerOutput t' g => exact fun y => rfl
    | _ => trivial
  · cases b with
    | registerFormatter t' g => exact fun y => rfl
    | registerOutput t' g => exact fun y => if_neg h
    | _ => trivial

theorem unneeded_of {a : Act} (ha : Registers a) {c : Config} (h : NotNeeded c a) : Unneeded (difference a) c := by
  rcases ha with ⟨t, f, rfl⟩ | ⟨t, f, rfl⟩
  · exact ⟨fun x hx y => if_neg (Ne.symm (h x hx)), fun _ _ _ => rfl⟩
  · exact ⟨fun _ _ _ => rfl, fun x hx y => if_neg (Ne.symm (h x hx))⟩

end Log4g
