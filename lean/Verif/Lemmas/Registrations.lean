import Verif.Spec.Registrations
import Verif.Lemmas.World

/-! # Helpers for C145 -/

namespace Log4g
open Spec World

/-- The managers are the same but for the order in which creators are kept. -/
def Twin (m m' : Manager) : Prop := ∃ fs os, m' = { m with fmtCreators := fs, outCreators := os } ∧
  (∀ t, Map.get fs t = Map.get m.fmtCreators t) ∧ ∀ t, Map.get os t = Map.get m.outCreators t

theorem getFormat_twin {m m' : Manager} (h : Twin m m') (fc : CfgMap) : (m'.getFormat fc).1 = (m.getFormat fc).1 ∧ Twin (m.getFormat fc).2 (m'.getFormat fc).2 := by
  obtain ⟨fs, os, rfl, h1, h2⟩ := h
  simp only [Manager.getFormat, h1]
  cases Map.get m.fmtCreators fc.type with
  | none => exact ⟨rfl, fs, os, rfl, h1, h2⟩
  | some cr =>
    cases Map.get m.formats fc.name with
    | some f => exact ⟨rfl, fs, os, rfl, h1, h2⟩
    | none =>
      simp only
      cases cr m.calls fc <;> exact ⟨rfl, fs, os, rfl, h1, h2⟩

theorem getOutput_twin {m m' : Manager} (h : Twin m m') (oc : CfgMap) (f : Nat) : (m'.getOutput oc f).1 = (m.getOutput oc f).1 ∧ Twin (m.getOutput oc f).2 (m'.getOutput oc f).2 := by
  obtain ⟨fs, os, rfl, h1, h2⟩ := h
  simp only [Manager.getOutput, h2]
  cases Map.get m.outCreators oc.type with
  | none => exact ⟨rfl, fs, os, rfl, h1, h2⟩
  | some cr =>
    cases Map.get m.outputs oc.name with
    | some f => exact ⟨rfl, fs, os, rfl, h1, h2⟩
    | none =>
      simp only
      cases cr m.calls oc <;> exact ⟨rfl, fs, os, rfl, h1, h2⟩

theorem twin_config {m m' : Manager} (h : Twin m m') : m'.config = m.config := by
  obtain ⟨_, _, rfl, _⟩ := h
  rfl

theorem one_twin {m m' : Manager} (h : Twin m m') (n : Str) : (m'.one n).1 = (m.one n).1 ∧ Twin (m.one n).2 (m'.one n).2 := by
  simp only [Manager.one, twin_config h]
  split
  · exact ⟨rfl, h⟩
  · split
    · exact ⟨rfl, h⟩
    · obtain ⟨h1, h2⟩ := getFormat_twin h (m.config.getCfgFormat (m.config.getCfgOutput n).formatName)
      generalize m'.getFormat (m.config.getCfgFormat (m.config.getCfgOutput n).formatName) = x at h1 h2
      generalize m.getFormat (m.config.getCfgFormat (m.config.getCfgOutput n).formatName) = y at h1 h2
      obtain ⟨x, x2⟩ := x
      obtain ⟨y, y2⟩ := y
      simp only at h1 h2
      subst h1
      cases x with
      | error e => exact ⟨rfl, h2⟩
      | ok f => exact getOutput_twin h2 _ _

theorem loop_twin (names : List Str) {m m' : Manager} (h : Twin m m') : (m'.loop names).1 = (m.loop names).1 ∧ Twin (m.loop names).2 (m'.loop names).2 := by
  induction names generalizing m m' with
  | nil => exact ⟨rfl, h⟩
  | cons n ns ih =>
    simp only [Manager.loop]
    obtain ⟨h1, h2⟩ := one_twin h n
    generalize m'.one n = x at h1 h2
    generalize m.one n = y at h1 h2
    obtain ⟨x, x2⟩ := x
    obtain ⟨y, y2⟩ := y
    simp only at h1 h2
    subst h1
    cases x with
    | error e => exact ⟨rfl, h2⟩
    | ok o =>
      obtain ⟨h3, h4⟩ := ih h2
      simp only
      generalize x2.loop ns = u at h3 h4
      generalize y2.loop ns = v at h3 h4
      obtain ⟨u, u2⟩ := u
      obtain ⟨v, v2⟩ := v
      simp only at h3 h4
      subst h3
      cases u <;> exact ⟨rfl, h4⟩

theorem outputs_twin {m m' : Manager} (h : Twin m m') (n : Str) : (m'.getLoggerOutputs n).1 = (m.getLoggerOutputs n).1 ∧ Twin (m.getLoggerOutputs n).2 (m'.getLoggerOutputs n).2 := by
  simp only [Manager.getLoggerOutputs, twin_config h]
  cases m.config.getCfgLogger n with
  | none => exact ⟨rfl, h⟩
  | some lc =>
    obtain ⟨h3, h4⟩ := loop_twin lc.outputNames h
    simp only
    generalize m'.loop lc.outputNames = u at h3 h4
    generalize m.loop lc.outputNames = v at h3 h4
    obtain ⟨u, u2⟩ := u
    obtain ⟨v, v2⟩ := v
    simp only at h3 h4
    subst h3
    cases u <;> exact ⟨rfl, h4⟩

theorem raiseFlag_twin {m m' : Manager} (h : Twin m m') (flag : Int) (ops : List Nat) : raiseFlag m' flag ops = raiseFlag m flag ops := by
  obtain ⟨fs, os, rfl, _⟩ := h
  induction ops generalizing flag with
  | nil => rfl
  | cons o os ih =>
    simp only [raiseFlag]
    exact ih _

/-- The worlds are the same but for the order in which creators are kept. -/
def Twins (w w' : World) : Prop := ∃ m', w' = { w with mgr := m' } ∧ Twin w.mgr m'

theorem update_twins {w w' : World} (h : Twins w w') (r : Nat) (f : Logger → Logger) : Twins (w.update r f) (w'.update r f) := by
  obtain ⟨m', rfl, h⟩ := h
  exact ⟨m', rfl, h⟩

theorem setOutputs_twins {w w' : World} (h : Twins w w') (r : Nat) (ops : List Nat) : Twins (w.setOutputs r ops) (w'.setOutputs r ops) := by
  obtain ⟨m', rfl, h⟩ := h
  refine ⟨m', ?_, h⟩
  simp only [setOutputs, update, raiseFlag_twin h]

theorem configure_twins {w w' : World} (h : Twins w w') (r : Nat) (n : Str) : Twins (w.configure r n) (w'.configure r n) := by
  obtain ⟨m', rfl, h⟩ := h
  unfold configure
  obtain ⟨h1, h2⟩ := outputs_twin h n
  simp only
  generalize m'.getLoggerOutputs n = x at h1 h2
  generalize w.mgr.getLoggerOutputs n = y at h1 h2
  obtain ⟨x, x2⟩ := x
  obtain ⟨y, y2⟩ := y
  simp only at h1 h2
  subst h1
  have t : Twins { w with mgr := y2 } { w with mgr := x2 } := ⟨x2, rfl, h2⟩
  cases x with
  | error e => exact t
  | ok p => exact setOutputs_twins (update_twins t r _) r _

theorem root_twins {w w' : World} (h : Twins w w') : w'.getRootLogger.1 = w.getRootLogger.1 ∧ Twins w.getRootLogger.2 w'.getRootLogger.2 := by
  obtain ⟨m', rfl, h⟩ := h
  obtain ⟨m, ro, lo, hp⟩ := w
  unfold getRootLogger
  cases ro with
  | some r => exact ⟨rfl, m', rfl, h⟩
  | none =>
    obtain ⟨h1, h2⟩ := outputs_twin h rootLoggerName
    simp only at h1 h2 ⊢
    generalize m'.getLoggerOutputs rootLoggerName = x at h1 h2
    generalize m.getLoggerOutputs rootLoggerName = y at h1 h2
    obtain ⟨x, x2⟩ := x
    obtain ⟨y, y2⟩ := y
    simp only at h1 h2
    subst h1
    have fin : ∀ {v v' : World}, Twins v v' → Twins { v with loggers := Map.set v.loggers rootLoggerName hp.length } { v' with loggers := Map.set v'.loggers rootLoggerName hp.length } := by
      rintro v v' ⟨m, rfl, k⟩
      exact ⟨m, rfl, k⟩
    refine ⟨trivial, fin ?_⟩
    cases x with
    | error e =>
      obtain ⟨fs, os, rfl, k1, k2⟩ := h2
      simp only [setLevel, update]
      exact setOutputs_twins ⟨_, rfl, fs, os, rfl, k1, k2⟩ _ _
    | ok p => exact setOutputs_twins (update_twins ⟨x2, rfl, h2⟩ _ _) _ _

theorem create_twins {w w' : World} (h : Twins w w') (n : Str) (p : Option Nat) : (w'.createLogger n p).1 = (w.createLogger n p).1 ∧ Twins (w.createLogger n p).2 (w'.createLogger n p).2 := by
  obtain ⟨m', rfl, h⟩ := h
  unfold createLogger
  simp only
  cases Map.get w.loggers n <;> exact ⟨rfl, m', rfl, h⟩

theorem parent_twins : ∀ (rest : Str) {w w' : World} (_ : Twins w w') (p : Nat) (before : Str),
    (w'.parentLoop p before rest).1 = (w.parentLoop p before rest).1 ∧ Twins (w.parentLoop p before rest).2 (w'.parentLoop p before rest).2
  | [], _, _, h, _, _ => ⟨rfl, h⟩
  | c :: rest, w, w', h, p, before => by
    simp only [parentLoop]
    split
    · obtain ⟨h1, h2⟩ := create_twins h before (some p)
      rw [h1]
      exact parent_twins rest h2 _ _
    · exact parent_twins rest h _ _

theorem twins_loggers {w w' : World} (h : Twins w w') : w'.loggers = w.loggers ∧ w'.heap = w.heap := by
  obtain ⟨_, rfl, _⟩ := h
  exact ⟨rfl, rfl⟩

theorem get_twins {w w' : World} (h : Twins w w') (n : Str) : (w'.getLogger n).1 = (w.getLogger n).1 ∧ Twins (w.getLogger n).2 (w'.getLogger n).2 := by
  unfold getLogger
  split
  · exact root_twins h
  · rw [(twins_loggers h).1]
    cases Map.get w.loggers n with
    | some r => exact ⟨rfl, h⟩
    | none =>
      simp only [getParent]
      obtain ⟨h1, h2⟩ := root_twins h
      rw [h1]
      obtain ⟨h3, h4⟩ := parent_twins n h2 w.getRootLogger.1 []
      rw [h3]
      obtain ⟨h5, h6⟩ := create_twins h4 n (some (w.getRootLogger.2.parentLoop w.getRootLogger.1 [] n).1)
      rw [h5]
      exact ⟨rfl, configure_twins h6 _ n⟩

theorem notify_twins (order : List Nat) {w w' : World} (h : Twins w w') : Twins (w.notify order) (w'.notify order) := by
  induction order generalizing w w' with
  | nil => exact h
  | cons r rs ih =>
    simp only [notify]
    rw [(twins_loggers h).2]
    cases w.heap[r]? with
    | none => exact ih h
    | some l => exact ih (configure_twins h r l.name)

theorem set_twins {w w' : World} (h : Twins w w') (cfg : Config) (order : List Nat) : Twins (w.setConfig cfg order).2 (w'.setConfig cfg order).2 := by
  unfold setConfig
  cases validateConfig cfg with
  | some e => exact h
  | none =>
    refine notify_twins order ?_
    obtain ⟨_, rfl, fs, os, rfl, k1, k2⟩ := h
    exact ⟨_, rfl, fs, os, rfl, k1, k2⟩

theorem act_twins {w w' : World} (h : Twins w w') (a : Act) (ha : a.ok w) : a.ok w' ∧ Twins (a.run w) (a.run w') := by
  constructor
  · obtain ⟨_, rfl, fs, os, rfl, k1, k2⟩ := h
    cases a <;> exact ha
  · cases a with
    | registerFormatter t f =>
      obtain ⟨_, rfl, fs, os, rfl, k1, k2⟩ := h
      exact ⟨_, rfl, Map.set fs t f, os, rfl, fun t' => by simp only [Act.run, registerFormatter, Map.get_set, k1], k2⟩
    | registerOutput t f =>
      obtain ⟨_, rfl, fs, os, rfl, k1, k2⟩ := h
      exact ⟨_, rfl, fs, Map.set os t f, rfl, k1, fun t' => by simp only [Act.run, registerOutput, Map.get_set, k2]⟩
    | setConfig cfg order => exact set_twins h cfg order
    | loadConfig d bs ext order => exact set_twins h _ order
    | loadConfigFile d file read order =>
      simp only [Act.run, loadConfigFile]
      cases read with
      | none => exact h
      | some bs =>
        simp only
        cases pathExt file with
        | nil => exact h
        | cons x ext => exact set_twins h _ order
    | getLogger n => exact (get_twins h n).2
    | queryOutputs n =>
      obtain ⟨m', rfl, k⟩ := h
      exact ⟨_, rfl, (outputs_twin k n).2⟩
    | userOutput flag =>
      obtain ⟨_, rfl, fs, os, rfl, k1, k2⟩ := h
      exact ⟨_, rfl, fs, os, rfl, k1, k2⟩
    | setLevel r lvl => exact update_twins h _ _
    | setCallerSkip r s => exact update_twins h _ _
    | setOutputs r ops => exact setOutputs_twins h _ _

theorem steps_twins {w w' : World} (h : Twins w w') {as : List Act} {w1 : World} (hs : Steps w as w1) : ∃ w2, Steps w' as w2 ∧ Twins w1 w2 := by
  induction hs with
  | refl => exact ⟨w', .refl _, h⟩
  | tail _ ha ih =>
    obtain ⟨w2, h1, h2⟩ := ih
    obtain ⟨h3, h4⟩ := act_twins h2 _ ha
    exact ⟨_, .tail h1 h3, h4⟩

theorem lastF_snoc {rs : List Act} {a : Act} {t : Str} {f : FmtCreator} :
    LastFormatter (rs ++ [a]) t f ↔ a = .registerFormatter t f ∨ (∀ g, a ≠ .registerFormatter t g) ∧ LastFormatter rs t f := by
  constructor
  · rintro ⟨pre, post, e, h⟩
    rcases List.eq_nil_or_concat post with rfl | ⟨post, b, rfl⟩
    · exact .inl (by simpa using (List.append_inj' e rfl).2)
    · rw [List.concat_eq_append, ← List.cons_append, ← List.append_assoc] at e
      obtain ⟨e1, e2⟩ := List.append_inj' e rfl
      simp only [List.cons.injEq, and_true] at e2
      subst e2
      exact .inr ⟨fun g hg => h g (by simp [hg]), pre, post, e1, fun g hg => h g (by simp [hg])⟩
  · rintro (rfl | ⟨h1, pre, post, rfl, h2⟩)
    · exact ⟨rs, [], rfl, by simp⟩
    · refine ⟨pre, post ++ [a], by simp, fun g hg => ?_⟩
      rcases List.mem_append.mp hg with hg | hg
      · exact h2 g hg
      · exact h1 g (List.mem_singleton.mp hg).symm

theorem lastO_snoc {rs : List Act} {a : Act} {t : Str} {f : OutCreator} :
    LastOutput (rs ++ [a]) t f ↔ a = .registerOutput t f ∨ (∀ g, a ≠ .registerOutput t g) ∧ LastOutput rs t f := by
  constructor
  · rintro ⟨pre, post, e, h⟩
    rcases List.eq_nil_or_concat post with rfl | ⟨post, b, rfl⟩
    · exact .inl (by simpa using (List.append_inj' e rfl).2)
    · rw [List.concat_eq_append, ← List.cons_append, ← List.append_assoc] at e
      obtain ⟨e1, e2⟩ := List.append_inj' e rfl
      simp only [List.cons.injEq, and_true] at e2
      subst e2
      exact .inr ⟨fun g hg => h g (by simp [hg]), pre, post, e1, fun g hg => h g (by simp [hg])⟩
  · rintro (rfl | ⟨h1, pre, post, rfl, h2⟩)
    · exact ⟨rs, [], rfl, by simp⟩
    · refine ⟨pre, post ++ [a], by simp, fun g hg => ?_⟩
      rcases List.mem_append.mp hg with hg | hg
      · exact h2 g hg
      · exact h1 g (List.mem_singleton.mp hg).symm

/-- What registrations lead to. -/
structure Registered (w : World) (rs : List Act) (fs : Map Str FmtCreator) (os : Map Str OutCreator) : Prop where
  lastF : ∀ t f, LastFormatter rs t f → Map.get fs t = some f
  noF : ∀ t, (∀ f, ¬ LastFormatter rs t f) → Map.get fs t = Map.get w.mgr.fmtCreators t
  lastO : ∀ t f, LastOutput rs t f → Map.get os t = some f
  noO : ∀ t, (∀ f, ¬ LastOutput rs t f) → Map.get os t = Map.get w.mgr.outCreators t

theorem registered {w w1 : World} {rs : List Act} (h : Registrations rs) (hs : Steps w rs w1) :
    ∃ fs os, w1 = { w with mgr := { w.mgr with fmtCreators := fs, outCreators := os } } ∧ Registered w rs fs os := by
  induction hs with
  | refl =>
    refine ⟨_, _, rfl, fun t f hf => ?_, fun _ _ => rfl, fun t f hf => ?_, fun _ _ => rfl⟩ <;>
    · obtain ⟨_, _, e, _⟩ := hf
      simp at e
  | @tail w' rs a _ _ ih =>
    obtain ⟨fs, os, rfl, k⟩ := ih fun a ha => h a (List.mem_append_left _ ha)
    rcases h a (by simp) with ⟨t, f, rfl⟩ | ⟨t, f, rfl⟩
    · refine ⟨Map.set fs t f, os, rfl, fun t' g hg => ?_, fun t' hn => ?_, fun t' g hg => ?_, fun t' hn => ?_⟩
      · rw [Map.get_set]
        rcases lastF_snoc.mp hg with e | ⟨h1, h2⟩
        · cases e; simp
        · rw [if_neg (fun e => h1 f (by rw [e]))]
          exact k.lastF t' g h2
      · have hne : t ≠ t' := fun e => hn f (lastF_snoc.mpr (.inl (by rw [e])))
        rw [Map.get_set, if_neg hne]
        exact k.noF t' fun g hg => hn g (lastF_snoc.mpr (.inr ⟨fun g' e => hne (by cases e; rfl), hg⟩))
      · rcases lastO_snoc.mp hg with e | ⟨_, h2⟩
        · cases e
        · exact k.lastO t' g h2
      · exact k.noO t' fun g hg => hn g (lastO_snoc.mpr (.inr ⟨fun g' e => (nomatch e), hg⟩))
    · refine ⟨fs, Map.set os t f, rfl, fun t' g hg => ?_, fun t' hn => ?_, fun t' g hg => ?_, fun t' hn => ?_⟩
      · rcases lastF_snoc.mp hg with e | ⟨_, h2⟩
        · cases e
        · exact k.lastF t' g h2
      · exact k.noF t' fun g hg => hn g (lastF_snoc.mpr (.inr ⟨fun g' e => (nomatch e), hg⟩))
      · rw [Map.get_set]
        rcases lastO_snoc.mp hg with e | ⟨h1, h2⟩
        · cases e; simp
        · rw [if_neg (fun e => h1 f (by rw [e]))]
          exact k.lastO t' g h2
      · have hne : t ≠ t' := fun e => hn f (lastO_snoc.mpr (.inl (by rw [e])))
        rw [Map.get_set, if_neg hne]
        exact k.noO t' fun g hg => hn g (lastO_snoc.mpr (.inr ⟨fun g' e => hne (by cases e; rfl), hg⟩))

theorem registered_twins {w w1 w2 : World} {rs rs' : List Act} (h : Registrations rs) (h' : Registrations rs') (hl : SameLast rs rs') (hs : Steps w rs w1) (hs' : Steps w rs' w2) : Twins w1 w2 := by
  obtain ⟨fs, os, rfl, k⟩ := registered h hs
  obtain ⟨fs', os', rfl, k'⟩ := registered h' hs'
  refine ⟨_, rfl, fs', os', rfl, fun t => ?_, fun t => ?_⟩
  · by_cases e : ∃ f, LastFormatter rs t f
    · obtain ⟨f, hf⟩ := e
      exact (k'.lastF t f (((hl t).1 f).mp hf)).trans (k.lastF t f hf).symm
    · have e : ∀ f, ¬ LastFormatter rs t f := fun f hf => e ⟨f, hf⟩
      exact (k'.noF t fun f hf => e f (((hl t).1 f).mpr hf)).trans (k.noF t e).symm
  · by_cases e : ∃ f, LastOutput rs t f
    · obtain ⟨f, hf⟩ := e
      exact (k'.lastO t f (((hl t).2 f).mp hf)).trans (k.lastO t f hf).symm
    · have e : ∀ f, ¬ LastOutput rs t f := fun f hf => e ⟨f, hf⟩
      exact (k'.noO t fun f hf => e f (((hl t).2 f).mpr hf)).trans (k.noO t e).symm

theorem registrations_steps {rs : List Act} (h : Registrations rs) (w : World) : ∃ w1, Steps w rs w1 := by
  induction rs generalizing w with
  | nil => exact ⟨w, .refl _⟩
  | cons a rs ih =>
    obtain ⟨w1, h1⟩ := ih (fun b hb => h b (.tail _ hb)) (a.run w)
    have ok : a.ok w := by rcases h a (.head _) with ⟨t, f, rfl⟩ | ⟨t, f, rfl⟩ <;> trivial
    exact ⟨w1, (Steps.tail (.refl w) ok).trans h1⟩

theorem twins_same {w w' : World} (h : Twins w w') : SameLibrary w w' := by
  obtain ⟨_, rfl, fs, os, rfl, k1, k2⟩ := h
  exact ⟨rfl, rfl, rfl, rfl, rfl, rfl, rfl, rfl, rfl, k1, k2⟩

theorem steps_parts {bs as : List Act} {w w1 : World} (h : Steps w (as ++ bs) w1) : ∃ v, Steps w as v ∧ Steps v bs w1 := by
  generalize e : as ++ bs = cs at h
  induction h generalizing bs with
  | refl =>
    obtain ⟨rfl, rfl⟩ := List.append_eq_nil_iff.mp e
    exact ⟨w, .refl _, .refl _⟩
  | @tail w' cs a hs ok ih =>
    rcases List.eq_nil_or_concat bs with rfl | ⟨bs, b, rfl⟩
    · rw [List.append_nil] at e
      subst e
      exact ⟨_, .tail hs ok, .refl _⟩
    · rw [List.concat_eq_append, ← List.append_assoc] at e
      obtain ⟨e1, e2⟩ := List.append_inj' e rfl
      simp only [List.cons.injEq, and_true] at e2
      subst e2
      obtain ⟨v, h1, h2⟩ := ih e1
      exact ⟨v, h1, by rw [List.concat_eq_append]; exact h2.tail ok⟩

theorem once_lastF {rs : List Act} (h : OncePerType rs) {t : Str} {f : FmtCreator} : LastFormatter rs t f ↔ .registerFormatter t f ∈ rs := by
  constructor
  · rintro ⟨pre, post, rfl, _⟩
    simp
  · intro hm
    obtain ⟨pre, post, rfl⟩ := List.append_of_mem hm
    exact ⟨pre, post, rfl, fun g hg => ((List.pairwise_cons.mp (List.pairwise_append.mp h).2.1).1 _ hg t).1 f g ⟨rfl, rfl⟩⟩

theorem once_lastO {rs : List Act} (h : OncePerType rs) {t : Str} {f : OutCreator} : LastOutput rs t f ↔ .registerOutput t f ∈ rs := by
  constructor
  · rintro ⟨pre, post, rfl, _⟩
    simp
  · intro hm
    obtain ⟨pre, post, rfl⟩ := List.append_of_mem hm
    exact ⟨pre, post, rfl, fun g hg => ((List.pairwise_cons.mp (List.pairwise_append.mp h).2.1).1 _ hg t).2 f g ⟨rfl, rfl⟩⟩

end Log4g
