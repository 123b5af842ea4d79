import Verif.Spec.Shuffled
import Verif.Lemmas.Fetch
import Verif.Lemmas.Config

/-! # Helpers for C138 -/

namespace Log4g
open Spec World

/-- Looking up the output of this name and its format gives the same in both. -/
def AlikeFor (c c' : Config) (n : Str) : Prop :=
  c'.getCfgOutput n = c.getCfgOutput n ∧ c'.getCfgFormat (c.getCfgOutput n).formatName = c.getCfgFormat (c.getCfgOutput n).formatName

/-- Looking up a logger with a name in `S`, or an output that a logger has, or its format, gives the same in both. -/
structure AnswersOn (S : Str → Prop) (c c' : Config) : Prop where
  outputs : ∀ l ∈ c.loggers, ∀ n ∈ l.outputNames, AlikeFor c c' n
  loggers : ∀ n, S n → c'.getCfgLogger n = c.getCfgLogger n

/-- Looking up a logger, or an output that a logger has, or its format, gives the same in both. -/
abbrev AnswersAlike (c c' : Config) : Prop := AnswersOn (fun _ => True) c c'

theorem find_perm {α : Type} (f : α → Str) {l l' : List α} (h : l.Perm l') (hn : (l.map f).Nodup) (n : Str) : l'.find? (fun x => f x = n) = l.find? (fun x => f x = n) := by
  induction h with
  | nil => rfl
  | cons x _ ih =>
    simp only [List.find?_cons]
    rw [ih (List.nodup_cons.mp hn).2]
  | swap x y l =>
    simp only [List.map_cons, List.nodup_cons, List.mem_cons, not_or] at hn
    simp only [List.find?_cons]
    by_cases h1 : f x = n
    · by_cases h2 : f y = n
      · exact absurd (h2.trans h1.symm) hn.1.1
      · simp [h1, h2]
    · simp [h1]
  | trans h1 _ ih1 ih2 =>
    rw [ih2 ((h1.map f).nodup_iff.mp hn), ih1 hn]

theorem shuffled_agree {c c' : Config} (h : Shuffled c c') (hc : Consistent c) (hn : (c.loggers.map (·.name)).Nodup) : AnswersAlike c c' := by
  refine ⟨fun l _ n _ => ⟨?_, ?_⟩, fun n _ => ?_⟩
  · simp only [Config.getCfgOutput]
    rw [find_perm CfgMap.name h.outputs hc.outputs]
  · generalize (c.getCfgOutput n).formatName = k
    simp only [Config.getCfgFormat]
    rw [find_perm CfgMap.name h.formats hc.formats]
  · exact find_perm CfgLogger.name h.loggers hn n

theorem shuffled_consistent {c c' : Config} (h : Shuffled c c') (hc : Consistent c) : Consistent c' := by
  refine ⟨(h.formats.map _).nodup_iff.mp hc.formats, (h.outputs.map _).nodup_iff.mp hc.outputs, fun o ho => ?_, fun l hl n hn => ?_⟩
  · obtain ⟨f, hf, e⟩ := hc.outputFormats o (h.outputs.mem_iff.mpr ho)
    exact ⟨f, h.formats.mem_iff.mp hf, e⟩
  · obtain ⟨o, ho, e⟩ := hc.loggerOutputs l (h.loggers.mem_iff.mpr hl) n hn
    exact ⟨o, h.outputs.mem_iff.mp ho, e⟩

theorem shuffled_back {c c' : Config} (h : Shuffled c c') : Shuffled c' c := ⟨h.formats.symm, h.outputs.symm, h.loggers.symm⟩

theorem getFormat_agree (m : Manager) (c' : Config) (fc : CfgMap) : (m.withC c').getFormat fc = ((m.getFormat fc).1, (m.getFormat fc).2.withC c') := by
  simp only [Manager.getFormat, Manager.withC]
  split
  · rfl
  · split
    · rfl
    · split <;> rfl

theorem getOutput_agree (m : Manager) (c' : Config) (oc : CfgMap) (f : Nat) : (m.withC c').getOutput oc f = ((m.getOutput oc f).1, (m.getOutput oc f).2.withC c') := by
  simp only [Manager.getOutput, Manager.withC]
  split
  · rfl
  · split
    · rfl
    · split <;> rfl

theorem one_agree {c c' : Config} (m : Manager) (hm : m.config = c) (n : Str) (ag : AlikeFor c c' n) : (m.withC c').one n = ((m.one n).1, (m.one n).2.withC c') := by
  have h1 : (m.withC c').config.getCfgOutput n = m.config.getCfgOutput n := by rw [hm]; exact ag.1
  have h2 : (m.withC c').config.getCfgFormat (m.config.getCfgOutput n).formatName = m.config.getCfgFormat (m.config.getCfgOutput n).formatName := by rw [hm]; exact ag.2
  simp only [Manager.one, h1, h2]
  split
  · rfl
  · split
    · rfl
    · rw [getFormat_agree]
      generalize m.getFormat (m.config.getCfgFormat (m.config.getCfgOutput n).formatName) = g
      obtain ⟨a, b⟩ := g
      cases a with
      | error e => rfl
      | ok f => exact getOutput_agree _ _ _ _

theorem loop_agree {c c' : Config} (names : List Str) (m : Manager) (hm : m.config = c) (ag : ∀ n ∈ names, AlikeFor c c' n) : (m.withC c').loop names = ((m.loop names).1, (m.loop names).2.withC c') := by
  induction names generalizing m with
  | nil => rfl
  | cons n ns ih =>
    have hs := one_same m n
    simp only [Manager.loop]
    rw [one_agree m hm n (ag n (.head _))]
    generalize m.one n = g at hs
    obtain ⟨a, b⟩ := g
    cases a with
    | error e => rfl
    | ok o =>
      simp only at hs ⊢
      rw [ih b (hs.trans hm) fun k hk => ag k (.tail _ hk)]
      generalize b.loop ns = g
      obtain ⟨a, b⟩ := g
      cases a <;> rfl

theorem outputs_agree {S : Str → Prop} {c c' : Config} (ag : AnswersOn S c c') (m : Manager) (hm : m.config = c) {n : Str} (hn : S n) :
    (m.withC c').getLoggerOutputs n = ((m.getLoggerOutputs n).1, (m.getLoggerOutputs n).2.withC c') := by
  have h : (m.withC c').config.getCfgLogger n = m.config.getCfgLogger n := by rw [hm]; exact ag.loggers n hn
  simp only [Manager.getLoggerOutputs, h]
  cases he : m.config.getCfgLogger n with
  | none => rfl
  | some lc =>
    simp only
    rw [loop_agree _ m hm (ag.outputs lc (List.mem_of_find?_eq_some (by rw [← hm]; exact he)))]
    generalize m.loop lc.outputNames = g
    obtain ⟨a, b⟩ := g
    cases a <;> rfl

/-- The same with another configuration. -/
def reconf (w : World) (c : Config) : World := { w with mgr := w.mgr.withC c }

theorem raiseFlag_withC (m : Manager) (c : Config) (flag : Int) (ops : List Nat) : raiseFlag (m.withC c) flag ops = raiseFlag m flag ops := by
  induction ops generalizing flag with
  | nil => rfl
  | cons o os ih =>
    simp only [raiseFlag]
    exact ih _

theorem setOutputs_reconf (w : World) (c : Config) (r : Nat) (ops : List Nat) : (reconf w c).setOutputs r ops = reconf (w.setOutputs r ops) c := by
  simp only [setOutputs, update, reconf, raiseFlag_withC]

theorem configure_reconf {S : Str → Prop} {c c' : Config} (ag : AnswersOn S c c') (w : World) (hw : w.mgr.config = c) (r : Nat) {n : Str} (hn : S n) : (reconf w c').configure r n = reconf (w.configure r n) c' := by
  unfold configure
  rw [show (reconf w c').mgr = w.mgr.withC c' from rfl, outputs_agree ag _ hw hn]
  generalize w.mgr.getLoggerOutputs n = g
  obtain ⟨a, m⟩ := g
  cases a with
  | error e => rfl
  | ok x => exact setOutputs_reconf (({ w with mgr := m } : World).setLevel r x.2) c' r x.1

theorem root_reconf {S : Str → Prop} {c c' : Config} (ag : AnswersOn S c c') (hr : S rootLoggerName) (w : World) (hw : w.mgr.config = c) : (reconf w c').getRootLogger = (w.getRootLogger.1, reconf w.getRootLogger.2 c') := by
  unfold getRootLogger
  rw [show (reconf w c').root = w.root from rfl]
  cases w.root with
  | some r => rfl
  | none =>
    simp only
    rw [show (reconf w c').mgr = w.mgr.withC c' from rfl, outputs_agree ag _ hw hr]
    generalize w.mgr.getLoggerOutputs rootLoggerName = g
    obtain ⟨a, m⟩ := g
    cases a with
    | error e =>
      simp only [setOutputs, update, raiseFlag, setLevel, reconf]
      rfl
    | ok x =>
      simp only [setOutputs, update, setLevel, reconf, raiseFlag_withC]

theorem create_reconf (w : World) (c' : Config) (n : Str) (p : Option Nat) : (reconf w c').createLogger n p = ((w.createLogger n p).1, reconf (w.createLogger n p).2 c') := by
  unfold createLogger
  rw [show (reconf w c').loggers = w.loggers from rfl]
  cases Map.get w.loggers n <;> rfl

theorem parent_reconf (c' : Config) : ∀ (rest : Str) (w : World) (p : Nat) (before : Str), (reconf w c').parentLoop p before rest = ((w.parentLoop p before rest).1, reconf (w.parentLoop p before rest).2 c')
  | [], _, _, _ => rfl
  | c :: rest, w, p, before => by
    simp only [parentLoop]
    split
    · rw [create_reconf]
      exact parent_reconf c' rest _ _ _
    · exact parent_reconf c' rest _ _ _

theorem loop_cfgKept (names : List Str) (m : Manager) : (m.loop names).2.config = m.config := by
  induction names generalizing m with
  | nil => rfl
  | cons n ns ih =>
    have hs := one_same m n
    simp only [Manager.loop]
    generalize m.one n = g at hs
    obtain ⟨a, b⟩ := g
    cases a with
    | error e => exact hs
    | ok o =>
      have h := ih b
      simp only at hs ⊢
      generalize b.loop ns = g at h
      obtain ⟨a, b'⟩ := g
      cases a <;> exact h.trans hs

theorem outputs_cfgKept (m : Manager) (n : Str) : (m.getLoggerOutputs n).2.config = m.config := by
  simp only [Manager.getLoggerOutputs]
  cases m.config.getCfgLogger n with
  | none => rfl
  | some lc =>
    have h := loop_cfgKept lc.outputNames m
    simp only
    generalize m.loop lc.outputNames = g at h
    obtain ⟨a, b⟩ := g
    cases a <;> exact h

theorem configure_cfgKept (w : World) (r : Nat) (n : Str) : (w.configure r n).mgr.config = w.mgr.config := by
  have h := outputs_cfgKept w.mgr n
  unfold configure
  generalize w.mgr.getLoggerOutputs n = g at h
  obtain ⟨a, m⟩ := g
  cases a <;> exact h

theorem root_cfgKept (w : World) : w.getRootLogger.2.mgr.config = w.mgr.config := by
  have h := outputs_cfgKept w.mgr rootLoggerName
  unfold getRootLogger
  cases w.root with
  | some r => rfl
  | none =>
    simp only
    generalize w.mgr.getLoggerOutputs rootLoggerName = g at h
    obtain ⟨a, m⟩ := g
    cases a <;> exact h

theorem create_cfgKept (w : World) (n : Str) (p : Option Nat) : (w.createLogger n p).2.mgr = w.mgr := by
  unfold createLogger
  cases Map.get w.loggers n <;> rfl

theorem parent_cfgKept : ∀ (rest : Str) (w : World) (p : Nat) (before : Str), (w.parentLoop p before rest).2.mgr = w.mgr
  | [], _, _, _ => rfl
  | c :: rest, w, p, before => by
    simp only [parentLoop]
    split
    · exact (parent_cfgKept rest _ _ _).trans (create_cfgKept _ _ _)
    · exact parent_cfgKept rest _ _ _

theorem get_reconf {S : Str → Prop} {c c' : Config} (ag : AnswersOn S c c') (hr : S rootLoggerName) (w : World) (hw : w.mgr.config = c) {n : Str} (hn : n = [] ∨ S n) : (reconf w c').getLogger n = ((w.getLogger n).1, reconf (w.getLogger n).2 c') := by
  unfold getLogger
  split
  · exact root_reconf ag hr w hw
  · rename_i hne
    have hn : S n := hn.resolve_left fun e => hne (.inl e)
    rw [show (reconf w c').loggers = w.loggers from rfl]
    cases Map.get w.loggers n with
    | some r => rfl
    | none =>
      simp only [getParent]
      rw [root_reconf ag hr w hw]
      simp only
      rw [parent_reconf]
      simp only
      rw [create_reconf]
      simp only
      rw [configure_reconf ag _ _ _ hn]
      rw [create_cfgKept, parent_cfgKept, root_cfgKept]
      exact hw

theorem get_cfgKept (w : World) (n : Str) : (w.getLogger n).2.mgr.config = w.mgr.config := by
  unfold getLogger
  split
  · exact root_cfgKept w
  · cases Map.get w.loggers n with
    | some r => rfl
    | none =>
      simp only [getParent]
      rw [configure_cfgKept, create_cfgKept, parent_cfgKept, root_cfgKept]

theorem update_sameNames (w : World) (r : Nat) (f : Logger → Logger) (hf : ∀ l, (f l).name = l.name) : (w.update r f).heap.map (·.name) = w.heap.map (·.name) := by
  refine List.ext_getElem? fun i => ?_
  simp only [update, List.getElem?_map, List.getElem?_modify]
  cases w.heap[i]? with
  | none => rfl
  | some l => by_cases h : r = i <;> simp [h, hf]

theorem configure_sameNames (w : World) (r : Nat) (n : Str) : (w.configure r n).heap.map (·.name) = w.heap.map (·.name) := by
  unfold configure
  generalize w.mgr.getLoggerOutputs n = g
  obtain ⟨a, m⟩ := g
  cases a with
  | error e => rfl
  | ok x =>
    obtain ⟨ops, lvl⟩ := x
    simp only [setOutputs, setLevel]
    refine (update_sameNames _ r _ ?_).trans (update_sameNames _ r _ ?_)
    · exact fun l => rfl
    · exact fun l => rfl

theorem notify_reconf {S : Str → Prop} {c c' : Config} (ag : AnswersOn S c c') (order : List Nat) (w : World) (hw : w.mgr.config = c) (hS : ∀ n ∈ w.heap.map (·.name), S n) : (reconf w c').notify order = reconf (w.notify order) c' := by
  induction order generalizing w with
  | nil => rfl
  | cons r rs ih =>
    simp only [notify]
    rw [show (reconf w c').heap = w.heap from rfl]
    cases hl : w.heap[r]? with
    | none => exact ih w hw hS
    | some l =>
      simp only
      rw [configure_reconf ag w hw r (hS _ (List.mem_map_of_mem (List.mem_of_getElem? hl)))]
      exact ih _ ((configure_cfgKept w r l.name).trans hw) (by rw [configure_sameNames]; exact hS)

theorem notify_cfgKept (order : List Nat) (w : World) : (w.notify order).mgr.config = w.mgr.config := by
  induction order generalizing w with
  | nil => rfl
  | cons r rs ih =>
    simp only [notify]
    cases w.heap[r]? with
    | none => exact ih w
    | some l => exact (ih _).trans (configure_cfgKept w r l.name)

/-- The call is about loggers with names in `S`, if it is about the entry of a logger. -/
def About (S : Str → Prop) : Act → Prop
  | .getLogger n => n = [] ∨ S n
  | .queryOutputs n => S n
  | _ => True

theorem about_any (a : Act) : About (fun _ => True) a := by
  cases a <;> first | trivial | exact .inr trivial

/-- The second world is the first, or the first with the other configuration. -/
def Behind (c c' : Config) (w w' : World) : Prop := w' = w ∨ (w.mgr.config = c ∧ w' = reconf w c')

theorem set_behind {c c' : Config} {w w' : World} (h : Behind c c' w w') (cfg : Config) (order : List Nat) :
    (w'.setConfig cfg order).1 = (w.setConfig cfg order).1 ∧ Behind c c' (w.setConfig cfg order).2 (w'.setConfig cfg order).2 := by
  rcases h with h | ⟨h1, h2⟩
  · rw [h]; exact ⟨rfl, .inl rfl⟩
  · unfold setConfig
    cases validateConfig cfg with
    | some e => exact ⟨rfl, .inr ⟨h1, h2⟩⟩
    | none => rw [h2]; exact ⟨rfl, .inl rfl⟩

theorem act_behind {S : Str → Prop} {c c' : Config} (ag : AnswersOn S c c') (hr : S rootLoggerName) {w w' : World} (h : Behind c c' w w') (a : Act) (hS : About S a) (ha : a.ok w) : a.ok w' ∧ Behind c c' (a.run w) (a.run w') := by
  have hok : a.ok w' := by
    rcases h with h | ⟨_, h⟩
    · rw [h]; exact ha
    · rw [h]; cases a <;> exact ha
  refine ⟨hok, ?_⟩
  have h0 := h
  rcases h with h | ⟨h1, h2⟩
  · rw [h]; exact .inl rfl
  · cases a with
    | registerFormatter t f => rw [h2]; exact .inr ⟨h1, rfl⟩
    | registerOutput t f => rw [h2]; exact .inr ⟨h1, rfl⟩
    | setConfig cfg order => exact (set_behind h0 cfg order).2
    | loadConfig d bs ext order => exact (set_behind h0 _ order).2
    | loadConfigFile d file read order =>
      simp only [Act.run, loadConfigFile]
      cases read with
      | none => exact h0
      | some bs =>
        simp only
        cases pathExt file with
        | nil => exact h0
        | cons x ext => exact (set_behind h0 _ order).2
    | getLogger n =>
      simp only [Act.run]
      rw [h2, get_reconf ag hr w h1 hS]
      exact .inr ⟨(get_cfgKept w n).trans h1, rfl⟩
    | queryOutputs n =>
      refine .inr ⟨(outputs_cfgKept w.mgr n).trans h1, ?_⟩
      simp only [Act.run, queryOutputs]
      rw [h2, show (reconf w c').mgr = w.mgr.withC c' from rfl, outputs_agree ag _ h1 hS]
      rfl
    | userOutput flag => rw [h2]; exact .inr ⟨h1, rfl⟩
    | setLevel r lvl => rw [h2]; exact .inr ⟨h1, rfl⟩
    | setCallerSkip r skip => rw [h2]; exact .inr ⟨h1, rfl⟩
    | setOutputs r ops => rw [h2]; exact .inr ⟨h1, setOutputs_reconf w c' r ops⟩

theorem steps_behind {S : Str → Prop} {c c' : Config} (ag : AnswersOn S c c') (hr : S rootLoggerName) {w w' : World} (h : Behind c c' w w') {as : List Act} {w1 : World} (hS : ∀ a ∈ as, About S a) (hs : Steps w as w1) :
    ∃ w2, Steps w' as w2 ∧ Behind c c' w1 w2 := by
  induction hs with
  | refl => exact ⟨w', .refl _, h⟩
  | tail _ ha ih =>
    obtain ⟨w2, h1, h2⟩ := ih fun a h => hS a (List.mem_append_left _ h)
    obtain ⟨h3, h4⟩ := act_behind ag hr h2 _ (hS _ (by simp)) ha
    exact ⟨_, .tail h1 h3, h4⟩

theorem behind_same {c c' : Config} {w w' : World} (h : Behind c c' w w') : SameButConfig w w' := by
  rcases h with h | ⟨_, h⟩
  · exact ⟨w.mgr.config, h⟩
  · exact ⟨c', h⟩

end Log4g
