import Verif.Lemmas.Level
import Verif.Spec.Standard
import Verif.Props.Format

/-! # Facts about programs that use the library as it comes -/

namespace Log4g
open Spec World

theorem flag_detail {layout : Str} {parts : List Part} (h : parser layout = some parts) : Detail (callerInfoFlag parts) := by
  obtain ⟨f2, f10⟩ := C40_flag h (C33_lossless h).2.1
  by_cases h1 : ∃ n ∈ funcVerbs, ∃ sp, .verb n sp ∈ parts.map pieceOf
  · exact .inr (.inr (f2 h1))
  · obtain ⟨g1, g0⟩ := f10 fun n hn sp hm => h1 ⟨n, hn, sp, hm⟩
    by_cases h2 : ∃ n ∈ fileVerbs, ∃ sp, .verb n sp ∈ parts.map pieceOf
    · exact .inr (.inl (g1 h2))
    · exact .inl (g0 fun n hn sp hm => h2 ⟨n, hn, sp, hm⟩)

/-- What holds of a formatter instance. -/
def FmtStd (fo : FmtObj) : Prop :=
  Detail fo.flag ∧ (fo.cfg.type = c!"text" → ∃ parts, newTextFormatter fo.cfg = some parts ∧ fo.flag = callerInfoFlag parts)

/-- What holds of the manager of a program that uses the library as it comes. -/
structure MgrStd (m : Manager) : Prop where
  text : Map.get m.fmtCreators c!"text" = some textCreator
  flags : ∀ t f, Map.get m.fmtCreators t = some f → ∀ k cfg v, f k cfg = .ok v → Detail v
  fmts : ∀ fo ∈ m.fheap, FmtStd fo
  users : ∀ ob ∈ m.oheap, ∀ flag, ob.origin = .user flag → Detail flag

theorem textCreator_ok {k : Nat} {cfg : CfgMap} {v : Int} (h : textCreator k cfg = .ok v) :
    ∃ parts, newTextFormatter cfg = some parts ∧ v = callerInfoFlag parts := by
  unfold textCreator at h
  split at h
  · simp at h
  · rename_i parts hp
    injection h with h
    exact ⟨parts, hp, h.symm⟩

theorem getFormat_std {m : Manager} (h : MgrStd m) (fc : CfgMap) : MgrStd (m.getFormat fc).2 := by
  unfold Manager.getFormat
  split
  · exact h
  · rename_i creator hcr
    split
    · exact h
    · split
      · exact ⟨h.text, h.flags, h.fmts, h.users⟩
      · rename_i flag hflag
        refine ⟨h.text, h.flags, ?_, h.users⟩
        intro fo hfo
        rcases List.mem_append.mp hfo with hh | hh
        · exact h.fmts fo hh
        · simp only [List.mem_singleton] at hh
          subst hh
          refine ⟨h.flags _ _ hcr _ _ _ hflag, ?_⟩
          intro ht
          simp only at ht
          rw [ht, h.text] at hcr
          injection hcr with hcr
          subst hcr
          exact textCreator_ok hflag

theorem getOutput_std {m : Manager} (h : MgrStd m) (oc : CfgMap) (f : Nat) : MgrStd (m.getOutput oc f).2 := by
  unfold Manager.getOutput
  split
  · exact h
  · split
    · exact h
    · split
      · exact ⟨h.text, h.flags, h.fmts, h.users⟩
      · refine ⟨h.text, h.flags, h.fmts, ?_⟩
        intro ob hob flag e
        rcases List.mem_append.mp hob with hh | hh
        · exact h.users ob hh flag e
        · simp only [List.mem_singleton] at hh
          subst hh
          simp at e

theorem one_std {m : Manager} (h : MgrStd m) (opid : Str) : MgrStd (m.one opid).2 := by
  unfold Manager.one
  dsimp only
  split
  · exact h
  · split
    · exact h
    · have := getFormat_std h (m.config.getCfgFormat (m.config.getCfgOutput opid).formatName)
      split
      · rename_i e; rw [e] at this; exact this
      · rename_i e; rw [e] at this; exact getOutput_std this _ _

theorem loop_std {m : Manager} (h : MgrStd m) (names : List Str) : MgrStd (m.loop names).2 := by
  induction names generalizing m with
  | nil => exact h
  | cons n ns ih =>
    unfold Manager.loop
    have h1 := one_std h n
    split
    · rename_i e; rw [e] at h1; exact h1
    · rename_i e; rw [e] at h1
      have h2 := ih h1
      split
      · rename_i e; rw [e] at h2; exact h2
      · rename_i e; rw [e] at h2; exact h2

theorem getLoggerOutputs_std {m : Manager} (h : MgrStd m) (name : Str) : MgrStd (m.getLoggerOutputs name).2 := by
  unfold Manager.getLoggerOutputs
  split
  · exact h
  · rename_i lc _
    have h1 := loop_std h lc.outputNames
    split
    · rename_i e; rw [e] at h1; exact h1
    · rename_i e; rw [e] at h1; exact h1

namespace World

theorem configure_std {w : World} (h : MgrStd w.mgr) (r : Nat) (name : Str) : MgrStd (w.configure r name).mgr := by
  have h1 := getLoggerOutputs_std h name
  unfold configure
  split
  · rename_i e; rw [e] at h1; exact h1
  · rename_i e; rw [e] at h1; exact h1

theorem createLogger_mgr (w : World) (name : Str) (p : Option Nat) : (w.createLogger name p).2.mgr = w.mgr := by
  unfold createLogger
  split <;> rfl

theorem parentLoop_mgr (w : World) (p : Nat) (before rest : Str) : (w.parentLoop p before rest).2.mgr = w.mgr := by
  induction rest generalizing w p before with
  | nil => rfl
  | cons c rest ih =>
    unfold parentLoop
    split
    · rw [ih, createLogger_mgr]
    · exact ih _ _ _

theorem getRootLogger_std {w : World} (h : MgrStd w.mgr) : MgrStd w.getRootLogger.2.mgr := by
  unfold getRootLogger
  split
  · exact h
  · have h1 := getLoggerOutputs_std h rootLoggerName
    dsimp only
    split
    · rename_i e
      rw [e] at h1
      refine ⟨h1.text, h1.flags, h1.fmts, ?_⟩
      intro ob hob flag e
      rcases List.mem_append.mp hob with hh | hh
      · exact h1.users ob hh flag e
      · simp only [List.mem_singleton] at hh
        subst hh
        simp at e
    · rename_i e; rw [e] at h1; exact h1

theorem getLogger_std {w : World} (h : MgrStd w.mgr) (name : Str) : MgrStd (w.getLogger name).2.mgr := by
  unfold getLogger
  split
  · exact getRootLogger_std h
  · split
    · exact h
    · dsimp only
      apply configure_std
      rw [createLogger_mgr, getParent]
      dsimp only
      rw [parentLoop_mgr]
      exact getRootLogger_std h

theorem notify_std {w : World} (h : MgrStd w.mgr) (order : List Nat) : MgrStd (w.notify order).mgr := by
  induction order generalizing w with
  | nil => exact h
  | cons r rs ih =>
    unfold notify
    split
    · exact ih h
    · exact ih (configure_std h _ _)

theorem setConfig_std {w : World} (h : MgrStd w.mgr) (cfg : Config) (order : List Nat) : MgrStd (w.setConfig cfg order).2.mgr := by
  unfold setConfig
  split
  · exact h
  · exact notify_std (w := { w with mgr := { w.mgr with config := cfg } }) ⟨h.text, h.flags, h.fmts, h.users⟩ order

theorem act_std {w : World} (h : MgrStd w.mgr) {a : Act} (ha : Proper a) : MgrStd (a.run w).mgr := by
  cases a with
  | registerFormatter t f =>
    obtain ⟨h1, h2⟩ := ha
    refine ⟨?_, ?_, h.fmts, h.users⟩
    · show Map.get (Map.set w.mgr.fmtCreators t f) c!"text" = some textCreator
      rw [Map.get_set, if_neg h1]; exact h.text
    · intro t' f' hf'
      have hf' : Map.get (Map.set w.mgr.fmtCreators t f) t' = some f' := hf'
      rw [Map.get_set] at hf'
      split at hf'
      · injection hf' with hf'; subst hf'; exact h2
      · exact h.flags _ _ hf'
  | registerOutput t f => exact ⟨h.text, h.flags, h.fmts, h.users⟩
  | setConfig cfg order => exact setConfig_std h cfg order
  | loadConfig d bs ext order => exact setConfig_std h _ order
  | loadConfigFile d file read order =>
    show MgrStd (w.loadConfigFile d file read order).2.mgr
    unfold loadConfigFile
    split
    · exact h
    · split
      · exact h
      · exact setConfig_std h _ order
  | getLogger name => exact getLogger_std h name
  | queryOutputs name => exact getLoggerOutputs_std h name
  | userOutput flag =>
    refine ⟨h.text, h.flags, h.fmts, ?_⟩
    intro ob hob f e
    rcases List.mem_append.mp hob with hh | hh
    · exact h.users ob hh f e
    · simp only [List.mem_singleton] at hh
      subst hh
      injection e with e
      subst e
      exact ha
  | setLevel r lvl => exact h
  | setCallerSkip r skip => exact h
  | setOutputs r ops => exact h

end World

/-- The world after `init`. -/
def initWorld (up : Nat → Bool) : World := (initActs up).foldl (fun w a => a.run w) {}

theorem steps_foldl {w w' : World} {as : List Act} (h : Steps w as w') : w' = as.foldl (fun w a => a.run w) w := by
  induction h with
  | refl => rfl
  | tail _ _ ih => rw [List.foldl_append, ← ih]; rfl

/-- A history can be cut in two. -/
theorem steps_split {w w' : World} {as bs : List Act} (h : Steps w (as ++ bs) w') : ∃ v, Steps w as v ∧ Steps v bs w' := by
  generalize hc : as ++ bs = cs at h
  induction h generalizing bs with
  | refl =>
    obtain ⟨rfl, rfl⟩ := List.append_eq_nil_iff.mp hc
    exact ⟨_, .refl _, .refl _⟩
  | @tail v cs a hs ok ih =>
    rcases List.eq_nil_or_concat bs with rfl | ⟨bs', b, rfl⟩
    · refine ⟨_, ?_, .refl _⟩
      rw [List.append_nil] at hc
      subst hc
      exact hs.tail ok
    · have hc : (as ++ bs') ++ [b] = cs ++ [a] := by simpa using hc
      have e1 := List.append_inj_left' hc rfl
      have e2 := List.append_inj_right' hc rfl
      simp at e2
      subst e2
      obtain ⟨u, h1, h2⟩ := ih e1
      exact ⟨u, h1, by simpa using h2.tail ok⟩

theorem initWorld_std (up : Nat → Bool) : MgrStd (initWorld up).mgr where
  text := rfl
  flags := by
    intro t f hf k cfg v hv
    have hf : Map.get [(c!"text", textCreator)] t = some f := hf
    simp only [Map.get] at hf
    split at hf
    · injection hf with hf; subst hf
      obtain ⟨parts, h1, rfl⟩ := textCreator_ok hv
      exact flag_detail h1
    · simp at hf
  fmts := by intro fo h; cases h
  users := by intro fo h; cases h

namespace Spec.Program
variable {up : Nat → Bool} {as : List Act} {w : World}

theorem after (h : Program up as w) : Steps (initWorld up) as w := by
  obtain ⟨v, h1, h2⟩ := steps_split h.steps
  rw [steps_foldl h1] at h2
  exact h2

theorem std (h : Program up as w) : MgrStd w.mgr := by
  have h1 := h.after
  have h2 := h.proper
  clear h
  generalize hv : initWorld up = v at h1
  induction h1 with
  | refl => subst hv; exact initWorld_std up
  | tail _ _ ih => exact act_std (ih (fun a ha => h2 a (by simp [ha]))) (h2 _ (by simp))

theorem reach (h : Program up as w) : Reach w := ⟨_, h.steps⟩

/-- Every output wants one of the three details. -/
theorem details (h : Program up as w) : ∀ o flag, Wants w o flag → flag = 0 ∨ flag = 1 ∨ flag = 2 := by
  rintro o flag ⟨ob, hob, h1 | ⟨_, i, fo, _, hf, rfl⟩⟩
  · exact h.std.users ob (List.mem_of_getElem? hob) flag h1
  · exact (h.std.fmts fo (List.mem_of_getElem? hf)).1

end Spec.Program

end Log4g

/-! ## Consoles -/

namespace Log4g
open Spec World Strconv
variable {V : Type}

theorem skipOf_init (up : Nat → Bool) (as : List Act) (r : Nat) : skipOf (initActs up ++ as) r = skipOf as r := by
  simp [skipOf, initActs]

theorem threshold_named (s : Str) : ThresholdNamed s (GetThresholdLvl s) := by
  have h := Level.named_levelFrom s
  show ThresholdNamed s (if Level.levelFrom s = (0 : Int) then (1 : Int) else Level.levelFrom s)
  split
  · rename_i e
    exact .inr ⟨e ▸ h, rfl⟩
  · rename_i e
    exact .inl ⟨h, e⟩

theorem threshold_unique {s : Str} {t : Level} (h : ThresholdNamed s t) : GetThresholdLvl s = t := by
  rcases threshold_named s with ⟨a, b⟩ | ⟨a, b⟩ <;> rcases h with ⟨c, d⟩ | ⟨c, d⟩
  · exact Level.named_unique a c
  · exact absurd (Level.named_unique a c) b
  · exact absurd (Level.named_unique c a) d
  · rw [b]; exact d.symm

/-- The layout of a text formatter could be read. -/
theorem textConsole_parts {up : Nat → Bool} {as : List Act} {w : World} (h : Program up as w) {o : Nat} {t : Level} {layout : Str}
    (hc : TextConsole w o t layout) :
    ∃ parts, parser layout = some parts ∧ Wants w o (callerInfoFlag parts) ∧
      ∀ (tc : Toolchain) (lib : Lib V) stack other evt, w.sendWrites tc lib stack other ⟨o, evt⟩ =
        if evt.level < t then [] else [textFormatter lib stack parts evt] := by
  obtain ⟨cfg, i, fo, h1, h2, h3, h4, h5, h6, h7⟩ := hc.made
  obtain ⟨_, hf⟩ := h.std.fmts fo (List.mem_of_getElem? h5)
  obtain ⟨parts, hp, hfl⟩ := hf h6
  have hp' : parser layout = some parts := by rw [← h7]; exact hp
  refine ⟨parts, hp', ⟨_, h1, .inr ⟨by simp, i, fo, rfl, h5, hfl⟩⟩, ?_⟩
  intro tc lib stack other evt
  have hk : OutObj.kind tc ⟨.managed cfg, some i⟩ = .console (.sync t) := by
    simp only [OutObj.kind, CfgMap.type, h2, if_true, newConsoleOutput, h3, and_false, if_false, threshold_unique h4]
  simp only [World.sendWrites, h1, hk, BaseOutput.send]
  split
  · rfl
  · simp only [World.formatterOf, Option.map_some, h5, CfgMap.type, h6, typeText, if_true, hp, List.nil_append]

end Log4g

/-! ## Without configuration -/

namespace Log4g
open Spec World Strconv

/-- The manager after `init`, and after the root logger was made. -/
def initMgr (up : Nat → Bool) : Manager := (initWorld up).mgr
def rootMgr (up : Nat → Bool) : Manager := ((initMgr up).getLoggerOutputs rootLoggerName).2

theorem initLayout_parts : (parser initLayout).map (·.map pieceOf) = some initPieces := by decide +kernel

theorem init_root (up : Nat → Bool) : (initMgr up).getLoggerOutputs rootLoggerName = (.ok ([0], 1), rootMgr up) := rfl

theorem init_other (up : Nat → Bool) {n : Str} (h : n ≠ c!"root") : (rootMgr up).getLoggerOutputs n = (.error (.noLogger n), rootMgr up) := by
  have : (rootMgr up).config.getCfgLogger n = none := by
    show List.find? (fun l : CfgLogger => decide (l.name = n)) [⟨c!"root", c!"all", [c!"c1"]⟩] = none
    have h' : ¬ c!"root" = n := fun e => h e.symm
    simp [h']
  simp only [Manager.getLoggerOutputs, this]

theorem rootMgr_console (up : Nat → Bool) {w : World} (h : w.mgr = rootMgr up) : TextConsole w 0 1 initLayout := by
  refine ⟨some [(c!"type", c!"console"), (c!"name", c!"c1"), (c!"format", c!"f1")], 0,
    ⟨some [(c!"type", c!"text"), (c!"name", c!"f1"), (c!"layout", initLayout)], 2⟩, ?_, rfl, by decide, threshold_named _, ?_, rfl, rfl⟩
  · rw [h]; rfl
  · rw [h]
    rfl

/-- What a program that only asks for loggers finds once there is a root logger. -/
structure DefHeap (up : Nat → Bool) (w : World) : Prop where
  root : Map.get w.loggers c!"root" ≠ none
  mgr : w.mgr = rootMgr up
  heap : ∀ l ∈ w.heap, (l.name = c!"root" ∧ l.level = 1 ∧ l.outputs = [0]) ∨ (l.name ≠ c!"root" ∧ l.level = 0 ∧ l.outputs = [])

/-- What a program that only asks for loggers finds. -/
def DefInv (up : Nat → Bool) (w : World) : Prop := (w.root = none ∧ w.mgr = initMgr up) ∨ DefHeap up w

theorem DefHeap.ofRoot {up : Nat → Bool} {w : World} (inv : WInv w) (h : DefInv up w) : DefHeap up w.getRootLogger.2 := by
  rcases h with ⟨h1, h2⟩ | h
  · obtain ⟨hh, hl⟩ := root_create_inv inv h1
    unfold getRootLogger
    simp only [h1, h2, init_root, hh, hl, List.length_nil, List.nil_append, setLevel, setOutputs, update, List.modify_zero_cons]
    refine ⟨by simp [Map.set, Map.get, rootLoggerName], by first | trivial | rfl, ?_⟩
    intro l hl
    simp only [List.mem_singleton] at hl
    subst hl
    exact .inl ⟨rfl, rfl, rfl⟩
  · have h1 : w.root ≠ none := by
      obtain ⟨r, hr⟩ := Option.ne_none_iff_exists'.mp h.root
      rw [(inv.rootIn r).mpr hr]; simp
    unfold getRootLogger
    split
    · exact h
    · rename_i e; exact absurd e h1

theorem DefHeap.create {up : Nat → Bool} {w : World} (h : DefHeap up w) (name : Str) (p : Option Nat) :
    DefHeap up (w.createLogger name p).2 := by
  unfold createLogger
  split
  · exact h
  · rename_i hnone
    obtain ⟨h1, h2, h3⟩ := h
    have hne : name ≠ c!"root" := by
      rintro rfl; exact h1 hnone
    refine ⟨?_, h2, ?_⟩
    · show Map.get (Map.set w.loggers name _) c!"root" ≠ none
      rw [Map.get_set, if_neg hne]
      exact h1
    · intro l hl
      rcases List.mem_append.mp hl with hl | hl
      · exact h3 l hl
      · simp only [List.mem_singleton] at hl
        subst hl
        exact .inr ⟨hne, rfl, rfl⟩

theorem DefHeap.parents {up : Nat → Bool} {w : World} (h : DefHeap up w) (p : Nat) (before rest : Str) :
    DefHeap up (w.parentLoop p before rest).2 := by
  induction rest generalizing w p before with
  | nil => exact h
  | cons c rest ih =>
    unfold parentLoop
    split
    · exact ih (h.create _ _) _ _
    · exact ih h _ _

theorem DefInv.getLogger {up : Nat → Bool} {w : World} (inv : WInv w) (h : DefInv up w) (name : Str) :
    DefInv up (w.getLogger name).2 := by
  unfold World.getLogger
  split
  · exact .inr (.ofRoot inv h)
  · rename_i hn
    split
    · exact h
    · have h1 := ((DefHeap.ofRoot inv h).parents w.getRootLogger.1 [] name).create name
        (some (w.getRootLogger.2.parentLoop w.getRootLogger.1 [] name).1)
      right
      dsimp only [getParent]
      have hn' : name ≠ c!"root" := fun e => hn (.inr e)
      unfold configure
      rw [h1.mgr, init_other up hn']
      exact ⟨h1.root, rfl, h1.heap⟩

theorem DefInv.setCallerSkip {up : Nat → Bool} {w : World} (h : DefInv up w) (r : Nat) (k : Int) :
    DefInv up (w.setCallerSkip r k) := by
  rcases h with ⟨h1, h2⟩ | h
  · exact .inl ⟨h1, h2⟩
  · refine .inr ⟨h.root, h.mgr, ?_⟩
    intro l hl
    obtain ⟨i, hi⟩ := List.getElem?_of_mem hl
    have hi : (w.setCallerSkip r k).heap[i]? = some l := hi
    rw [World.setCallerSkip, update_heap] at hi
    split at hi
    · cases hw : w.heap[i]? with
      | none => rw [hw] at hi; simp at hi
      | some l0 =>
        rw [hw] at hi
        simp only [Option.map_some, Option.some.injEq] at hi
        subst hi
        exact h.heap l0 (List.mem_of_getElem? hw)
    · exact h.heap l (List.mem_of_getElem? hi)

theorem initWorld_reach (up : Nat → Bool) : Reach (initWorld up) := by
  have h0 : Steps {} [] {} := .refl _
  have h1 := h0.tail (a := .registerFormatter c!"text" textCreator) trivial
  have h2 := h1.tail (a := .registerOutput c!"console" okCreator) trivial
  have h3 := h2.tail (a := .registerOutput c!"memory" okCreator) trivial
  have h4 := h3.tail (a := .registerOutput c!"size_rolling_file" okCreator) trivial
  have h5 := h4.tail (a := .registerOutput c!"time_rolling_file" okCreator) trivial
  have h6 := h5.tail (a := .registerOutput c!"syslog" (syslogCreator up)) trivial
  exact ⟨_, h6.tail (a := .setConfig initConfig []) (List.Perm.refl _)⟩

theorem defInv_steps {up : Nat → Bool} {as : List Act} {w : World} (h : Steps (initWorld up) as w) (ha : ∀ a ∈ as, Asks a) :
    DefInv up w := by
  generalize hv : initWorld up = v at h
  induction h with
  | refl => subst hv; exact .inl ⟨rfl, rfl⟩
  | @tail w' as a hs ok ih =>
    have ih := ih (fun a h => ha a (by simp [h]))
    have inv : WInv w' := by subst hv; exact reach_inv ((initWorld_reach up).steps hs)
    have := ha a (by simp)
    cases a <;> simp only [Asks] at this
    · exact DefInv.getLogger inv ih _
    · exact DefInv.setCallerSkip ih _ _

theorem path_root {n : Str} {ps : List Str} (h : Path n ps) : c!"root" ∈ ps := by
  induction h with
  | root => simp
  | step _ _ _ ih => simp [ih]

/-- Then every logger hands its messages of the six levels to the console of the root logger. -/
theorem def_nearest {up : Nat → Bool} {w : World} (hw : WInv w) (h : DefInv up w) {n : Str} {r : Nat}
    (hn : Map.get w.loggers n = some r) {names : List Str} (hp : Path n names) {lvl : Level} (hl : 1 ≤ lvl) :
    w.mgr = rootMgr up ∧ ∃ pre, Nearest w lvl names pre c!"root" [] [0] := by
  have h : DefHeap up w := by
    rcases h with ⟨h1, _⟩ | h
    · exfalso
      obtain ⟨hh, hll⟩ := root_create_inv hw h1
      rw [hll] at hn; simp [Map.get] at hn
    · exact h
  refine ⟨h.mgr, ?_⟩
  obtain ⟨pre, hpre⟩ : ∃ pre, names = pre ++ [c!"root"] ∧ ∀ x ∈ pre, x ≠ c!"root" := by
    clear hn
    induction hp with
    | root => exact ⟨[], rfl, by simp⟩
    | @step n p ps hne _ _ ih =>
      obtain ⟨pre, rfl, h2⟩ := ih
      exact ⟨n :: pre, rfl, by
        intro x hx
        rcases List.mem_cons.mp hx with rfl | hx
        · exact hne
        · exact h2 x hx⟩
  obtain ⟨rfl, hne⟩ := hpre
  have at_ : ∀ x ∈ pre ++ [c!"root"], ∃ rx l, Map.get w.loggers x = some rx ∧ w.heap[rx]? = some l ∧ l.name = x := by
    intro x hx
    obtain ⟨rx, hrx⟩ := on_path hw hn hp x hx
    obtain ⟨l, h1, h2⟩ := hw.named _ _ hrx
    exact ⟨rx, l, hrx, h1, h2⟩
  refine ⟨pre, rfl, ?_, ?_, by simp, ?_⟩
  · intro x hx
    obtain ⟨rx, l, h1, h2, h3⟩ := at_ x (by simp [hx])
    rcases h.heap l (List.mem_of_getElem? h2) with ⟨e, _⟩ | ⟨_, _, e⟩
    · exact absurd (h3.symm.trans e) (hne x hx)
    · exact ⟨l, loggerAt_of_get h1 h2, e⟩
  · obtain ⟨rx, l, h1, h2, h3⟩ := at_ c!"root" (by simp)
    rcases h.heap l (List.mem_of_getElem? h2) with ⟨_, _, e⟩ | ⟨e, _⟩
    · exact ⟨l, loggerAt_of_get h1 h2, e⟩
    · exact absurd h3 e
  · intro x hx
    obtain ⟨rx, l, h1, h2, h3⟩ := at_ x hx
    refine ⟨rx, h1, ?_⟩
    obtain ⟨ps, hps⟩ := path_exists x
    obtain ⟨lv, e, hc⟩ := levelWalk_spec hw hps h1 (lt_heap hw h1)
    have hlv : w.level rx = lv := by simp [level, e]
    have : lv = 1 := by
      rcases hc with ⟨_, m, _, _, _, l', g1, g2, g3⟩ | ⟨hall, _⟩
      · unfold loggerAt at g1
        cases hm : Map.get w.loggers m with
        | none => rw [hm] at g1; simp at g1
        | some rm =>
          rw [hm] at g1
          rcases h.heap l' (List.mem_of_getElem? (i := rm) g1) with ⟨_, e2, _⟩ | ⟨_, e2, _⟩
          · rw [← g2, e2]
          · rw [e2] at g2; exact absurd g2.symm g3
      · exfalso
        have hr : c!"root" ∈ ps := path_root hps
        obtain ⟨l', g1, g2⟩ := hall _ hr
        obtain ⟨rr, lr, q1, q2, q3⟩ := at_ c!"root" (by simp)
        rw [loggerAt_of_get q1 q2] at g1
        injection g1 with g1
        subst g1
        rcases h.heap lr (List.mem_of_getElem? q2) with ⟨_, e2, _⟩ | ⟨e2, _⟩
        · rw [e2] at g2; exact absurd g2 (by decide)
        · exact absurd q3 e2
    simp only [levelEnabled, hlv, this, decide_eq_true_eq]
    exact hl

end Log4g

/-! ## Lines -/

namespace Log4g
open Spec World Strconv
variable {V : Type}

/-- What one console prints of one delivery. -/
theorem console_line {up : Nat → Bool} {as : List Act} {w : World} (h : Program up as w) {n : Str} {r : Nat}
    (hn : Map.get w.loggers n = some r) (now : Nat) (stack : List Frame) (ctx : Ctx V) (hctx : ctx.value callerInfoKey = .nil)
    {m : Method} {args : List V} {k : Nat} (hk : skipOf as r = k) {fr : Frame} (hfr : stack[k]? = some fr)
    (tc : Toolchain) (lib : Lib V) (stack' : List Frame) (other : Nat → Formatter V) {d : Delivery V}
    (hd : d ∈ (w.call now stack r ctx m args).deliveries) {t : Level} {layout : Str} (hc : TextConsole w d.out t layout) :
    (d.evt.level < t → w.sendWrites tc lib stack' other d = []) ∧
    (t ≤ d.evt.level → ∃ ps ci text, Cut layout ps ∧ Site fr ci ps ∧ Line lib d.evt ci ps text ∧
      w.sendWrites tc lib stack' other d = [text.bytes]) := by
  obtain ⟨parts, hp, hw, hs⟩ := textConsole_parts (V := V) h hc
  have hs := hs tc lib stack' other d.evt
  obtain ⟨ci, line, e', h1, h2, h3, h4⟩ := C76_logged_line h.steps hn h.details now stack ctx hctx m args k
    (by rw [skipOf_init]; exact hk) fr hfr hp (C33_lossless hp).2.1 lib d hd hw stack'
  constructor
  · intro hl
    rw [if_pos hl] at hs
    exact hs
  · intro hl
    rw [if_neg (Int.not_lt.mpr hl)] at hs
    refine ⟨parts.map pieceOf, ci, line, (C33_lossless hp).2.1, ⟨h3, h4⟩, h2, ?_⟩
    rw [show w.sendWrites tc lib stack' other d = w.sendWrites tc lib stack' other ⟨d.out, d.evt⟩ from rfl, hs]
    simp [textFormatter, h1]

theorem message_of (lib : Lib V) {e : Event V} {fmt : Option Str} (hf : e.format = fmt.getD []) : Message lib fmt e.arguments (e.message lib) := by
  unfold Event.message
  by_cases ha : e.arguments = []
  · simp only [ha, ne_eq, not_true_eq_false, if_false, hf]
    cases fmt with
    | none => exact .nothing
    | some f => exact .bare
  · simp only [ne_eq, ha, not_false_eq_true, if_true, hf]
    cases fmt with
    | none => exact .printed (.inl rfl) ha
    | some f =>
      by_cases hf : f = []
      · subst hf; exact .printed (.inr rfl) ha
      · simp only [Option.getD_some, hf, not_false_eq_true, if_true]
        exact .formatted hf ha

/-- The line of the layout the library starts with. -/
theorem init_line (lib : Lib V) {e : Event V} {ci : CallerInfo} {text : Str} (h : Line lib e ci initPieces text) :
    text = lib.timeFormat e.time c!"2006-01-02T15:04:05.000Z07:00" ++ c!"|" ++ lib.sprintf c!"%-5s" [.str (Level.toStr e.level)] ++
      c!"|" ++ lib.sprintf c!"%6d" [.int lib.pid] ++ c!"|" ++ e.name ++ c!" >> " ++ e.message lib ++ c!" (" ++ ci.fun_ ++
      c!"@" ++ ci.pkg ++ c!"/" ++ goBase ci.file ++ c!":" ++ lib.sprintf c!"%v" [.int ci.line] ++ c!") \n" := by
  have l := Line.nil (lib := lib) (e := e) (ci := ci)
  have l := l.cons (p := .lit c!") \n") .lit
  have l := l.cons (p := .verb c!"line" none) (.plain .line (.other (by simp) (by simp)))
  have l := l.cons (p := .lit c!":") .lit
  have l := l.cons (p := .verb c!"shortfile" none) (.plain (.shortfile (goBase_spec _)) .str)
  have l := l.cons (p := .lit c!"/") .lit
  have l := l.cons (p := .verb c!"longpkg" none) (.plain .longpkg .str)
  have l := l.cons (p := .lit c!"@") .lit
  have l := l.cons (p := .verb c!"longfunc" none) (.plain .longfunc .str)
  have l := l.cons (p := .lit c!" (") .lit
  have l := l.cons (p := .verb c!"msg" none) (.plain .msg .str)
  have l := l.cons (p := .lit c!" >> ") .lit
  have l := l.cons (p := .verb c!"module" none) (.plain .module_ .str)
  have l := l.cons (p := .lit c!"|") .lit
  have l := l.cons (p := .verb c!"pid" (some c!"6d")) (.fmt (by decide) .pid)
  have l := l.cons (p := .lit c!"|") .lit
  have l := l.cons (p := .verb c!"level" (some c!"-5s")) (.fmt (by decide) .level)
  have l := l.cons (p := .lit c!"|") .lit
  have l := l.cons (p := .verb c!"time" none) (.plain .time .str)
  rw [line_eq h l]
  simp [longName_eq, messageText_eq]

end Log4g
