import Verif.Lemmas.Fetch
import Verif.Props.Demo

/-! # Properties of configuration: C10, C17–C24, C26, C27

`w` is a state some history of API calls leads to (`Reach w`). -/

namespace Log4g
open Spec World

/-! ## C10 -/

/-- C10 is false: the logger "a" of the sample program has an entry with level Debug; it was made as the
parent of "a/b" and never got it. -/
theorem C10_configured_refuted : ∃ (w : World) (n : Str) (e : CfgLogger), Reach w ∧ FirstLogger w.mgr.config n e ∧
    (∀ k ∈ e.outputNames, Creatable w.mgr k) ∧ ¬ HasEntry (w.getLogger n).2 n e := by
  refine ⟨Demo.w1, c!"a", ⟨c!"a", c!"debug", []⟩, Demo.w1_reach, ⟨[⟨c!"root", c!"warn", [c!"o1"]⟩], [⟨c!"x", c!"info", [c!"o2", c!"o1"]⟩], rfl, rfl, by decide⟩, by simp, ?_⟩
  rintro ⟨l, h1, h2, _⟩
  have : l.level = 0 := by
    have h3 : loggerAt (Demo.w1.getLogger c!"a").2 c!"a" = some ⟨c!"a", 0, some 0, [], 3, 0⟩ := rfl
    rw [h3] at h1; injection h1 with h1; rw [← h1]
  rw [this] at h2
  exact absurd (Level.named_unique h2 (Level.named_levelFrom _)) (by decide)

/-- C10 for a logger that does not exist yet; "" stands for the root logger. -/
theorem C10_configured_partial {w : World} (hw : Reach w) {n : Str} {e : CfgLogger}
    (hnew : Map.get w.loggers (if n = [] then c!"root" else n) = none)
    (he : FirstLogger w.mgr.config (if n = [] then c!"root" else n) e) (hc : ∀ k ∈ e.outputNames, Creatable w.mgr k) :
    HasEntry (w.getLogger n).2 (if n = [] then c!"root" else n) e ∧
    Map.get (w.getLogger n).2.loggers (if n = [] then c!"root" else n) = some (w.getLogger n).1 := by
  have inv := reach_inv hw
  have s := getLogger_spec inv n
  refine ⟨?_, s.get⟩
  by_cases hr : n = [] ∨ n = rootLoggerName
  · have e1 : (if n = [] then c!"root" else n) = rootLoggerName := by
      rcases hr with h | h
      · simp [h, rootLoggerName]
      · simp [h, rootLoggerName]
    rw [e1] at hnew he ⊢
    refine getLogger_new_root inv hr ?_ he hc
    cases h : w.root with
    | none => rfl
    | some r => rw [(inv.rootIn r).mp h] at hnew; simp at hnew
  · simp only [not_or] at hr
    rw [if_neg hr.1] at hnew he ⊢
    have h := s.get
    rw [if_neg hr.1] at h
    exact configured_entry s.inv h (s.fresh hr.1 hr.2 hnew e he hc)

/-! ## C17, C18 -/

/-- C17 -/
theorem C17_set_config {w : World} (hw : Reach w) (cfg : Config) (order : List Nat) :
    ((w.setConfig cfg order).1 = none ↔ Consistent cfg) ∧
    ((w.setConfig cfg order).1 ≠ none → (w.setConfig cfg order).2 = w) ∧
    ((w.setConfig cfg order).1 = none → (w.setConfig cfg order).2.mgr.config = cfg) := by
  have inv := reach_inv hw
  unfold setConfig
  cases h : validateConfig cfg with
  | some e =>
    refine ⟨?_, fun _ => rfl, by simp⟩
    simp only [reduceCtorEq, false_iff]
    intro hc
    rw [(validateConfig_none_iff cfg).mpr hc] at h; simp at h
  | none =>
    refine ⟨by simpa using (validateConfig_none_iff cfg).mp h, by simp, ?_⟩
    intro _
    exact (notify_spec (withConfig_inv inv cfg).1 order).2.2.1.config

example : Consistent Demo.cfg := (validateConfig_none_iff _).mp rfl
example : ¬ Consistent { Demo.cfg with formats := [] } :=
  fun h => absurd ((validateConfig_none_iff _).mpr h) (by decide)

/-- C18 is false: two loggers named "x" are accepted. -/
theorem C18_duplicate_loggers_refuted : ∃ cfg : Config, ¬ (cfg.loggers.map (·.name)).Nodup ∧
    ∀ w order, (World.setConfig w cfg order).1 = none := by
  refine ⟨{ loggers := [⟨c!"x", c!"info", []⟩, ⟨c!"x", c!"debug", []⟩] }, by decide, fun w order => rfl⟩

/-- C18, what the code does instead: of several entries with one name the first counts and the others do
nothing; a configuration without them is equally accepted, and makes the same manager answers. -/
theorem C18_duplicate_loggers_partial (cfg : Config) (pre mid post : List CfgLogger) (e e' : CfgLogger)
    (hcfg : cfg.loggers = pre ++ e :: mid ++ e' :: post) (hname : e'.name = e.name) :
    (Consistent cfg → Consistent { cfg with loggers := pre ++ e :: mid ++ post }) ∧
    (∀ n x, FirstLogger cfg n x ↔ FirstLogger { cfg with loggers := pre ++ e :: mid ++ post } n x) ∧
    (∀ (m : Manager) n, ({ m with config := cfg } : Manager).getLoggerOutputs n =
      ((({ m with config := { cfg with loggers := pre ++ e :: mid ++ post } } : Manager).getLoggerOutputs n).1,
        { (({ m with config := { cfg with loggers := pre ++ e :: mid ++ post } } : Manager).getLoggerOutputs n).2 with config := cfg })) := by
  have hfind : ∀ n, cfg.getCfgLogger n = ({ cfg with loggers := pre ++ e :: mid ++ post } : Config).getCfgLogger n := by
    intro n
    simp only [Config.getCfgLogger, hcfg, List.find?_append, List.find?_cons]
    by_cases h : e.name = n
    · simp [h]
    · simp [h, hname]
  refine ⟨?_, ?_, ?_⟩
  · intro h
    refine ⟨h.formats, h.outputs, h.outputFormats, ?_⟩
    intro l hl
    refine h.loggerOutputs l ?_
    rw [hcfg]; simp only [List.mem_append, List.mem_cons] at hl ⊢
    rcases hl with (h | h) | h
    · exact .inl (.inl h)
    · exact .inl (.inr h)
    · exact .inr (.inr h)
  · intro n x
    rw [← firstLogger_iff, ← firstLogger_iff, hfind]
  · intro m n
    have hl := fun names => loop_config { m with config := cfg } { cfg with loggers := pre ++ e :: mid ++ post } rfl rfl names
    simp only [Manager.withC] at hl
    unfold Manager.getLoggerOutputs
    simp only
    rw [hfind]
    split
    · rfl
    · rename_i lc _
      rw [hl lc.outputNames]
      generalize Manager.loop _ lc.outputNames = g
      obtain ⟨a, b⟩ := g
      cases a <;> rfl

/-! ## C19, C20 -/

/-- C19 is false: an unsupported extension is no error, and the configuration is replaced by an empty one. -/
theorem C19_load_errors_refuted : ∃ (w : World), Reach w ∧ w.mgr.config.loggers ≠ [] ∧
    ∀ d bs, (w.loadConfig d bs c!"toml" [0, 1, 2, 3]).1 = none ∧
      (w.loadConfig d bs c!"toml" [0, 1, 2, 3]).2.mgr.config.loggers = [] := by
  refine ⟨Demo.w1, Demo.w1_reach, by decide, fun d bs => ⟨rfl, rfl⟩⟩

/-- C19 is false for decoders that fail, too: whatever they leave behind is used, without an error. -/
theorem C19_decoder_errors_refuted : ∃ (w : World), Reach w ∧ w.mgr.config.loggers ≠ [] ∧
    ∀ d bs, d.yaml bs = ({}, true) → (w.loadConfig d bs c!"yaml" [0, 1, 2, 3]).1 = none ∧
      (w.loadConfig d bs c!"yaml" [0, 1, 2, 3]).2.mgr.config.loggers = [] := by
  refine ⟨Demo.w1, Demo.w1_reach, by decide, fun d bs h => ?_⟩
  simp only [loadConfig, h]
  exact ⟨rfl, rfl⟩

/-- C19, what the code does: a supported extension, in any letter case, means the decoder for it, and the
configuration it leaves behind is set like by `SetConfig`; every other extension sets the empty one. -/
theorem C19_load_partial (w : World) (d : Decoders) (bs : Bytes) (ext : Str) (order : List Nat) :
    (ext.map Char.toLower = c!"yaml" ∨ ext.map Char.toLower = c!"yml" →
      w.loadConfig d bs ext order = w.setConfig (d.yaml bs).1 order) ∧
    (ext.map Char.toLower = c!"json" → w.loadConfig d bs ext order = w.setConfig (d.json bs).1 order) ∧
    (ext.map Char.toLower ≠ c!"yaml" → ext.map Char.toLower ≠ c!"yml" → ext.map Char.toLower ≠ c!"json" →
      w.loadConfig d bs ext order = w.setConfig {} order) := by
  rw [show ext.map Char.toLower = lowerExt ext from rfl]
  refine ⟨?_, ?_, ?_⟩
  · intro h
    simp only [loadConfig]; rw [if_pos h]
  · intro h
    have h' : ¬ (lowerExt ext = c!"yaml" ∨ lowerExt ext = c!"yml") := by rw [h]; decide
    simp only [loadConfig]; rw [if_neg h', if_pos h]
  · intro h1 h2 h3
    have h' : ¬ (lowerExt ext = c!"yaml" ∨ lowerExt ext = c!"yml") := by
      rintro (h | h)
      · exact h1 h
      · exact h2 h
    simp only [loadConfig]; rw [if_neg h', if_neg h3]

/-- C20 is false: a readable file without extension makes `LoadConfigFile` panic. -/
theorem C20_load_file_refuted : ∃ (w : World), Reach w ∧
    ∀ d bs order, (w.loadConfigFile d c!"/etc/log4g" (some bs) order).1 = .panic :=
  ⟨Demo.w1, Demo.w1_reach, fun _ _ _ => rfl⟩

/-- C20: it panics exactly when the file can be read and the last element of its path has no dot; an
unreadable file gives an error and changes nothing; otherwise it does what `LoadConfig` does with the content and what
follows the last dot. -/
theorem C20_load_file_partial (w : World) (d : Decoders) (file : Str) (read : Option Bytes) (order : List Nat) :
    ((w.loadConfigFile d file read order).1 = .panic ↔
      read ≠ none ∧ ∃ dir base, file = dir ++ base ∧ (dir = [] ∨ ∃ p, dir = p ++ ['/']) ∧ '/' ∉ base ∧ '.' ∉ base) ∧
    (read = none → w.loadConfigFile d file read order = (.returned (some (.inr ())), w)) ∧
    ((w.loadConfigFile d file read order).1 = .panic → (w.loadConfigFile d file read order).2 = w) ∧
    (∀ bs dir stem ext, read = some bs → file = dir ++ stem ++ '.' :: ext → (dir = [] ∨ ∃ p, dir = p ++ ['/']) →
      '/' ∉ stem → '/' ∉ ext → '.' ∉ ext →
      w.loadConfigFile d file read order =
        (.returned ((w.loadConfig d bs ext order).1.map .inl), (w.loadConfig d bs ext order).2)) := by
  rw [← pathExt_nil]
  rw [← and_assoc, ← and_assoc]
  refine ⟨?_, by
    rintro bs dir stem ext rfl rfl h1 h2 h3 h4
    unfold loadConfigFile
    simp only [pathExt_some h1 h2 h3 h4]⟩
  rw [and_assoc]
  unfold loadConfigFile
  cases read with
  | none => simp
  | some bs =>
    cases h : pathExt file with
    | nil => simp
    | cons c ext => simp

/-- "/etc/a.b/c.yaml" is loaded as yaml. -/
example (w : World) (d : Decoders) (bs : Bytes) (order : List Nat) :
    w.loadConfigFile d c!"/etc/a.b/c.yaml" (some bs) order =
      (.returned ((w.setConfig (d.yaml bs).1 order).1.map .inl), (w.setConfig (d.yaml bs).1 order).2) := rfl

/-! ## C21, C22 -/

/-- C21 -/
theorem C21_reconfigure {w : World} (hw : Reach w) {cfg : Config} {order : List Nat}
    (horder : order.Perm (w.loggers.map (·.2))) (hok : (w.setConfig cfg order).1 = none)
    {n : Str} {e : CfgLogger} (hn : Map.get w.loggers n ≠ none) (he : FirstLogger cfg n e)
    (hc : ∀ k ∈ e.outputNames, Creatable { w.mgr with config := cfg } k) :
    HasEntry (w.setConfig cfg order).2 n e := by
  have inv := reach_inv hw
  cases hg : Map.get w.loggers n with
  | none => exact absurd hg hn
  | some r =>
    unfold setConfig at hok ⊢
    cases hv : validateConfig cfg with
    | some e => rw [hv] at hok; simp at hok
    | none =>
      obtain ⟨l, h1, h2⟩ := inv.named _ _ hg
      have i := (withConfig_inv inv cfg).1
      have hr : r ∈ order := horder.mem_iff.mpr (List.mem_map.mpr ⟨(n, r), Map.mem_of_get hg, rfl⟩)
      have hconf := notify_configured i order hr h1 (by rw [h2]; exact he) hc
      obtain ⟨i', _, _, hl, _⟩ := notify_spec i order
      exact configured_entry i' (by rw [hl]; exact hg) hconf

/-- The sample configuration, set again on the sample program: now "a" has its level. -/
example : ∃ l, loggerAt (Demo.w1.setConfig Demo.cfg [2, 0, 3, 1]).2 c!"a" = some l ∧ l.level = Level.Debug :=
  ⟨_, rfl, rfl⟩
example : Map.get Demo.w1.loggers c!"a" ≠ none ∧ [2, 0, 3, 1].Perm (Demo.w1.loggers.map (·.2)) := by decide
theorem demo_creatable : ∀ n ∈ [c!"o1", c!"o2"], Creatable Demo.w1.mgr n := by
  intro n hn
  simp only [List.mem_cons, List.not_mem_nil, or_false] at hn
  rcases hn with rfl | rfl
  · exact ⟨_, _, fun _ _ => .ok 2, fun _ _ => .ok (), ⟨[], _, rfl, rfl, by simp⟩, ⟨[], _, rfl, rfl, by simp⟩, rfl, fun _ => ⟨2, rfl⟩, rfl, fun _ => rfl⟩
  · exact ⟨_, _, fun _ _ => .ok 2, fun _ _ => .ok (), ⟨[_], _, rfl, rfl, by decide⟩, ⟨[], _, rfl, rfl, by simp⟩, rfl, fun _ => ⟨2, rfl⟩, rfl, fun _ => rfl⟩

/-- C22: nothing about the logger changes. -/
theorem C22_untouched {w : World} (hw : Reach w) (cfg : Config) (order : List Nat) {n : Str} {l : Logger}
    (hl : loggerAt w n = some l) (hno : NoLogger cfg n) : loggerAt (w.setConfig cfg order).2 n = some l := by
  have inv := reach_inv hw
  unfold loggerAt at hl
  cases hg : Map.get w.loggers n with
  | none => rw [hg] at hl; simp at hl
  | some r =>
    rw [hg] at hl
    simp only [Option.bind_some] at hl
    obtain ⟨l', h1, h2⟩ := inv.named _ _ hg
    rw [hl] at h1; injection h1 with h1; subst h1
    unfold setConfig
    cases hv : validateConfig cfg with
    | some e => exact loggerAt_of_get hg hl
    | none =>
      have i := (withConfig_inv inv cfg).1
      obtain ⟨_, _, _, hlg, _⟩ := notify_spec i order
      exact loggerAt_of_get (by rw [hlg]; exact hg) (notify_untouched i order hl (by rw [h2]; exact hno))

example : NoLogger Demo.cfg c!"a/b" ∧ loggerAt Demo.w1 c!"a/b" ≠ none := by
  constructor
  · unfold NoLogger; decide
  · simp [show loggerAt Demo.w1 c!"a/b" = some ⟨c!"a/b", 0, some 1, [], 3, 0⟩ from rfl]

/-! ## C23, C24 -/

/-- C23: there is at most one instance per name, it stays for ever with its definition and formatter, the
formatter is the one its definition names, and loggers with the same output name share the instance. -/
theorem C23_one_instance {w w' : World} {as : List Act} (hw : Reach w) (hs : Steps w as w') :
    (∀ n o o', InstanceOf w.mgr n o → InstanceOf w'.mgr n o' → o = o') ∧
    (∀ (o : Nat) c f, w.mgr.oheap[o]? = some ⟨.managed c, f⟩ → w'.mgr.oheap[o]? = some ⟨.managed c, f⟩ ∧
      ∃ (g : Nat) (fo : FmtObj), f = some g ∧ w.mgr.fheap[g]? = some fo ∧ w'.mgr.fheap[g]? = some fo ∧ fo.cfg.at c!"name" = c.at c!"format") ∧
    (∀ n₁ e₁ n₂ e₂ l₁ l₂ (i j : Nat), HasEntry w n₁ e₁ → HasEntry w n₂ e₂ → loggerAt w n₁ = some l₁ → loggerAt w n₂ = some l₂ →
      i < e₁.outputNames.length → e₁.outputNames[i]? = e₂.outputNames[j]? → l₁.outputs[i]? = l₂.outputs[j]?) := by
  have inv := reach_inv hw
  have inv' := reach_inv (hw.steps hs)
  have x : Ext w w' := (steps_inv inv hs).2
  have keep : ∀ (o : Nat) c f, w.mgr.oheap[o]? = some ⟨.managed c, f⟩ → w'.mgr.oheap[o]? = some ⟨.managed c, f⟩ := by
    intro o c f h
    obtain ⟨t, ht⟩ := x.oheap
    rw [ht, List.getElem?_append_left (by
      rcases Nat.lt_or_ge o w.mgr.oheap.length with h' | h'
      · exact h'
      · rw [List.getElem?_eq_none h'] at h; simp at h)]
    exact h
  refine ⟨?_, ?_, ?_⟩
  · rintro n o o' ⟨c, f, a, b⟩ h'
    exact instance_unique inv' ⟨c, f, keep _ _ _ a, b⟩ h'
  · intro o c f h
    refine ⟨keep o c f h, ?_⟩
    obtain ⟨_, g, fo, h1, h2, h3⟩ := inv.mgr.managed _ _ _ h
    refine ⟨g, fo, h1, h2, ?_, h3⟩
    obtain ⟨t, ht⟩ := x.fheap
    rw [ht, List.getElem?_append_left (by
      rcases Nat.lt_or_ge g w.mgr.fheap.length with h' | h'
      · exact h'
      · rw [List.getElem?_eq_none h'] at h2; simp at h2)]
    exact h2
  · rintro n₁ e₁ n₂ e₂ l₁ l₂ i j ⟨l, a, _, b1, b2⟩ ⟨l', a', _, b1', b2'⟩ h1 h2 hi hij
    rw [a] at h1; injection h1 with h1; subst h1
    rw [a'] at h2; injection h2 with h2; subst h2
    have hk : e₁.outputNames[i]? = some e₁.outputNames[i] := List.getElem?_eq_getElem hi
    have hk' : e₂.outputNames[j]? = some e₁.outputNames[i] := by rw [← hij, hk]
    have hj : j < e₂.outputNames.length := by
      rcases Nat.lt_or_ge j e₂.outputNames.length with h' | h'
      · exact h'
      · rw [List.getElem?_eq_none h'] at hk'; simp at hk'
    have ho : l.outputs[i]? = some (l.outputs[i]'(by omega)) := List.getElem?_eq_getElem _
    have ho' : l'.outputs[j]? = some (l'.outputs[j]'(by omega)) := List.getElem?_eq_getElem _
    rw [ho, ho', instance_unique inv (b2 _ _ _ hk ho) (b2' _ _ _ hk' ho')]

/-- The loggers "root" and "x" of the sample program share the instance of "o1". -/
example : HasOutputs Demo.w1 c!"root" [0] ∧ HasOutputs Demo.w1 c!"x" [1, 0] := ⟨⟨_, rfl, rfl⟩, ⟨_, rfl, rfl⟩⟩

/-- A changed definition of the output "o1" for the sample program. -/
def Demo.cfg2 : Config :=
  { Demo.cfg with outputs := [some [(c!"name", c!"o1"), (c!"type", c!"console"), (c!"format", c!"f1"), (c!"threshold", c!"error")]],
                  loggers := [⟨c!"root", c!"warn", [c!"o1"]⟩] }

/-- C24 is false: the root logger keeps the instance built from the old definition. -/
theorem C24_redefine_refuted : ∃ (w : World) (cfg : Config) (order : List Nat) (n k : Str) (e : CfgLogger), Reach w ∧
    (w.setConfig cfg order).1 = none ∧ order.Perm (w.loggers.map (·.2)) ∧ FirstLogger cfg n e ∧ e.outputNames = [k] ∧
    (∀ k ∈ e.outputNames, Creatable { w.mgr with config := cfg } k) ∧
    ∃ l o c f, loggerAt (w.setConfig cfg order).2 n = some l ∧ l.outputs = [o] ∧
      (w.setConfig cfg order).2.mgr.oheap[o]? = some ⟨.managed c, f⟩ ∧ ¬ FirstEntry cfg.outputs k c := by
  refine ⟨Demo.w1, Demo.cfg2, [0, 1, 2, 3], c!"root", c!"o1", ⟨c!"root", c!"warn", [c!"o1"]⟩, Demo.w1_reach, rfl, .refl _,
    ⟨[], [], rfl, rfl, by simp⟩, rfl, ?_, _, 0, some [(c!"name", c!"o1"), (c!"type", c!"console"), (c!"format", c!"f1")], _, rfl, rfl, rfl, ?_⟩
  · intro k hk
    simp only [List.mem_cons, List.not_mem_nil, or_false] at hk
    subst hk
    exact ⟨_, _, fun _ _ => .ok 2, fun _ _ => .ok (), ⟨[], _, rfl, rfl, by simp⟩, ⟨[], _, rfl, rfl, by simp⟩, rfl, fun _ => ⟨2, rfl⟩, rfl, fun _ => rfl⟩
  · intro h
    have := firstEntry_find h
    revert this; decide

/-- C24: the instance of an output is the old one if there is one, and is built from the new definition
otherwise. -/
theorem C24_redefine_partial {w : World} (hw : Reach w) {cfg : Config} {order : List Nat}
    (hok : (w.setConfig cfg order).1 = none) {k : Str} {o : Nat} (ho : InstanceOf (w.setConfig cfg order).2.mgr k o) :
    (InstanceOf w.mgr k o ∧ (w.setConfig cfg order).2.mgr.oheap[o]? = w.mgr.oheap[o]?) ∨
    ((∀ o', ¬ InstanceOf w.mgr k o') ∧
      ∃ c f, (w.setConfig cfg order).2.mgr.oheap[o]? = some ⟨.managed c, f⟩ ∧ FirstEntry cfg.outputs k c) := by
  have inv := reach_inv hw
  obtain ⟨inv', x⟩ := setConfig_inv inv cfg order
  obtain ⟨t, ht⟩ := x.oheap
  have keep : ∀ o' : Nat, o' < w.mgr.oheap.length → (w.setConfig cfg order).2.mgr.oheap[o']? = w.mgr.oheap[o']? := by
    intro o' h; rw [ht, List.getElem?_append_left h]
  rcases Nat.lt_or_ge o w.mgr.oheap.length with hlt | hge
  · left
    refine ⟨?_, keep o hlt⟩
    obtain ⟨c, f, a, b⟩ := ho
    rw [keep o hlt] at a
    exact ⟨c, f, a, b⟩
  · right
    constructor
    · rintro o' ⟨c, f, a, b⟩
      have hlt : o' < w.mgr.oheap.length := by
        rcases Nat.lt_or_ge o' w.mgr.oheap.length with h' | h'
        · exact h'
        · rw [List.getElem?_eq_none h'] at a; simp at a
      have := instance_unique inv' ⟨c, f, (keep o' hlt).trans a, b⟩ ho
      omega
    · obtain ⟨c, f, a, b⟩ := ho
      refine ⟨c, f, a, ?_⟩
      unfold setConfig at a hok
      cases hv : validateConfig cfg with
      | some e => rw [hv] at hok; simp at hok
      | none =>
        rw [hv] at a
        have := notify_new (withConfig_inv inv cfg).1 order o c f hge a
        rw [nameIn_eq] at b; rw [b] at this; exact this

/-! ## C26, C27 -/

/-- C26: the first use of any logger, while the outputs of the root logger cannot be had. -/
theorem C26_root_fallback {w : World} (hw : Reach w) (hnew : Map.get w.loggers c!"root" = none) {e : MgrErr}
    (he : (w.mgr.getLoggerOutputs c!"root").1 = .error e) (n : Str) :
    ∃ l o, loggerAt (w.getLogger n).2 c!"root" = some l ∧ l.level = Level.Debug ∧ l.outputs = [o] ∧
      (w.getLogger n).2.mgr.oheap[o]? = some { origin := .console, fmt := none } := by
  have inv := reach_inv hw
  refine first_use inv ?_ he n
  cases h : w.root with
  | none => rfl
  | some r => rw [show Map.get w.loggers c!"root" = some r from (inv.rootIn r).mp h] at hnew; simp at hnew

example : Map.get Demo.w0.loggers c!"root" = none ∧ (Demo.w0.mgr.getLoggerOutputs c!"root").1 = .error (.noLogger c!"root") :=
  ⟨rfl, rfl⟩

/-- C27: outputs in order, or the first obstacle. -/
theorem C27_logger_outputs {w : World} (hw : Reach w) (n : Str) :
    (∀ ops lvl, (w.mgr.getLoggerOutputs n).1 = .ok (ops, lvl) → ∃ e, FirstLogger w.mgr.config n e ∧
      LevelNamed e.level lvl ∧ OutputsNamed (w.mgr.getLoggerOutputs n).2 e.outputNames ops ∧
      ∀ k ∈ e.outputNames, Defined w.mgr k) ∧
    (∀ err, (w.mgr.getLoggerOutputs n).1 = .error err → (NoLogger w.mgr.config n ∧ err = .noLogger n) ∨
      ∃ e pre k post, FirstLogger w.mgr.config n e ∧ e.outputNames = pre ++ k :: post ∧ Obstacle w.mgr k err ∧
        ∀ x ∈ pre, ∃ o, InstanceOf (w.mgr.getLoggerOutputs n).2 x o) ∧
    (∀ e, FirstLogger w.mgr.config n e → (∀ k ∈ e.outputNames, Creatable w.mgr k) →
      ∃ ops lvl, (w.mgr.getLoggerOutputs n).1 = .ok (ops, lvl) ∧ LevelNamed e.level lvl) := by
  have im := (reach_inv hw).mgr
  refine ⟨?_, ?_, fun e he hc => (getLoggerOutputs_ok im he hc).imp fun ops h => ⟨_, h, Level.named_levelFrom _⟩⟩
  · intro ops lvl h
    obtain ⟨g, i, hok⟩ := getLoggerOutputs_spec w.mgr im n
    obtain ⟨lc, h1, h2, h3⟩ := hok ops lvl h
    refine ⟨lc, (firstLogger_iff _ _ _).mp h1, h2 ▸ Level.named_levelFrom _, resolved_named i h3, ?_⟩
    unfold Manager.getLoggerOutputs at h
    rw [h1] at h
    simp only at h
    split at h
    · simp at h
    · rename_i ops' m' hl
      exact loop_defined im (by rw [hl])
  · intro err h
    unfold Manager.getLoggerOutputs at h ⊢
    cases hc : w.mgr.config.getCfgLogger n with
    | none =>
      rw [hc] at h
      simp only at h
      injection h with h
      exact .inl ⟨(noLogger_iff _ _).mp hc, h.symm⟩
    | some lc =>
      rw [hc] at h
      right
      simp only at h ⊢
      split at h
      · rename_i e' m' hl
        injection h with h; subst h
        obtain ⟨pre, k, post, h1, h2, h3⟩ := loop_obstacle im (names := lc.outputNames) (e := e') (by rw [hl])
        refine ⟨lc, pre, k, post, (firstLogger_iff _ _ _).mp hc, h1, h2, ?_⟩
        rw [hl] at h3; exact h3
      · simp at h

example : (Demo.w1.mgr.getLoggerOutputs c!"x").1 = .ok ([1, 0], Level.Info) := rfl
example : (Demo.w1.mgr.getLoggerOutputs c!"a/b").1 = .error (.noLogger c!"a/b") := rfl

end Log4g
