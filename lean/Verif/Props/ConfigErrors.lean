import Verif.Lemmas.ConfigErrors
import Verif.Props.Demo

/-! # C131: the error of a refused configuration -/

namespace Log4g
open Spec World

theorem validateConfig_fault (cfg : Config) (e : MgrErr) : validateConfig cfg = some e ↔ FirstFault cfg e := by
  have fmem : ∀ {s : List Str}, validateFormats [] cfg.formats = .ok s → ∀ n, n ∈ s ↔ ∃ f ∈ cfg.formats, nameIn f = n := by
    intro s h n
    rw [validateFormats_mem h]; simp [nameIn, CfgMap.name]
  have fok : ∀ {s : List Str}, validateFormats [] cfg.formats = .ok s → (cfg.formats.map nameIn).Nodup := fun h => ((validateFormats_ok [] _).mp ⟨_, h⟩).1
  have fex : (cfg.formats.map nameIn).Nodup → ∃ s, validateFormats [] cfg.formats = .ok s := fun h => (validateFormats_ok [] _).mpr ⟨h, by simp⟩
  constructor
  · intro h
    unfold validateConfig at h
    cases hf : validateFormats [] cfg.formats with
    | error e' =>
      rw [hf] at h
      cases h
      obtain ⟨pre, f, post, h1, h2, _, h4, rfl⟩ := validateFormats_error hf
      rcases h4 with h4 | h4
      · cases h4
      · exact .format h1 h2 h4
    | ok formats =>
      rw [hf] at h
      simp only at h
      cases ho : validateOutputs formats [] cfg.outputs with
      | error e' =>
        rw [ho] at h
        cases h
        obtain ⟨pre, o, post, h1, h2, _, h4, h5⟩ := validateOutputs_error ho
        have hs : SoundOutputs cfg pre := ⟨h2, fun o ho => (fmem hf _).mp (h4 o ho)⟩
        rcases h5 with ⟨h5 | h5, rfl⟩ | ⟨_, h5, h6, rfl⟩
        · cases h5
        · exact .output (fok hf) h1 hs h5
        · exact .outputFormat (fok hf) h1 hs h5 fun f hfm e => h6 ((fmem hf _).mpr ⟨f, hfm, e⟩)
      | ok outputs =>
        rw [ho] at h
        simp only at h
        have omem : ∀ n, n ∈ outputs ↔ HasOutput cfg n := by
          intro n
          rw [validateOutputs_mem ho]; simp [HasOutput, nameIn, CfgMap.name]
        have hs : SoundOutputs cfg cfg.outputs := by
          have := (validateOutputs_ok formats [] cfg.outputs).mp ⟨_, ho⟩
          exact ⟨this.1, fun o ho => (fmem hf _).mp (this.2.2 o ho)⟩
        obtain ⟨pre, l, post, h1, h2, h3⟩ := validateLoggers_error h
        obtain ⟨ns, n, ns', h4, h5, h6, rfl⟩ := validateNames_error h3
        exact .loggerOutput (fok hf) hs h1 (fun l hl n hn => (omem n).mp (h2 l hl n hn)) h4 (fun n hn => (omem n).mp (h5 n hn)) fun hh => h6 ((omem n).mpr hh)
  · intro h
    unfold validateConfig
    cases h with
    | @format pre f post h1 h2 h3 =>
      rw [h1, validateFormats_app _ _ _ h2 (by simp)]
      have : f.name ∈ (pre.map nameIn).reverse ++ [] := by
        simp only [List.append_nil, List.mem_reverse]
        obtain ⟨g, hg, e⟩ := h3
        exact List.mem_map.mpr ⟨g, hg, e⟩
      simp only [validateFormats, this, if_true]
      rfl
    | @output pre o post h0 h1 h2 h3 =>
      obtain ⟨s, hs⟩ := fex h0
      rw [hs]
      simp only
      rw [h1, validateOutputs_app _ _ _ _ h2.1 (by simp) (fun o ho => (fmem hs _).mpr (h2.2 o ho))]
      have : o.name ∈ (pre.map nameIn).reverse ++ [] := by
        simp only [List.append_nil, List.mem_reverse]
        obtain ⟨g, hg, e⟩ := h3
        exact List.mem_map.mpr ⟨g, hg, e⟩
      simp only [validateOutputs, this, if_true]
      rfl
    | @outputFormat pre o post h0 h1 h2 h3 h4 =>
      obtain ⟨s, hs⟩ := fex h0
      rw [hs]
      simp only
      rw [h1, validateOutputs_app _ _ _ _ h2.1 (by simp) (fun o ho => (fmem hs _).mpr (h2.2 o ho))]
      have : o.name ∉ (pre.map nameIn).reverse ++ [] := by
        simp only [List.append_nil, List.mem_reverse]
        intro hm
        obtain ⟨g, hg, e⟩ := List.mem_map.mp hm
        exact h3 g hg e
      have h5 : o.formatName ∉ s := fun hm => by
        obtain ⟨f, hf, e⟩ := (fmem hs _).mp hm
        exact h4 f hf e
      simp only [validateOutputs, this, if_false, h5, not_false_eq_true, if_true]
      rfl
    | @loggerOutput pre l post ns n ns' h0 h1 h2 h3 h4 h5 h6 =>
      obtain ⟨s, hs⟩ := fex h0
      rw [hs]
      simp only
      have : validateOutputs s [] cfg.outputs = .ok ((cfg.outputs.map nameIn).reverse ++ []) := by
        have := validateOutputs_app s [] cfg.outputs [] h1.1 (by simp) (fun o ho => (fmem hs _).mpr (h1.2 o ho))
        rw [List.append_nil] at this
        rw [this]; rfl
      rw [this]
      have omem : ∀ n, n ∈ (cfg.outputs.map nameIn).reverse ++ [] ↔ HasOutput cfg n := by
        intro n
        simp [HasOutput]
      simp only
      rw [h2]
      refine validateLoggers_app (fun l hl n hn => (omem n).mpr (h3 l hl n hn)) ?_
      rw [h4]
      exact validateNames_app (fun n hn => (omem n).mpr (h5 n hn)) fun hm => h6 ((omem n).mp hm)

/-- C131: the error of `SetConfig` is about the first fault of the configuration, and there is no error without a fault. -/
theorem C131_first_fault {w : World} (cfg : Config) (order : List Nat) (e : MgrErr) : (w.setConfig cfg order).1 = some e ↔ FirstFault cfg e := by
  rw [← validateConfig_fault]
  unfold setConfig
  cases h : validateConfig cfg with
  | some e' => simp
  | none => simp

/-- C131: the same for `LoadConfig`, about what the decoder made of the file. -/
theorem C131_load {w : World} (d : Decoders) (bs : Bytes) (order : List Nat) (e : MgrErr) :
    ((w.loadConfig d bs c!"json" order).1 = some e ↔ FirstFault (d.json bs).1 e) ∧
    (∀ ext ∈ [c!"yaml", c!"yml"], (w.loadConfig d bs ext order).1 = some e ↔ FirstFault (d.yaml bs).1 e) := by
  refine ⟨C131_first_fault (w := w) (d.json bs).1 order e, fun ext h => ?_⟩
  simp only [List.mem_cons, List.not_mem_nil, or_false] at h
  rcases h with rfl | rfl <;> exact C131_first_fault (w := w) (d.yaml bs).1 order e

/-- C131: the text shows, in brackets, the names the error is about. -/
theorem C131_shows (e : MgrErr) (n : Str) (h : n ∈ namesIn e) : ∃ a b, e.text = a ++ '[' :: n ++ ']' :: b := by
  cases e with
  | noLogger m => obtain rfl := List.mem_singleton.mp h; exact ⟨c!"not find logger.name", c!" config", by simp [MgrErr.text]⟩
  | noOutput m => obtain rfl := List.mem_singleton.mp h; exact ⟨c!"not find output.name", c!" config", by simp [MgrErr.text]⟩
  | noFormat m => obtain rfl := List.mem_singleton.mp h; exact ⟨c!"not find format.name", c!" config", by simp [MgrErr.text]⟩
  | noFormatCreator m => obtain rfl := List.mem_singleton.mp h; exact ⟨c!"not find registered format.type", c!" creator", by simp [MgrErr.text]⟩
  | noOutputCreator m => obtain rfl := List.mem_singleton.mp h; exact ⟨c!"not find registered output.type", c!" creator", by simp [MgrErr.text]⟩
  | dupFormat m => obtain rfl := List.mem_singleton.mp h; exact ⟨c!"duplication formatter", c!" config", by simp [MgrErr.text]⟩
  | dupOutput m => obtain rfl := List.mem_singleton.mp h; exact ⟨c!"duplication output", c!" config", by simp [MgrErr.text]⟩
  | dupLogger m => obtain rfl := List.mem_singleton.mp h; exact ⟨c!"duplication logger", c!" config", by simp [MgrErr.text]⟩
  | outputFormatMissing f o =>
    rcases List.mem_cons.mp h with rfl | h
    · exact ⟨c!"not found format", c!" for output[" ++ o ++ c!"] ", by simp [MgrErr.text]⟩
    · obtain rfl := List.mem_singleton.mp h
      exact ⟨c!"not found format[" ++ f ++ c!"] for output", c!" ", by simp [MgrErr.text]⟩
  | loggerOutputMissing o l =>
    rcases List.mem_cons.mp h with rfl | h
    · exact ⟨c!"not found output", c!" for logger[" ++ l ++ c!"] ", by simp [MgrErr.text]⟩
    · obtain rfl := List.mem_singleton.mp h
      exact ⟨c!"not found output[" ++ o ++ c!"] for logger", c!" ", by simp [MgrErr.text]⟩
  | formatCreator m => cases h
  | outputCreator m => cases h

/-- C131: as long as names have no brackets, the text tells what is wrong: errors that are not about the same thing, or not about the same names,
have different texts. -/
theorem C131_told_apart {e e' : MgrErr} (h : e.text = e'.text) (he : namesIn e ≠ []) (he' : namesIn e' ≠ [])
    (hn : ∀ n ∈ namesIn e ++ namesIn e', '[' ∉ n ∧ ']' ∉ n) : e = e' := by
  cases e <;> first | exact absurd rfl he | (cases e' <;> first | exact absurd rfl he' | (simp [MgrErr.text] at h; done) | (simp [MgrErr.text] at h; subst h; rfl) | skip)
  · rename_i f o f' o'
    simp only [MgrErr.text, List.append_assoc, List.append_cancel_left_eq] at h
    obtain ⟨h1, h2⟩ := mark_split (c := ']') h (hn f (by simp [namesIn])).2 (hn f' (by simp [namesIn])).2
    simp at h2
    rw [h1, h2]
  · rename_i f o f' o'
    simp only [MgrErr.text, List.append_assoc, List.append_cancel_left_eq] at h
    obtain ⟨h1, h2⟩ := mark_split (c := ']') h (hn f (by simp [namesIn])).2 (hn f' (by simp [namesIn])).2
    simp at h2
    rw [h1, h2]

/-- Configurations with faults, and what `SetConfig` says. -/
def badConfig : Config := { Demo.cfg with loggers := Demo.cfg.loggers ++ [⟨c!"y", c!"info", [c!"o1", c!"o3"]⟩] }

example : ((Demo.w0.setConfig badConfig []).1.map MgrErr.text) = some c!"not found output[o3] for logger[y] " := by decide +kernel
example : FirstFault badConfig (.loggerOutputMissing c!"o3" c!"y") := (C131_first_fault (w := Demo.w0) _ [] _).mp (by decide +kernel)
example : FirstFault { badConfig with formats := [] } (.outputFormatMissing c!"f1" c!"o1") := (C131_first_fault (w := Demo.w0) _ [] _).mp (by decide +kernel)
example : FirstFault { badConfig with outputs := badConfig.outputs ++ badConfig.outputs } (.dupOutput c!"o1") := (C131_first_fault (w := Demo.w0) _ [] _).mp (by decide +kernel)

/-- With brackets in names two faults may look the same. -/
example : MgrErr.text (.loggerOutputMissing c!"a] for logger[b" c!"c") = MgrErr.text (.loggerOutputMissing c!"a" c!"b] for logger[c") := by decide

end Log4g
