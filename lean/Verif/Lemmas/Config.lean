import Verif.Spec.Config
import Verif.Lemmas.Manager

namespace Log4g
open Spec

@[simp] theorem nameIn_eq (c : CfgMap) : nameIn c = c.name := rfl
@[simp] theorem typeIn_eq (c : CfgMap) : typeIn c = c.type := rfl
@[simp] theorem formatIn_eq (c : CfgMap) : formatIn c = c.formatName := rfl

theorem firstEntry_find {l : List CfgMap} {n : Str} {c : CfgMap} (h : FirstEntry l n c) :
    l.find? (fun c => CfgMap.name c = n) = some c := by
  obtain ⟨pre, post, rfl, hc, hp⟩ := h
  rw [List.find?_eq_some_iff_append]
  exact ⟨by simpa using hc, pre, post, rfl, by simpa using hp⟩

theorem firstLogger_iff (cfg : Config) (n : Str) (e : CfgLogger) :
    cfg.getCfgLogger n = some e ↔ FirstLogger cfg n e := by
  unfold Config.getCfgLogger FirstLogger
  rw [List.find?_eq_some_iff_append]
  constructor
  · rintro ⟨h, pre, post, h1, h2⟩
    exact ⟨pre, post, h1, by simpa using h, by simpa using h2⟩
  · rintro ⟨pre, post, h1, h, h2⟩
    exact ⟨by simpa using h, pre, post, h1, by simpa using h2⟩

theorem noLogger_iff (cfg : Config) (n : Str) : cfg.getCfgLogger n = none ↔ NoLogger cfg n := by
  unfold Config.getCfgLogger NoLogger
  simp

theorem creatable_congr {m m' : Manager} (h1 : m'.config = m.config) (h2 : m'.fmtCreators = m.fmtCreators)
    (h3 : m'.outCreators = m.outCreators) {n : Str} (h : Creatable m n) : Creatable m' n := by
  unfold Creatable at *; rw [h1, h2, h3]; exact h

theorem one_ok {m : Manager} (inv : MgrInv m) {n : Str} (h : Creatable m n) : ∃ o, (m.one n).1 = .ok o := by
  obtain ⟨oc, fc, fcr, ocr, h1, h2, h3, h4, h5, h6⟩ := h
  simp only [formatIn_eq, typeIn_eq] at h2 h3 h5
  have e1 : m.config.getCfgOutput n = some oc := by
    unfold Config.getCfgOutput; rw [firstEntry_find h1]; rfl
  have e2 : m.config.getCfgFormat (CfgMap.formatName (some oc)) = some fc := by
    unfold Config.getCfgFormat; rw [firstEntry_find h2]; rfl
  unfold Manager.one
  simp only [e1, e2, reduceCtorEq, if_false]
  have hf : ∃ f, (m.getFormat (some fc)).1 = .ok f := by
    unfold Manager.getFormat
    simp only [h3]
    split
    · exact ⟨_, rfl⟩
    · obtain ⟨flag, hfl⟩ := h4 m.calls
      simp only [hfl]; exact ⟨_, rfl⟩
  obtain ⟨f, hf⟩ := hf
  have g := (getFormat_spec m inv (some fc)).1
  split
  · rename_i e m1 he; rw [he] at hf; simp at hf
  · rename_i f' m1 he
    rw [he] at g
    unfold Manager.getOutput
    have : m1.outCreators = m.outCreators := g.outCreators
    rw [this]
    simp only [h5]
    split
    · exact ⟨_, rfl⟩
    · simp only [h6]; exact ⟨_, rfl⟩

theorem loop_ok {m : Manager} (inv : MgrInv m) {names : List Str} (h : ∀ n ∈ names, Creatable m n) :
    ∃ ops, (m.loop names).1 = .ok ops := by
  induction names generalizing m with
  | nil => exact ⟨[], rfl⟩
  | cons n ns ih =>
    obtain ⟨o, ho⟩ := one_ok inv (h n (by simp))
    obtain ⟨g, i, _⟩ := one_spec m inv n
    simp only [Manager.loop]
    split
    · rename_i e m1 he; rw [he] at ho; simp at ho
    · rename_i o' m1 he
      rw [he] at g i
      have hc : ∀ n ∈ ns, Creatable m1 n := fun n hn =>
        creatable_congr g.config g.fmtCreators g.outCreators (h n (by simp [hn]))
      obtain ⟨os, hos⟩ := ih i hc
      split
      · rename_i e m2 he2; rw [he2] at hos; simp at hos
      · exact ⟨_, rfl⟩

theorem getLoggerOutputs_ok {m : Manager} (inv : MgrInv m) {name : Str} {e : CfgLogger}
    (he : FirstLogger m.config name e) (h : ∀ n ∈ e.outputNames, Creatable m n) :
    ∃ ops, (m.getLoggerOutputs name).1 = .ok (ops, Level.levelFrom e.level) := by
  obtain ⟨ops, ho⟩ := loop_ok inv h
  unfold Manager.getLoggerOutputs
  rw [(firstLogger_iff _ _ _).mpr he]
  simp only
  split
  · rename_i e m1 he; rw [he] at ho; simp at ho
  · exact ⟨_, rfl⟩

theorem validateFormats_ok (seen : List Str) (fs : List CfgMap) :
    (∃ s, validateFormats seen fs = .ok s) ↔
      ((fs.map CfgMap.name).Nodup ∧ ∀ f ∈ fs, CfgMap.name f ∉ seen) := by
  induction fs generalizing seen with
  | nil => simp [validateFormats]
  | cons f fs ih =>
    simp only [validateFormats]
    by_cases h : f.name ∈ seen
    · simp [h]
    · rw [if_neg h, ih]
      simp only [List.map_cons, List.nodup_cons, List.mem_cons, forall_eq_or_imp, List.mem_map]
      constructor
      · rintro ⟨h1, h2⟩
        refine ⟨⟨?_, h1⟩, h, fun a ha h' => h2 a ha (.inr h')⟩
        rintro ⟨a, ha, e⟩
        exact h2 a ha (.inl e)
      · rintro ⟨⟨h1, h2⟩, _, h3⟩
        refine ⟨h2, fun a ha => ?_⟩
        rintro (e | e)
        · exact h1 ⟨a, ha, e⟩
        · exact h3 a ha e

theorem validateFormats_mem {seen s : List Str} {fs : List CfgMap} (h : validateFormats seen fs = .ok s) (n : Str) :
    n ∈ s ↔ n ∈ seen ∨ ∃ f ∈ fs, CfgMap.name f = n := by
  induction fs generalizing seen with
  | nil => simp [validateFormats] at h; subst h; simp
  | cons f fs ih =>
    simp only [validateFormats] at h
    split at h
    · simp at h
    · rw [ih h]
      simp only [List.mem_cons, exists_eq_or_imp]
      constructor
      · rintro ((h | h) | h)
        · exact .inr (.inl h.symm)
        · exact .inl h
        · exact .inr (.inr h)
      · rintro (h | h | h)
        · exact .inl (.inr h)
        · exact .inl (.inl h.symm)
        · exact .inr h

theorem validateOutputs_ok (formats seen : List Str) (os : List CfgMap) :
    (∃ s, validateOutputs formats seen os = .ok s) ↔
      ((os.map CfgMap.name).Nodup ∧ (∀ o ∈ os, CfgMap.name o ∉ seen) ∧ ∀ o ∈ os, CfgMap.formatName o ∈ formats) := by
  induction os generalizing seen with
  | nil => simp [validateOutputs]
  | cons f fs ih =>
    simp only [validateOutputs]
    by_cases h : f.name ∈ seen
    · simp [h]
    · rw [if_neg h]
      by_cases hf : f.formatName ∉ formats
      · simp only [if_pos hf]
        constructor
        · rintro ⟨s, h⟩; simp at h
        · rintro ⟨_, _, h⟩; exact absurd (h f (by simp)) hf
      · rw [if_neg hf, ih]
        simp only [Classical.not_not] at hf
        simp only [List.map_cons, List.nodup_cons, List.mem_cons, forall_eq_or_imp, List.mem_map]
        constructor
        · rintro ⟨h1, h2, h3⟩
          refine ⟨⟨?_, h1⟩, ⟨h, fun a ha h' => h2 a ha (.inr h')⟩, hf, h3⟩
          rintro ⟨a, ha, e⟩
          exact h2 a ha (.inl e)
        · rintro ⟨⟨h1, h2⟩, ⟨_, h3⟩, _, h4⟩
          refine ⟨h2, fun a ha => ?_, h4⟩
          rintro (e | e)
          · exact h1 ⟨a, ha, e⟩
          · exact h3 a ha e

theorem validateOutputs_mem {formats seen s : List Str} {fs : List CfgMap}
    (h : validateOutputs formats seen fs = .ok s) (n : Str) :
    n ∈ s ↔ n ∈ seen ∨ ∃ f ∈ fs, CfgMap.name f = n := by
  induction fs generalizing seen with
  | nil => simp [validateOutputs] at h; subst h; simp
  | cons f fs ih =>
    simp only [validateOutputs] at h
    split at h
    · simp at h
    · split at h
      · simp at h
      · rw [ih h]
        simp only [List.mem_cons, exists_eq_or_imp]
        constructor
        · rintro ((h | h) | h)
          · exact .inr (.inl h.symm)
          · exact .inl h
          · exact .inr (.inr h)
        · rintro (h | h | h)
          · exact .inl (.inr h)
          · exact .inl (.inl h.symm)
          · exact .inr h

theorem validateNames_none (outputs : List Str) (l : Str) (ns : List Str) :
    validateNames outputs l ns = none ↔ ∀ n ∈ ns, n ∈ outputs := by
  induction ns with
  | nil => simp [validateNames]
  | cons n ns ih =>
    simp only [validateNames]
    by_cases h : n ∈ outputs
    · rw [if_neg (by simpa using h), ih]; simp [h]
    · rw [if_pos h]; simp [h]

theorem validateLoggers_none (outputs : List Str) (ls : List CfgLogger) :
    validateLoggers outputs [] ls = none ↔ ∀ l ∈ ls, ∀ n ∈ l.outputNames, n ∈ outputs := by
  induction ls with
  | nil => simp [validateLoggers]
  | cons l ls ih =>
    simp only [validateLoggers, List.not_mem_nil, if_false]
    split
    · rename_i e he
      constructor
      · simp
      · intro h
        have := (validateNames_none outputs l.name l.outputNames).mpr (h l (by simp))
        rw [he] at this; simp at this
    · rename_i he
      rw [ih]
      have := (validateNames_none outputs l.name l.outputNames).mp he
      simp only [List.mem_cons, forall_eq_or_imp]
      exact ⟨fun h => ⟨this, h⟩, fun h => h.2⟩

theorem validateConfig_none_iff (cfg : Config) : validateConfig cfg = none ↔ Consistent cfg := by
  unfold validateConfig
  constructor
  · intro h
    split at h
    · simp at h
    · rename_i formats hf
      split at h
      · simp at h
      · rename_i outputs ho
        have a := (validateFormats_ok [] cfg.formats).mp ⟨_, hf⟩
        have b := (validateOutputs_ok formats [] cfg.outputs).mp ⟨_, ho⟩
        have c := (validateLoggers_none outputs cfg.loggers).mp h
        refine ⟨a.1, b.1, ?_, ?_⟩
        · intro o hm
          have := (validateFormats_mem hf _).mp (b.2.2 o hm)
          simpa using this
        · intro l hl n hn
          have := (validateOutputs_mem ho _).mp (c l hl n hn)
          simpa using this
  · intro h
    obtain ⟨formats, hf⟩ := (validateFormats_ok [] cfg.formats).mpr ⟨h.formats, by simp⟩
    rw [hf]
    obtain ⟨outputs, ho⟩ := (validateOutputs_ok formats [] cfg.outputs).mpr ⟨h.outputs, by simp, fun o hm => by
      rw [validateFormats_mem hf]; exact .inr (h.outputFormats o hm)⟩
    simp only [ho]
    rw [validateLoggers_none]
    intro l hl n hn
    rw [validateOutputs_mem ho]
    exact .inr (h.loggerOutputs l hl n hn)

end Log4g
