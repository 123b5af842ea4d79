import Verif.Spec.ConfigErrors
import Verif.Lemmas.Config

/-! # The errors of `SetConfig` -/

namespace Log4g
open Spec

theorem validateFormats_app (seen : List Str) (pre rest : List CfgMap) (hn : (pre.map nameIn).Nodup) (hs : ∀ f ∈ pre, nameIn f ∉ seen) :
    validateFormats seen (pre ++ rest) = validateFormats ((pre.map nameIn).reverse ++ seen) rest := by
  induction pre generalizing seen with
  | nil => rfl
  | cons f pre ih =>
    obtain ⟨h1, h2⟩ := List.nodup_cons.mp hn
    have : f.name ∉ seen := hs f (.head _)
    simp only [List.cons_append, validateFormats, this, if_false]
    rw [ih (f.name :: seen) h2 fun g hg => by
      simp only [List.mem_cons, not_or]
      exact ⟨fun e => h1 (List.mem_map.mpr ⟨g, hg, e⟩), hs g (.tail _ hg)⟩]
    simp

theorem validateFormats_error {seen : List Str} {fs : List CfgMap} {e : MgrErr} (h : validateFormats seen fs = .error e) :
    ∃ (pre : List CfgMap) (f : CfgMap) (post : List CfgMap), fs = pre ++ f :: post ∧ (pre.map nameIn).Nodup ∧ (∀ g ∈ pre, nameIn g ∉ seen) ∧
      (nameIn f ∈ seen ∨ ∃ g ∈ pre, nameIn g = nameIn f) ∧ e = .dupFormat (nameIn f) := by
  induction fs generalizing seen with
  | nil => cases h
  | cons f fs ih =>
    simp only [validateFormats] at h
    by_cases hf : f.name ∈ seen
    · rw [if_pos hf] at h
      cases h
      exact ⟨[], f, fs, rfl, .nil, nofun, .inl hf, rfl⟩
    · rw [if_neg hf] at h
      obtain ⟨pre, g, post, h1, h2, h3, h4, h5⟩ := ih h
      refine ⟨f :: pre, g, post, by rw [h1]; rfl, List.nodup_cons.mpr ⟨fun hm => ?_, h2⟩, fun x hx => ?_, ?_, h5⟩
      · obtain ⟨x, hx, hxe⟩ := List.mem_map.mp hm
        exact h3 x hx (hxe ▸ .head _)
      · rcases List.mem_cons.mp hx with rfl | hx
        · exact hf
        · exact fun hm => h3 x hx (.tail _ hm)
      · rcases h4 with h4 | ⟨x, hx, hxe⟩
        · rcases List.mem_cons.mp h4 with h4 | h4
          · exact .inr ⟨f, .head _, h4.symm⟩
          · exact .inl h4
        · exact .inr ⟨x, .tail _ hx, hxe⟩

theorem validateOutputs_app (formats seen : List Str) (pre rest : List CfgMap) (hn : (pre.map nameIn).Nodup) (hs : ∀ o ∈ pre, nameIn o ∉ seen)
    (hf : ∀ o ∈ pre, formatIn o ∈ formats) :
    validateOutputs formats seen (pre ++ rest) = validateOutputs formats ((pre.map nameIn).reverse ++ seen) rest := by
  induction pre generalizing seen with
  | nil => rfl
  | cons f pre ih =>
    obtain ⟨h1, h2⟩ := List.nodup_cons.mp hn
    have : f.name ∉ seen := hs f (.head _)
    have hff : ¬ f.formatName ∉ formats := fun h => h (hf f (.head _))
    simp only [List.cons_append, validateOutputs, this, hff, if_false]
    rw [ih (f.name :: seen) h2 (fun g hg => by
      simp only [List.mem_cons, not_or]
      exact ⟨fun e => h1 (List.mem_map.mpr ⟨g, hg, e⟩), hs g (.tail _ hg)⟩) fun o ho => hf o (.tail _ ho)]
    simp

theorem validateOutputs_error {formats seen : List Str} {os : List CfgMap} {e : MgrErr} (h : validateOutputs formats seen os = .error e) :
    ∃ (pre : List CfgMap) (o : CfgMap) (post : List CfgMap), os = pre ++ o :: post ∧ (pre.map nameIn).Nodup ∧ (∀ g ∈ pre, nameIn g ∉ seen) ∧ (∀ g ∈ pre, formatIn g ∈ formats) ∧
      (((nameIn o ∈ seen ∨ ∃ g ∈ pre, nameIn g = nameIn o) ∧ e = .dupOutput (nameIn o)) ∨
       (nameIn o ∉ seen ∧ (∀ g ∈ pre, nameIn g ≠ nameIn o) ∧ formatIn o ∉ formats ∧ e = .outputFormatMissing (formatIn o) (nameIn o))) := by
  induction os generalizing seen with
  | nil => cases h
  | cons f fs ih =>
    simp only [validateOutputs] at h
    by_cases hf : f.name ∈ seen
    · rw [if_pos hf] at h
      cases h
      exact ⟨[], f, fs, rfl, .nil, nofun, nofun, .inl ⟨.inl hf, rfl⟩⟩
    · rw [if_neg hf] at h
      by_cases hm : f.formatName ∉ formats
      · rw [if_pos hm] at h
        cases h
        exact ⟨[], f, fs, rfl, .nil, nofun, nofun, .inr ⟨hf, nofun, hm, rfl⟩⟩
      · rw [if_neg hm] at h
        obtain ⟨pre, g, post, h1, h2, h3, h4, h5⟩ := ih h
        refine ⟨f :: pre, g, post, by rw [h1]; rfl, List.nodup_cons.mpr ⟨fun hm => ?_, h2⟩, fun x hx => ?_, fun x hx => ?_, ?_⟩
        · obtain ⟨x, hx, hxe⟩ := List.mem_map.mp hm
          exact h3 x hx (hxe ▸ .head _)
        · rcases List.mem_cons.mp hx with rfl | hx
          · exact hf
          · exact fun hm => h3 x hx (.tail _ hm)
        · rcases List.mem_cons.mp hx with rfl | hx
          · exact Classical.not_not.mp hm
          · exact h4 x hx
        · by_cases hfg : nameIn f = nameIn g
          · rcases h5 with ⟨_, h5⟩ | ⟨h5, _, _⟩
            · exact .inl ⟨.inr ⟨f, .head _, hfg⟩, h5⟩
            · exact absurd (hfg ▸ .head _) h5
          · rcases h5 with ⟨h4 | ⟨x, hx, hxe⟩, h5⟩ | ⟨h8, h5, h6, h7⟩
            · rcases List.mem_cons.mp h4 with h4 | h4
              · exact absurd h4.symm hfg
              · exact .inl ⟨.inl h4, h5⟩
            · exact .inl ⟨.inr ⟨x, .tail _ hx, hxe⟩, h5⟩
            · refine .inr ⟨fun hm => h8 (.tail _ hm), fun x hx => ?_, h6, h7⟩
              rcases List.mem_cons.mp hx with rfl | hx
              · exact hfg
              · exact h5 x hx

theorem validateNames_error {outputs : List Str} {logger : Str} {ns : List Str} {e : MgrErr} (h : validateNames outputs logger ns = some e) :
    ∃ (pre : List Str) (n : Str) (post : List Str), ns = pre ++ n :: post ∧ (∀ x ∈ pre, x ∈ outputs) ∧ n ∉ outputs ∧ e = .loggerOutputMissing n logger := by
  induction ns with
  | nil => cases h
  | cons n ns ih =>
    simp only [validateNames] at h
    by_cases hn : n ∉ outputs
    · rw [if_pos hn] at h
      cases h
      exact ⟨[], n, ns, rfl, nofun, hn, rfl⟩
    · rw [if_neg hn] at h
      obtain ⟨pre, x, post, h1, h2, h3, h4⟩ := ih h
      refine ⟨n :: pre, x, post, by rw [h1]; rfl, fun y hy => ?_, h3, h4⟩
      rcases List.mem_cons.mp hy with rfl | hy
      · exact Classical.not_not.mp hn
      · exact h2 y hy

theorem validateNames_app {outputs : List Str} {logger : Str} {pre : List Str} {n : Str} {post : List Str} (hp : ∀ x ∈ pre, x ∈ outputs) (hn : n ∉ outputs) :
    validateNames outputs logger (pre ++ n :: post) = some (.loggerOutputMissing n logger) := by
  induction pre with
  | nil => simp [validateNames, hn]
  | cons x pre ih =>
    have : ¬ x ∉ outputs := fun h => h (hp x (.head _))
    simp only [List.cons_append, validateNames, this, if_false]
    exact ih fun y hy => hp y (.tail _ hy)

theorem validateLoggers_error {outputs : List Str} {ls : List CfgLogger} {e : MgrErr} (h : validateLoggers outputs [] ls = some e) :
    ∃ (pre : List CfgLogger) (l : CfgLogger) (post : List CfgLogger), ls = pre ++ l :: post ∧ (∀ x ∈ pre, ∀ n ∈ x.outputNames, n ∈ outputs) ∧
      validateNames outputs l.name l.outputNames = some e := by
  induction ls with
  | nil => cases h
  | cons l ls ih =>
    simp only [validateLoggers, List.not_mem_nil, if_false] at h
    cases hv : validateNames outputs l.name l.outputNames with
    | some e' =>
      rw [hv] at h
      cases h
      exact ⟨[], l, ls, rfl, nofun, hv⟩
    | none =>
      rw [hv] at h
      obtain ⟨pre, x, post, h1, h2, h3⟩ := ih h
      refine ⟨l :: pre, x, post, by rw [h1]; rfl, fun y hy => ?_, h3⟩
      rcases List.mem_cons.mp hy with rfl | hy
      · exact (validateNames_none ..).mp hv
      · exact h2 y hy

theorem validateLoggers_app {outputs : List Str} {pre : List CfgLogger} {l : CfgLogger} {post : List CfgLogger} {e : MgrErr}
    (hp : ∀ x ∈ pre, ∀ n ∈ x.outputNames, n ∈ outputs) (hl : validateNames outputs l.name l.outputNames = some e) :
    validateLoggers outputs [] (pre ++ l :: post) = some e := by
  induction pre with
  | nil => simp [validateLoggers, hl]
  | cons x pre ih =>
    simp only [List.cons_append, validateLoggers, List.not_mem_nil, if_false, (validateNames_none ..).mpr (hp x (.head _))]
    exact ih fun y hy => hp y (.tail _ hy)

/-- Where two texts with a mark in them are equal, the parts are, if the mark does not occur before. -/
theorem mark_split {c : Char} {a b x y : Str} (h : a ++ c :: x = b ++ c :: y) (ha : c ∉ a) (hb : c ∉ b) : a = b ∧ x = y := by
  induction a generalizing b with
  | nil =>
    cases b with
    | nil => exact ⟨rfl, (List.cons.inj h).2⟩
    | cons d b => exact absurd ((List.cons.inj h).1 ▸ .head _) hb
  | cons d a ih =>
    cases b with
    | nil => exact absurd ((List.cons.inj h).1 ▸ .head _) ha
    | cons d' b =>
      obtain ⟨h1, h2⟩ := List.cons.inj h
      obtain ⟨h3, h4⟩ := ih h2 (fun hm => ha (.tail _ hm)) (fun hm => hb (.tail _ hm))
      exact ⟨by rw [h1, h3], h4⟩

end Log4g
