import Verif.Spec.Options
import Verif.Lemmas.Standard
import Verif.Props.RollingConfig

/-! # Helpers for C103 -/

namespace Log4g
open Spec Strconv

theorem number_option {f : Str → Int} {dflt max : Int} (h : Clamped f dflt max) (s : Str) : NumberOption dflt max s (f s) := by
  obtain ⟨-, h1, h2, h3, h4, h5⟩ := h s
  rcases Classical.em (∃ n, Decimal s n) with ⟨n, hn⟩ | hno
  · rcases Int.lt_or_le n 1 with ha | ha
    · exact .inr (.inr ⟨.inl ⟨n, hn, ha⟩, h3 n hn ha⟩)
    · rcases Int.lt_or_le max n with hb | hb
      · exact .inr (.inl ⟨.inl ⟨n, hn, hb⟩, h2 n hn hb⟩)
      · exact .inl ⟨n, hn, ha, hb, h1 n hn ha hb⟩
  · have nd : NotDecimal s := fun n hn => hno ⟨n, hn⟩
    rcases Classical.em (Overlong [] s) with ho | ho
    · exact .inr (.inl ⟨.inr ⟨nd, .inl ho⟩, h4 nd (.inl ho)⟩)
    · rcases Classical.em (Overlong ['+'] s) with ho' | ho'
      · exact .inr (.inl ⟨.inr ⟨nd, .inr ho'⟩, h4 nd (.inr ho')⟩)
      · exact .inr (.inr ⟨.inr ⟨nd, ho, ho'⟩, h5 nd ho ho'⟩)

theorem fileIn_split (path : Str) : FileIn path (if dirName path = [] then c!"." else dirName path) (baseName path) := by
  have hcat : dirName path ++ baseName path = path := by
    have h := List.takeWhile_append_dropWhile (p := fun x => decide (x ≠ '/')) (l := path.reverse)
    have h' := congrArg List.reverse h
    rw [List.reverse_append, List.reverse_reverse] at h'
    exact h'
  refine ⟨fun hm => ?_, ?_⟩
  · have : ∀ (l : Str), '/' ∉ l.takeWhile (· ≠ '/') := by
      intro l
      induction l with
      | nil => simp
      | cons c cs ih =>
        rw [List.takeWhile_cons]
        split
        · rename_i h
          intro hm
          rcases List.mem_cons.mp hm with e | hm
          · subst e; simp at h
          · exact ih hm
        · simp
    exact this _ (List.mem_reverse.mp hm)
  · by_cases h : dirName path = []
    · rw [if_pos h]
      rw [h] at hcat
      exact .inl ⟨hcat.symm, rfl⟩
    · rw [if_neg h]
      right
      have : ∀ (l : Str), l.dropWhile (· ≠ '/') = [] ∨ ∃ d, l.dropWhile (· ≠ '/') = '/' :: d := by
        intro l
        induction l with
        | nil => simp
        | cons c cs ih =>
          rw [List.dropWhile_cons]
          split
          · exact ih
          · rename_i hc
            have : c = '/' := by simpa using hc
            exact .inr ⟨cs, by rw [this]⟩
      rcases this path.reverse with e | ⟨d, e⟩
      · exact absurd (by rw [dirName, e]; rfl) h
      · have hd : dirName path = d.reverse ++ c!"/" := by rw [dirName, e]; simp
        exact ⟨d.reverse, by rw [← hd, hcat], hd⟩

theorem sends_console (m : CfgMap) (h : m.type ≠ []) : SendsAs m (newConsoleOutput m) := by
  have hm : m ≠ none := by rintro rfl; exact h rfl
  unfold newConsoleOutput
  split
  · rename_i ha
    exact .inr ⟨ha.2, _, _, _, rfl, threshold_named _, number_option C28_ranges.1 _, number_option C28_ranges.2.1 _⟩
  · rename_i ha
    exact .inl ⟨fun e => ha ⟨hm, e⟩, _, rfl, threshold_named _⟩

theorem sends_rolling {tc : Toolchain} {m : CfgMap} {c : RCfg} {k : ConsoleKind} (h : newRollingOutput tc m = some (c, k)) : SendsAs m k := by
  unfold newRollingOutput at h
  split at h
  · cases h
  · split at h
    · rename_i ha
      cases h
      exact .inr ⟨ha, _, _, _, rfl, threshold_named _, number_option C28_ranges.1 _, number_option C28_ranges.2.1 _⟩
    · rename_i ha
      cases h
      exact .inl ⟨ha, _, rfl, threshold_named _⟩

theorem writer_of {tc : Toolchain} {m : CfgMap} {c : RCfg} {k : ConsoleKind} (h : newRollingOutput tc m = some (c, k)) : newRollingWriter tc m = some c := by
  unfold newRollingOutput at h
  split at h
  · cases h
  · rename_i hc
    split at h <;> (cases h; exact hc)

theorem rolls_as {tc : Toolchain} {m : CfgMap} {c : RCfg} (h : newRollingWriter tc m = some c) : RollsAs m c := by
  have hf := fileIn_split (m.at c!"file")
  have hn := number_option C28_ranges.2.2 (m.at c!"backups")
  have hp : (if m.at c!"name_mode" = c!"prefix" then NameMode.pre else .post) = .pre ↔ m.at c!"name_mode" = c!"prefix" := by
    split <;> simp_all
  have hz : ((if m.at c!"archive" = c!"zip" then ArchiveType.zip else if m.at c!"archive" = c!"gzip" then .gzip else .none) = .zip ↔ m.at c!"archive" = c!"zip") ∧
      ((if m.at c!"archive" = c!"zip" then ArchiveType.zip else if m.at c!"archive" = c!"gzip" then .gzip else .none) = .gzip ↔ m.at c!"archive" = c!"gzip") := by
    split
    · rename_i e; rw [e]; simp
    · split <;> simp_all
  simp only [newRollingWriter] at h
  split at h
  · cases h; exact ⟨hf, hn, hp, hz.1, hz.2⟩
  · split at h
    · cases h; exact ⟨hf, hn, hp, hz.1, hz.2⟩
    · cases h

end Log4g
