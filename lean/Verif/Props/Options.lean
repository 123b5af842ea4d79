import Verif.Lemmas.Options

/-! # C103: the options of an output -/

namespace Log4g
open Spec Strconv

/-- **C103.** What the options of an output of the library give, whatever they are. -/
theorem C103_options (tc : Toolchain) {ob : OutObj} {m : CfgMap} (h : ob.origin = .managed m) :
    (m.at c!"type" = c!"console" → ∃ k, ob.kind tc = .console k ∧ SendsAs m k) ∧
    (m.at c!"type" = c!"size_rolling_file" → ∃ c k, ob.kind tc = .rolling c k ∧ SendsAs m k ∧ RollsAs m c ∧ c.kind = .size (getMaxSize (m.at c!"size"))) ∧
    (m.at c!"type" = c!"time_rolling_file" → ∃ c k, ob.kind tc = .rolling c k ∧ SendsAs m k ∧ RollsAs m c ∧ c.kind = .time (m.at c!"pattern")) ∧
    (m.at c!"type" = c!"syslog" → ∃ t, ob.kind tc = .syslog t ∧ ThresholdNamed (m.at c!"threshold") t) := by
  have hroll : (m.type = c!"size_rolling_file" ∨ m.type = c!"time_rolling_file") → ∃ c k, newRollingOutput tc m = some (c, k) := by
    intro ht
    have hw : ∃ c, newRollingWriter tc m = some c := by
      simp only [newRollingWriter]
      rcases ht with ht | ht
      · rw [if_pos ht]; exact ⟨_, rfl⟩
      · rw [if_neg (by rw [ht]; decide), if_pos ht]; exact ⟨_, rfl⟩
    obtain ⟨c, hc⟩ := hw
    simp only [newRollingOutput, hc]
    split <;> exact ⟨_, _, rfl⟩
  have hkind : ∀ c k, newRollingOutput tc m = some (c, k) → (m.type = c!"size_rolling_file" ∨ m.type = c!"time_rolling_file") → ob.kind tc = .rolling c k := by
    intro c k e ht
    simp only [OutObj.kind, h]
    rw [if_neg (by rcases ht with ht | ht <;> (rw [ht]; decide)), if_neg (by rcases ht with ht | ht <;> (rw [ht]; decide)), if_pos ht, e]
  refine ⟨fun (ht : m.type = _) => ?_, fun (ht : m.type = _) => ?_, fun (ht : m.type = _) => ?_, fun (ht : m.type = _) => ?_⟩
  · exact ⟨_, by simp only [OutObj.kind, h]; rw [if_pos ht], sends_console m (by rw [ht]; simp)⟩
  · obtain ⟨c, k, e⟩ := hroll (.inl ht)
    refine ⟨c, k, hkind c k e (.inl ht), sends_rolling e, rolls_as (writer_of e), ?_⟩
    rcases rollingWriter_kind (writer_of e) with ⟨-, hk⟩ | ⟨ht', -⟩
    · exact hk
    · exact absurd (ht.symm.trans ht') (by decide)
  · obtain ⟨c, k, e⟩ := hroll (.inr ht)
    refine ⟨c, k, hkind c k e (.inr ht), sends_rolling e, rolls_as (writer_of e), ?_⟩
    rcases rollingWriter_kind (writer_of e) with ⟨ht', -⟩ | ⟨-, hk⟩
    · exact absurd (ht.symm.trans ht') (by decide)
    · exact hk
  · refine ⟨_, ?_, threshold_named _⟩
    simp only [OutObj.kind, h]
    rw [if_neg (by rw [ht]; decide), if_neg (by rw [ht]; decide), if_neg (by rw [ht]; decide), if_pos ht]

/-- A rolling output with most of its options given. -/
def Demo.full : CfgMap := some [(c!"name", c!"r"), (c!"type", c!"time_rolling_file"), (c!"file", c!"/var/log/a.log"), (c!"pattern", c!"2006-01-02"),
  (c!"backups", c!"30"), (c!"name_mode", c!"prefix"), (c!"archive", c!"gzip"), (c!"async", c!"true"), (c!"queue_size", c!"50"), (c!"threshold", c!"Warn")]

/-- The premises of C103 are met, and what it says of that output: the directory "/var/log/", the file "a.log", twenty
backups, names before it, gzip, a queue of fifty, batches of twenty, and warnings upwards. -/
example : ∃ c, (OutObj.mk (.managed Demo.full) none).kind .since113 = .rolling c (.async 5 50 20) ∧
    c.dirPath = c!"/var/log/" ∧ c.fileName = c!"a.log" ∧ c.maxRolls = 20 ∧ c.mode = .pre ∧ c.archive = .gzip ∧ c.kind = .time c!"2006-01-02" :=
  ⟨_, rfl, by decide, by decide, by decide, by decide, by decide, by decide⟩

end Log4g
