import Verif.Props.Lingering
import Verif.Lemmas.Retention

/-! # C113: the newest part of the log is there -/

namespace Log4g
open Spec Strconv

variable {lib : RLib} {c : RCfg} {umask : Nat}

/-- C113, size rolling, by rolls.  A message whose write succeeded is in the log as long as the writer has not rolled more often
since than it keeps backups, whatever was written, failed or died since. -/
theorem C113_rolls {max : Int} (hk : c.kind = .size max) {d0 : Disk} {hs0 : List Str} (hb : Backups lib c d0.dir hs0) {B : Int} (hB : 0 ≤ B)
    (hnum : ∀ n ∈ hs0, ∀ v, Backup lib c n v → v ≤ B) {t1 t2 t3 : STrace} {d1 d1' d : Disk} {rw1 rw1' rw : RW} {msg : Bytes} {n : Nat}
    (hw : Runs umask (c.write lib rw1 msg) d1 t2 ((n, true), rw1') d1') (hl : Life umask lib c d0 (t1 ++ t2 ++ t3) d rw)
    (hnr : B + rolls (t1 ++ t2 ++ t3) < 2 ^ 63) (hr : rolls t3 ≤ c.maxRolls) : InLog lib c d.dir msg := by
  obtain ⟨hs, h, _⟩ := size_between False hk hb hB hnum hl False.elim hnr
  exact h.1.retains (write_cuts hw _ t1) hr

/-- C113, size rolling, by bytes: a message is in the log as long as less than `maxRolls` times the limit has been written since. -/
theorem C113_bytes {max : Int} (hk : c.kind = .size max) (hmax : 0 ≤ max) {d0 : Disk} {hs0 : List Str} (hb : Backups lib c d0.dir hs0) {B : Int} (hB : 0 ≤ B)
    (hnum : ∀ n ∈ hs0, ∀ v, Backup lib c n v → v ≤ B) {t1 t2 t3 : STrace} {d1 d1' d : Disk} {rw1 rw1' rw : RW} {msg : Bytes} {n : Nat}
    (hw : Runs umask (c.write lib rw1 msg) d1 t2 ((n, true), rw1') d1') (hl : Life umask lib c d0 (t1 ++ t2 ++ t3) d rw)
    (hnr : B + rolls (t1 ++ t2 ++ t3) < 2 ^ 63) (hr : (chunks t3).flatten.length < c.maxRolls * max) : InLog lib c d.dir msg := by
  obtain ⟨hs, ⟨h, _, hf⟩, _⟩ := size_between False hk hb hB hnum hl False.elim hnr
  refine h.retains (write_cuts hw _ t1) ?_
  have hpos : 0 < c.maxRolls * max := by omega
  have hm : 0 < c.maxRolls := by
    rcases Decidable.em (0 < c.maxRolls) with h | h
    · exact h
    · have := Int.mul_nonpos_of_nonpos_of_nonneg (by omega : c.maxRolls ≤ 0) hmax; omega
  rcases rolls_bytes hf with h0 | h1
  · omega
  · have h2 : ((rolls t3 : Int) - 1) * max < c.maxRolls * max := by omega
    have := Int.lt_of_mul_lt_mul_right h2 hmax
    omega

/-- C113, time rolling: likewise, under the conditions of C67 but for removals. -/
theorem C113_time {pat : Str} (hk : c.kind = .time pat) {start : Int → Int} {T0 T1 : Int} (hp : Periods lib pat start T0 T1) {d0 : Disk}
    {hs0 : List Str} (hb : Backups lib c d0.dir hs0) (hold : ∀ n ∈ hs0, ∀ v, Backup lib c n v → v < start T0) {t1 t2 t3 : STrace} {d1 d1' d : Disk}
    {rw1 rw1' rw : RW} {msg : Bytes} {n : Nat} (hw : Runs umask (c.write lib rw1 msg) d1 t2 ((n, true), rw1') d1')
    (hl : Life umask lib c d0 (t1 ++ t2 ++ t3) d rw) (hclock : (clocks (t1 ++ t2 ++ t3)).Pairwise (· ≤ ·))
    (hT : ∀ t ∈ clocks (t1 ++ t2 ++ t3), T0 ≤ t ∧ t ≤ T1) (hr : rolls t3 ≤ c.maxRolls) : InLog lib c d.dir msg := by
  obtain ⟨hs, h, _⟩ := time_between False hk hp hb hold hl False.elim hclock hT
  exact h.1.retains (write_cuts hw _ t1) hr

/-! Cases: the message `[2]`, then others. -/

def keepWrite : SimWrite 0o022 demoRLib demoRCfg (fun _ => (false, 0)) [2] {} demoDisk0 := simWrite _ _ _ _ _ _ _ (by decide +kernel)
def keepWrite2 : SimWrite 0o022 demoRLib demoRCfg (fun _ => (false, 0)) [3, 3] keepWrite.rw' keepWrite.L' := simWrite _ _ _ _ _ _ _ (by decide +kernel)
def keepWrite3 : SimWrite 0o022 demoRLib demoRCfg (fun k => (decide (k = 4), 0)) [4] keepWrite2.rw' keepWrite2.L' := simWrite _ _ _ _ _ _ _ (by decide +kernel)
def keepWrite4 : SimWrite 0o022 demoRLib demoRCfg (fun _ => (false, 0)) [5, 5] keepWrite3.rw' keepWrite3.L' := simWrite _ _ _ _ _ _ _ (by decide +kernel)
def keepWrite5 : SimWrite 0o022 demoRLib demoRCfg (fun _ => (false, 0)) [6] keepWrite4.rw' keepWrite4.L' := simWrite _ _ _ _ _ _ _ (by decide +kernel)

/-- The message and three others. -/
theorem keepLife : Life 0o022 demoRLib demoRCfg demoDisk0.disk ([] ++ keepWrite.tr ++ (keepWrite2.tr ++ keepWrite3.tr)) keepWrite3.L'.disk keepWrite3.rw' := by
  have h1 := Life.write Life.start keepWrite.runs
  have h2 := Life.write h1 keepWrite2.runs
  have h3 := Life.write h2 keepWrite3.runs
  simpa using h3

/- Two others have been written, three bytes (the limit is two, and two backups are kept); the removal of an old
backup has failed. -/
example : demoRCfg.kind = .size 2 ∧ Backups demoRLib demoRCfg demoDisk0.disk.dir [c!"log.7"] ∧
    (∀ n ∈ [c!"log.7"], ∀ v, Backup demoRLib demoRCfg n v → v ≤ 7) ∧
    Runs 0o022 (demoRCfg.write demoRLib {} [2]) demoDisk0.disk keepWrite.tr ((1, true), keepWrite.rw') keepWrite.L'.disk ∧
    Life 0o022 demoRLib demoRCfg demoDisk0.disk ([] ++ keepWrite.tr ++ (keepWrite2.tr ++ keepWrite3.tr)) keepWrite3.L'.disk keepWrite3.rw' ∧
    (7 : Int) + rolls ([] ++ keepWrite.tr ++ (keepWrite2.tr ++ keepWrite3.tr)) < 2 ^ 63 ∧ (rolls (keepWrite2.tr ++ keepWrite3.tr) : Int) = demoRCfg.maxRolls ∧
    ((chunks (keepWrite2.tr ++ keepWrite3.tr)).flatten.length : Int) < demoRCfg.maxRolls * 2 ∧ removesOkB keepWrite3.tr = false :=
  ⟨rfl, demoDisk0_backups, demo_numbers, keepWrite.runs, keepLife, by decide +kernel, by decide +kernel, by decide +kernel, by decide +kernel⟩

/-- C113: the number is exact.  After one roll more than backups are kept the message is gone. -/
theorem C113_exact : ∃ (umask : Nat) (lib : RLib) (c : RCfg) (max : Int) (d0 d : Disk) (hs0 : List Str) (t1 t2 t3 : STrace) (rw1 rw1' rw : RW) (d1 d1' : Disk) (msg : Bytes) (n : Nat),
    c.kind = .size max ∧ Backups lib c d0.dir hs0 ∧ Runs umask (c.write lib rw1 msg) d1 t2 ((n, true), rw1') d1' ∧
    Life umask lib c d0 (t1 ++ t2 ++ t3) d rw ∧ rolls t3 = c.maxRolls + 1 ∧ ¬ InLog lib c d.dir msg := by
  refine ⟨0o022, demoRLib, demoRCfg, 2, demoDisk0.disk, keepWrite5.L'.disk, [c!"log.7"], [], keepWrite.tr,
    keepWrite2.tr ++ keepWrite3.tr ++ keepWrite4.tr ++ keepWrite5.tr, {}, keepWrite.rw', keepWrite5.rw', demoDisk0.disk, keepWrite.L'.disk, [2], 1,
    rfl, demoDisk0_backups, keepWrite.runs, ?_, by decide +kernel, ?_⟩
  · have h4 := Life.write keepLife keepWrite4.runs
    have h5 := Life.write h4 keepWrite5.runs
    simpa using h5
  · rintro ⟨n, data, p, _, hd, x, y, hxy⟩
    have hm : ∀ e ∈ keepWrite5.L'.files, (match e.2 with | .file data _ => data.contains 2 | _ => false) = false := by decide +kernel
    have := hm _ (Map.mem_of_get hd)
    subst hxy
    simp at this

/- Time rolling (also for `C55_time`). -/
def keepTWrite : SimWrite 0o022 demoRLib demoTCfg (fun _ => (false, 1)) [2] {} demoTDisk0 := simWrite _ _ _ _ _ _ _ (by decide +kernel)
def keepTWrite2 : SimWrite 0o022 demoRLib demoTCfg (fun _ => (false, 2)) [3, 3] keepTWrite.rw' keepTWrite.L' := simWrite _ _ _ _ _ _ _ (by decide +kernel)
def keepTWrite3 : SimWrite 0o022 demoRLib demoTCfg (fun _ => (false, 3)) [4] keepTWrite2.rw' keepTWrite2.L' := simWrite _ _ _ _ _ _ _ (by decide +kernel)

example : demoTCfg.kind = .time c!"x" ∧ Periods demoRLib c!"x" id 1 9 ∧ Backups demoRLib demoTCfg demoTDisk0.disk.dir [c!"log.0"] ∧
    (∀ n ∈ [c!"log.0"], ∀ v, Backup demoRLib demoTCfg n v → v < id (1 : Int)) ∧
    Runs 0o022 (demoTCfg.write demoRLib {} [2]) demoTDisk0.disk keepTWrite.tr ((1, true), keepTWrite.rw') keepTWrite.L'.disk ∧
    Life 0o022 demoRLib demoTCfg demoTDisk0.disk ([] ++ keepTWrite.tr ++ (keepTWrite2.tr ++ keepTWrite3.tr)) keepTWrite3.L'.disk keepTWrite3.rw' ∧
    clocks ([] ++ keepTWrite.tr ++ (keepTWrite2.tr ++ keepTWrite3.tr)) = [1, 2, 2, 3, 3] ∧ (rolls (keepTWrite2.tr ++ keepTWrite3.tr) : Int) = demoTCfg.maxRolls ∧
    RemovesOk ([] ++ keepTWrite.tr ++ (keepTWrite2.tr ++ keepTWrite3.tr)) := by
  refine ⟨rfl, demo_periods, backupsB_ok (by decide +kernel), ?_, keepTWrite.runs, ?_, by decide +kernel, by decide +kernel, removesOkB_ok (by decide +kernel)⟩
  · intro n hn v hv
    simp only [List.mem_singleton] at hn
    subst hn
    rw [← backup_key hv]
    decide
  · have h1 := Life.write Life.start keepTWrite.runs
    have h2 := Life.write h1 keepTWrite2.runs
    have h3 := Life.write h2 keepTWrite3.runs
    simpa using h3

end Log4g
