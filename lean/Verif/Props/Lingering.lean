import Verif.Props.RollingTime
import Verif.Lemmas.RollKeep

/-! # C112: removals that fail -/

namespace Log4g
open Spec Strconv

variable {lib : RLib} {c : RCfg} {umask : Nat}

/-- C112, size rolling.  Whatever is written, whatever fails, whatever dies and is started again: as long as the numbers
of backups stay within 64 bits, the newest backups and the current file are a gap-free final part of the log, and
older backups are whole dropped files in order. -/
theorem C112_size {max : Int} (hk : c.kind = .size max) {d0 : Disk} {hs0 : List Str} (hb : Backups lib c d0.dir hs0) {B : Int} (hB : 0 ≤ B)
    (hnum : ∀ n ∈ hs0, ∀ v, Backup lib c n v → v ≤ B) {tr : STrace} {d : Disk} {rw : RW} (hl : Life umask lib c d0 tr d rw)
    (hnr : B + rolls tr < 2 ^ 63) : Trailing lib c (files c d0.dir hs0) tr d.dir := by
  obtain ⟨hs, h, _⟩ := size_between False hk hb hB hnum hl False.elim hnr
  exact h.1.trailing

/-- C112, time rolling: likewise, under the conditions of C67 but for removals. -/
theorem C112_time {pat : Str} (hk : c.kind = .time pat) {start : Int → Int} {T0 T1 : Int} (hp : Periods lib pat start T0 T1) {d0 : Disk}
    {hs0 : List Str} (hb : Backups lib c d0.dir hs0) (hold : ∀ n ∈ hs0, ∀ v, Backup lib c n v → v < start T0) {tr : STrace} {d : Disk} {rw : RW}
    (hl : Life umask lib c d0 tr d rw) (hclock : (clocks tr).Pairwise (· ≤ ·)) (hT : ∀ t ∈ clocks tr, T0 ≤ t ∧ t ≤ T1) :
    Trailing lib c (files c d0.dir hs0) tr d.dir := by
  obtain ⟨hs, h, _⟩ := time_between False hk hp hb hold hl False.elim hclock hT
  exact h.1.trailing

/-- Removals of the oldest backup fail at the fourth and at the fifth message. -/
def stuckOldest : Nat → Nat → Bool × Int := fun j k => (decide (3 ≤ j) && decide (k = 4), 0)

def stuckRun : SimRun 0o022 demoRLib demoRCfg stuckOldest [[2], [3, 3], [4, 4], [5, 5, 5], [6]] demoDisk0 := simRun _ _ _ _ _ _ (by decide +kernel)

theorem stuckRun_files : stuckRun.L'.files = [(c!"log", .file [6] 0o600), (c!"log.11", .file [5, 5, 5] 0o500), (c!"log.10", .file [4, 4] 0o500),
    (c!"log.8", .file [1, 2] 0o500), (c!"other", .file [5] 0o600)] := by
  decide +kernel

example : Backups demoRLib demoRCfg demoDisk0.disk.dir [c!"log.7"] ∧ (∀ n ∈ [c!"log.7"], ∀ v, Backup demoRLib demoRCfg n v → v ≤ 7) ∧
    Life 0o022 demoRLib demoRCfg demoDisk0.disk stuckRun.tr stuckRun.L'.disk stuckRun.rw ∧ (7 : Int) + rolls stuckRun.tr < 2 ^ 63 ∧
    ¬ RemovesOk stuckRun.tr ∧ chunks stuckRun.tr = [[2], [3, 3], [4, 4], [5, 5, 5], [6]] := by
  refine ⟨demoDisk0_backups, demo_numbers, stuckRun.life, by decide +kernel, ?_, by decide +kernel⟩
  intro h
  have hm : (⟨.remove c!"log.8", false⟩ : (o : Sys) × o.Resp) ∈ stuckRun.tr := by
    have : stuckRun.tr.any (fun x => match x with | ⟨.remove n, r⟩ => decide (n = c!"log.8") && !r | _ => false) = true := by decide +kernel
    obtain ⟨x, hx, h⟩ := List.any_eq_true.mp this
    split at h
    · rename_i n r
      simp only [Bool.and_eq_true, decide_eq_true_eq, Bool.not_eq_true'] at h
      obtain ⟨rfl, hr⟩ := h
      subst hr
      exact hx
    · cases h
  cases h _ _ hm

/-- Time rolling; the removal of the first backup fails. -/
def stuckTRun : SimRun 0o022 demoRLib { demoTCfg with maxRolls := 1 } (fun j k => (decide (j = 2) && decide (k = 6), (demoClock j k).2))
    [[2], [3], [4], [5, 5, 5], [6]] demoTDisk0 := simRun _ _ _ _ _ _ (by decide +kernel)

example : Backups demoRLib { demoTCfg with maxRolls := 1 } demoTDisk0.disk.dir [c!"log.0"] ∧
    (∀ n ∈ [c!"log.0"], ∀ v, Backup demoRLib { demoTCfg with maxRolls := 1 } n v → v < id (1 : Int)) ∧
    Life 0o022 demoRLib { demoTCfg with maxRolls := 1 } demoTDisk0.disk stuckTRun.tr stuckTRun.L'.disk stuckTRun.rw ∧
    removesOkB stuckTRun.tr = false ∧ clocks stuckTRun.tr = [1, 1, 2, 2, 3, 3, 3] := by
  refine ⟨backupsB_ok (by decide +kernel), ?_, stuckTRun.life, by decide +kernel, by decide +kernel⟩
  intro n hn v hv
  simp only [List.mem_singleton] at hn
  subst hn
  rw [← backup_key hv]
  decide

/-- The fourth message, with a removal that fails. -/
def stuckRun3 : SimRun 0o022 demoRLib demoRCfg stuckOldest [[2], [3, 3], [4, 4]] demoDisk0 := simRun _ _ _ _ _ _ (by decide +kernel)
def stuckWrite4 : SimWrite 0o022 demoRLib demoRCfg (stuckOldest 3) [5, 5, 5] stuckRun3.rw stuckRun3.L' := simWrite _ _ _ _ _ _ _ (by decide +kernel)

/- C56 when a removal fails: one backup of the three has been kept in vain. -/
example : Life 0o022 demoRLib demoRCfg demoDisk0.disk stuckRun3.tr stuckRun3.L'.disk stuckRun3.rw ∧
    Runs 0o022 (demoRCfg.write demoRLib stuckRun3.rw [5, 5, 5]) stuckRun3.L'.disk stuckWrite4.tr (stuckWrite4.res, stuckWrite4.rw') stuckWrite4.L'.disk ∧
    0 < rolls stuckWrite4.tr ∧ removesOkB stuckWrite4.tr = false ∧
    stuckWrite4.L'.files.map (·.1) = [c!"log", c!"log.10", c!"log.9", c!"log.8", c!"other"] ∧ demoRCfg.maxRolls = 2 :=
  ⟨stuckRun3.life, stuckWrite4.runs, by decide +kernel, by decide +kernel, by decide +kernel, rfl⟩

/-- C112: the condition of C54 is needed.  Here the oldest backup cannot be removed, the next one can, and the
directory has a gap: `log.8` and `log.10`, but not `log.9`. -/
theorem C112_gap : ¬ GapFree demoRLib demoRCfg (files demoRCfg demoDisk0.disk.dir [c!"log.7"]) stuckRun.tr stuckRun.L'.disk.dir := by
  rintro ⟨hs, dropped, gs, hb, h1, h2, _⟩
  have e := backups_unique hb (backupsB_ok (L := stuckRun.L') (hs := [c!"log.8", c!"log.10", c!"log.11"]) (by decide +kernel))
  subst e
  have e1 : files demoRCfg stuckRun.L'.disk.dir [c!"log.8", c!"log.10", c!"log.11"] = [[1, 2], [4, 4], [5, 5, 5], [6]] := by decide +kernel
  have e2 : files demoRCfg demoDisk0.disk.dir [c!"log.7"] ++ chunks stuckRun.tr = [[9], [1], [2], [3, 3], [4, 4], [5, 5, 5], [6]] := by decide +kernel
  rw [e1] at h2
  rw [e2] at h1
  have h3 : dropped.flatten ++ [1, 2, 4, 4, 5, 5, 5, 6] = [9, 1, 2, 3, 3, 4, 4, 5, 5, 5, 6] := by
    have := congrArg List.flatten h2
    rw [← List.flatten_flatten, h1] at this
    simpa using this.symm
  have h4 : dropped.flatten.length = 3 := by
    have := congrArg List.length h3
    simpa using this
  have := congrArg (List.drop 3) h3
  rw [List.drop_left' h4] at this
  revert this
  decide

end Log4g
