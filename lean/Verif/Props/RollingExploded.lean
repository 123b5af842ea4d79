import Verif.Props.RollingArchive

/-! # An archive for each backup -/

namespace Log4g
open Spec Strconv
open scoped List

variable {lib : RLib} {c : RCfg} {umask : Nat}

theorem ownArchive_eq (c : RCfg) (n : Str) : ownArchive c n = n ++ extOf c.archive := by
  rw [ownArchive]; cases c.archive <;> rfl

/-- C116 for a write.  With an archive for each backup, wherever a write stops and whatever fails in it, whatever is in
the archive directory is as it was, or is the complete archive of one of the backups that are beyond the configured
number after the roll. -/
theorem C116_each_atomic (he : c.exploded = true) {d0 d d' : Disk} {tr tr' : STrace} {rw : RW} {bs : Bytes} (hl : Life umask lib c d0 tr d rw)
    (h : Stops umask (c.write lib rw bs) d tr' d') (m : Str) :
    d'.arch m = d.arch m ∨ ∃ n data, Leaves lib c d.dir tr' n data ∧ m = ownArchive c n ∧ d'.arch m = .file [(n, data)] := by
  rcases stops_write (life_name hl) h with h | ⟨hs, b, d2, u, d3, h1, h2, h3⟩
  · exact .inl (by rw [h])
  · obtain ⟨e1, e2⟩ := rolling_data h1
    rcases stops_delete_each he h2 m with h | ⟨n, hn, data, p, o1, o2, o3⟩
    · left; rw [h3, h, e1]
    · obtain ⟨_, _, _, _, g1, g2, tag, g3⟩ := h1
      refine .inr ⟨n, data, ⟨hs, b, g2, g1, by simpa using hn, ?_⟩, by rw [ownArchive_eq]; exact o2, by rw [h3]; exact o3⟩
      have hne : n ≠ c.fileName := by
        rcases List.mem_append.mp (List.mem_of_mem_take hn) with hm | hm
        · obtain ⟨⟨v, hv⟩, _⟩ := (g2.all _).mp hm
          intro h; rw [h] at hv; exact current_not_backup lib c v hv
        · simp only [List.mem_singleton] at hm
          rw [hm, g3]
          intro h
          have := hasRollName_backup c tag
          rw [h, hasRollName_current] at this; cases this
      have := e2 n hne
      rw [dataOf_file o1] at this
      rw [this]; split <;> rfl

/-- C116 for whole histories of a size-rolling writer: as long as nothing fails, nothing is ever lost.  Some backups each
have an archive of their own that holds just them; no other archive has changed; and the contents of the archived
backups, of the backups still there and of the log file, oldest first, are together what was there before and what has
been written since. -/
theorem C116_nothing_lost {max : Int} (hk : c.kind = .size max) (hmax : 0 < max) (he : c.exploded = true) (ha : c.archive ≠ .none) {d0 : Disk} {hs0 : List Str}
    (hb : Backups lib c d0.dir hs0) {B : Int} (hB : 0 ≤ B) (hnum : ∀ n ∈ hs0, ∀ v, Backup lib c n v → v ≤ B)
    {ms : List Bytes} {tr : STrace} {d : Disk} {rw : RW} (hl : Session umask lib c d0 ms tr d rw) (hn : NoneFailed tr) (hnr : B + rolls tr < 2 ^ 63) :
    ∃ (new : Entries) (hs : List Str), (∀ e ∈ new, (∃ v, Backup lib c e.1 v) ∧ d.arch (ownArchive c e.1) = .file [e]) ∧
      (∀ m, (∀ e ∈ new, m ≠ ownArchive c e.1) → d.arch m = d0.arch m) ∧ Backups lib c d.dir hs ∧
      (new.map Prod.fst ++ hs).Pairwise (fun x y => ∀ v w, Backup lib c x v → Backup lib c y w → v < w) ∧
      (new.map Prod.snd).flatten ++ (files c d.dir hs).flatten = (files c d0.dir hs0).flatten ++ ms.flatten := by
  obtain ⟨new, hs, h1, h2, h3, h4, h5⟩ := session_keeps (fun _ => ⟨by simp, fun _ _ => rfl⟩) (delete_each he ha) each_append (fun _ h => by rw [hk] at h; cases h; exact hmax) hb hl hn
    (size_back hk hb hB hnum hn hnr) (size_later hk hb hB hnum hn hnr)
  exact ⟨new, hs, fun e he => ⟨h3 e he, by rw [ownArchive_eq]; exact h1.1 e he⟩, fun m hm => h1.2 m fun e he => by rw [← ownArchive_eq]; exact hm e he, h2, h4, h5⟩

/-- C116 for whole histories of a time-rolling writer, under the conditions of C67. -/
theorem C116_nothing_lost_time {pat : Str} (hk : c.kind = .time pat) {start : Int → Int} {T0 T1 : Int} (hp : Periods lib pat start T0 T1) (he : c.exploded = true) (ha : c.archive ≠ .none)
    {d0 : Disk} {hs0 : List Str} (hb : Backups lib c d0.dir hs0) (hold : ∀ n ∈ hs0, ∀ v, Backup lib c n v → v < start T0)
    {ms : List Bytes} {tr : STrace} {d : Disk} {rw : RW} (hl : Session umask lib c d0 ms tr d rw) (hn : NoneFailed tr)
    (hclock : (clocks tr).Pairwise (· ≤ ·)) (hT : ∀ t ∈ clocks tr, T0 ≤ t ∧ t ≤ T1) :
    ∃ (new : Entries) (hs : List Str), (∀ e ∈ new, (∃ v, Backup lib c e.1 v) ∧ d.arch (ownArchive c e.1) = .file [e]) ∧
      (∀ m, (∀ e ∈ new, m ≠ ownArchive c e.1) → d.arch m = d0.arch m) ∧ Backups lib c d.dir hs ∧
      (new.map Prod.fst ++ hs).Pairwise (fun x y => ∀ v w, Backup lib c x v → Backup lib c y w → v < w) ∧
      (new.map Prod.snd).flatten ++ (files c d.dir hs).flatten = (files c d0.dir hs0).flatten ++ ms.flatten := by
  obtain ⟨new, hs, h1, h2, h3, h4, h5⟩ := session_keeps (fun _ => ⟨by simp, fun _ _ => rfl⟩) (delete_each he ha) each_append (fun _ h => by rw [hk] at h; cases h) hb hl hn
    (time_back hk hp hb hold hn hclock hT) (time_later hk hp hb hold hn hclock hT)
  exact ⟨new, hs, fun e he => ⟨h3 e he, by rw [ownArchive_eq]; exact h1.1 e he⟩, fun m hm => h1.2 m fun e he => by rw [← ownArchive_eq]; exact hm e he, h2, h4, h5⟩

def eachCfg : RCfg := { demoRCfg with archive := .gzip, exploded := true, archivePath := c!"old" }

def eachDisk0 : LDisk := { demoDisk0 with arch := [([], .dir), (c!"log.1.gz", .file [(c!"log.1", [1, 1])])] }

def eachRun4 : SimRun 0o022 demoRLib eachCfg allWell [[2], [3], [4], [5, 5, 5]] eachDisk0 := simRun _ _ _ _ _ _ (by decide +kernel)

def eachWrite5 : SimWrite 0o022 demoRLib eachCfg (allWell 4) [6] eachRun4.rw eachRun4.L' := simWrite _ _ _ _ _ _ _ (by decide +kernel)

/- The fifth write puts log.8 into an archive of its own. -/
example : eachCfg.exploded = true ∧ Life 0o022 demoRLib eachCfg eachDisk0.disk eachRun4.tr eachRun4.L'.disk eachRun4.rw ∧
    Stops 0o022 (eachCfg.write demoRLib eachRun4.rw [6]) eachRun4.L'.disk eachWrite5.tr eachWrite5.L'.disk ∧
    eachRun4.L'.disk.arch (ownArchive eachCfg c!"log.8") = .absent ∧ eachWrite5.L'.disk.arch (ownArchive eachCfg c!"log.8") = .file [(c!"log.8", [1, 2])] :=
  ⟨rfl, eachRun4.life, eachWrite5.runs.stops, by decide +kernel, by decide +kernel⟩

def eachRun5 : SimRun 0o022 demoRLib eachCfg allWell [[2], [3], [4], [5, 5, 5], [6]] eachDisk0 := simRun _ _ _ _ _ _ (by decide +kernel)

example : eachCfg.exploded = true ∧ eachCfg.archive ≠ .none ∧ Backups demoRLib eachCfg eachDisk0.disk.dir [c!"log.7"] ∧
    Session 0o022 demoRLib eachCfg eachDisk0.disk [[2], [3], [4], [5, 5, 5], [6]] eachRun5.tr eachRun5.L'.disk eachRun5.rw ∧ NoneFailed eachRun5.tr ∧ (7 : Int) + rolls eachRun5.tr < 2 ^ 63 ∧
    eachRun5.L'.disk.arch c!"log.7.gz" = .file [(c!"log.7", [9])] ∧ eachRun5.L'.disk.arch c!"log.1.gz" = .file [(c!"log.1", [1, 1])] :=
  ⟨rfl, by decide, backupsB_ok (by decide +kernel), eachRun5.session, noneFailedB_ok (by decide +kernel), by decide +kernel, by decide +kernel, by decide +kernel⟩

def eachTCfg : RCfg := { demoTCfg with archive := .zip, exploded := true, archivePath := c!"old" }

def eachTDisk0 : LDisk := { demoTDisk0 with arch := [([], .dir)] }

def eachTRun : SimRun 0o022 demoRLib eachTCfg demoClock [[2], [3], [4], [5, 5, 5], [6]] eachTDisk0 := simRun _ _ _ _ _ _ (by decide +kernel)

example : Periods demoRLib c!"x" id 1 9 ∧ eachTCfg.exploded = true ∧ eachTCfg.archive ≠ .none ∧ Backups demoRLib eachTCfg eachTDisk0.disk.dir [c!"log.0"] ∧
    (∀ n ∈ [c!"log.0"], ∀ v, Backup demoRLib eachTCfg n v → v < id (1 : Int)) ∧
    Session 0o022 demoRLib eachTCfg eachTDisk0.disk [[2], [3], [4], [5, 5, 5], [6]] eachTRun.tr eachTRun.L'.disk eachTRun.rw ∧ NoneFailed eachTRun.tr ∧
    (clocks eachTRun.tr).Pairwise (· ≤ ·) ∧ (∀ t ∈ clocks eachTRun.tr, 1 ≤ t ∧ t ≤ 9) ∧ eachTRun.L'.disk.arch c!"log.0.zip" = .file [(c!"log.0", [9])] := by
  refine ⟨demo_periods, rfl, by decide, backupsB_ok (by decide +kernel), ?_, eachTRun.session, noneFailedB_ok (by decide +kernel), by decide +kernel, by decide +kernel, by decide +kernel⟩
  intro n hn v hv
  simp only [List.mem_singleton] at hn
  subst hn
  rw [← backup_key hv]
  decide +kernel

end Log4g
