import Verif.Lemmas.RollArchive
import Verif.Lemmas.RollDemo
import Verif.Lemmas.RollFresh
import Verif.Props.RollingFaults
import Verif.Props.Rolling

/-! # The archive of backups -/

namespace Log4g
open Spec Strconv

variable {lib : RLib} {c : RCfg} {umask : Nat}

/-- C72 for a write.  With an archive file, wherever a write stops and whatever fails in it, the archive is
as it was, or it was readable and now has behind its old entries all backups that are beyond the configured number after
the roll. -/
theorem C72_archive_atomic (he : c.exploded = false) {d0 d d' : Disk} {tr tr' : STrace} {rw : RW} {bs : Bytes} (hl : Life umask lib c d0 tr d rw)
    (h : Stops umask (c.write lib rw bs) d tr' d') :
    d'.arch = d.arch ∨
    ∃ old new, archived d = some old ∧ Packed lib c d.dir tr' new ∧ ∀ n, d'.arch n = if n = [] then .file (old ++ new) else d.arch n := by
  rcases stops_write (life_name hl) h with h | ⟨hs, b, d2, u, d3, h1, h2, h3⟩
  · exact .inl h
  · rcases stops_delete he h2 with h | h
    · left; rw [h3, h, (rolling_data h1).1]
    · obtain ⟨old, new, o1, o2, o3⟩ := added_packed h1 h
      exact .inr ⟨old, new, o1, o2, fun n => by rw [h3, o3 n]⟩

/-- C72 for whole histories.  Entries are never lost from the archive file, and nothing else is put in its place,
whatever fails and wherever the process dies. -/
theorem C72_archive_grows (he : c.exploded = false) {d0 d : Disk} {tr : STrace} {rw : RW} {es : Entries} (h0 : d0.arch [] = .file es) (hl : Life umask lib c d0 tr d rw) :
    ∃ new, d.arch [] = .file (es ++ new) := by
  induction hl with
  | start => exact ⟨[], by simpa using h0⟩
  | restart _ ih => exact ih
  | write hl hr ih =>
    obtain ⟨new, ih⟩ := ih
    rcases C72_archive_atomic he hl hr.stops with h | ⟨old, new', h1, _, h3⟩
    · exact ⟨new, by rw [h, ih]⟩
    · simp only [archived, ih, Option.some.injEq] at h1
      exact ⟨new ++ new', by rw [h3, if_pos rfl, ← h1, List.append_assoc]⟩
  | crash hl hr ih =>
    obtain ⟨new, ih⟩ := ih
    rcases C72_archive_atomic he hl hr with h | ⟨old, new', h1, _, h3⟩
    · exact ⟨new, by rw [h, ih]⟩
    · simp only [archived, ih, Option.some.injEq] at h1
      exact ⟨new ++ new', by rw [h3, if_pos rfl, ← h1, List.append_assoc]⟩

/-- A writer with an archive file; an archive that has an entry already. -/
def archCfg : RCfg := { demoRCfg with archive := .zip, archivePath := c!"old.zip" }

def archDisk0 : LDisk := { demoDisk0 with arch := [([], .file [(c!"log.1", [1, 1])])] }

def archRun4 : SimRun 0o022 demoRLib archCfg allWell [[2], [3], [4], [5, 5, 5]] archDisk0 := simRun _ _ _ _ _ _ (by decide +kernel)

def archWrite5 : SimWrite 0o022 demoRLib archCfg (allWell 4) [6] archRun4.rw archRun4.L' := simWrite _ _ _ _ _ _ _ (by decide +kernel)

/- The fifth write moves log.8 to the archive, behind what is there. -/
example : archCfg.exploded = false ∧ Life 0o022 demoRLib archCfg archDisk0.disk archRun4.tr archRun4.L'.disk archRun4.rw ∧
    Stops 0o022 (archCfg.write demoRLib archRun4.rw [6]) archRun4.L'.disk archWrite5.tr archWrite5.L'.disk ∧
    archived archRun4.L'.disk = some [(c!"log.1", [1, 1]), (c!"log.7", [9])] ∧
    archived archWrite5.L'.disk = some [(c!"log.1", [1, 1]), (c!"log.7", [9]), (c!"log.8", [1, 2])] :=
  ⟨rfl, archRun4.life, archWrite5.runs.stops, by decide +kernel, by decide +kernel⟩

example : archCfg.exploded = false ∧ archDisk0.disk.arch [] = .file [(c!"log.1", [1, 1])] ∧
    Life 0o022 demoRLib archCfg archDisk0.disk archRun4.tr archRun4.L'.disk archRun4.rw := ⟨rfl, rfl, archRun4.life⟩

/-- What is at the archive path does not change when it is a directory. -/
theorem arch_dir_life (he : c.exploded = false) {d0 d : Disk} {tr : STrace} {rw : RW} (h0 : d0.arch [] = .dir) (hl : Life umask lib c d0 tr d rw) : d.arch = d0.arch := by
  induction hl with
  | start => rfl
  | restart _ ih => exact ih
  | write hl hr ih =>
    rcases C72_archive_atomic he hl hr.stops with h | ⟨old, new', h1, _, h3⟩
    · rw [h, ih]
    · simp [archived, ih, h0] at h1
  | crash hl hr ih =>
    rcases C72_archive_atomic he hl hr with h | ⟨old, new', h1, _, h3⟩
    · rw [h, ih]
    · simp [archived, ih, h0] at h1

/-- A configuration that asks for an archive. -/
def zipCfg : CfgMap := some [(c!"type", c!"size_rolling_file"), (c!"file", c!"logs/log"), (c!"size", c!"2"), (c!"backups", c!"1"), (c!"archive", c!"zip")]

def zipRCfg : RCfg := { fileName := c!"log", kind := .size 2, maxRolls := 1, archive := .zip, dirPath := c!"logs/", archivePath := c!"logs/" }

def zipDisk0 : LDisk := { demoDisk0 with arch := [([], .dir)] }

def zipRun : SimRun 0o022 demoRLib zipRCfg allWell [[2], [3]] zipDisk0 := simRun _ _ _ _ _ _ (by decide +kernel)

/-- Whether `n` was removed. -/
def removedB (n : Str) (tr : STrace) : Bool :=
  tr.any fun x => match x with
    | ⟨.remove m, r⟩ => decide (m = n) && r
    | _ => false

theorem removedB_ok {n : Str} {tr : STrace} (h : removedB n tr = true) : (⟨.remove n, true⟩ : (o : Sys) × o.Resp) ∈ tr := by
  obtain ⟨x, hx, h⟩ := List.any_eq_true.mp h
  split at h
  · simp only [Bool.and_eq_true, decide_eq_true_eq] at h
    obtain ⟨rfl, rfl⟩ := h
    exact hx
  · cases h

/-- C70 fails.  However the output is configured, the path of the archive is the path of the log directory; as a
directory is there, no life of the writer ever changes what is there, so nothing is archived.  Backups are
removed all the same: with archive "zip", `log.7` and its content are gone after two writes, and no call failed but the
reading of the archive. -/
theorem C70_archived_refuted :
    (∀ tc cfg c, newRollingWriter tc cfg = some c → c.archivePath = c.dirPath ∧
      ∀ umask lib d0 tr d rw, d0.arch [] = .dir → Life umask lib c d0 tr d rw → d.arch = d0.arch) ∧
    (∀ tc, newRollingWriter tc zipCfg = some zipRCfg) ∧ zipRCfg.archive = .zip ∧
    ∃ (lib : RLib) (d0 d : Disk) (tr : STrace) (rw : RW), Session 0o022 lib zipRCfg d0 [[2], [3]] tr d rw ∧ d0.arch [] = .dir ∧ (∀ n, n ≠ [] → d0.arch n = .absent) ∧
      dataOf d0.dir c!"log.7" = [9] ∧ d.dir c!"log.7" = none ∧ (⟨.remove c!"log.7", true⟩ : (o : Sys) × o.Resp) ∈ tr ∧ OneFailed tr ∧ d.arch = d0.arch := by
  refine ⟨fun tc cfg c h => ?_, fun tc => ?_, rfl, demoRLib, zipDisk0.disk, zipRun.L'.disk, zipRun.tr, zipRun.rw, zipRun.session, rfl, ?_, by decide +kernel, by decide +kernel, removedB_ok (by decide +kernel), oneFailedB_ok (by decide +kernel), ?_⟩
  · obtain ⟨h1, h2⟩ := newRollingWriter_archive h
    exact ⟨h1, fun umask lib d0 tr d rw h0 hl => arch_dir_life h2 h0 hl⟩
  · cases tc <;> decide +kernel
  · intro n hn
    simp [zipDisk0, LDisk.disk, Map.get, hn]
  · exact arch_dir_life (c := zipRCfg) rfl rfl zipRun.life

/-- C70, what holds, for a write.  With an archive file (which no configuration gives), in a write in which nothing fails,
every backup that is removed has its content from before in the archive afterwards; the log file renamed in this
write counts under its new name. -/
theorem C70_archived_partial (he : c.exploded = false) (ha : c.archive ≠ .none) {d0 d d' : Disk} {tr tr' : STrace} {rw rw' : RW} {bs : Bytes} {res : Nat × Bool}
    (hl : Life umask lib c d0 tr d rw) (h : Runs umask (c.write lib rw bs) d tr' (res, rw') d') (hn : NoneFailed tr') {n : Str} (hm : (⟨.remove n, true⟩ : (o : Sys) × o.Resp) ∈ tr') :
    ∃ es b, d'.arch [] = .file es ∧ (⟨.rename c.fileName b, true⟩ : (o : Sys) × o.Resp) ∈ tr' ∧ (n, dataOf d.dir (if n = b then c.fileName else n)) ∈ es := by
  rcases write_cases (life_name hl) h with ⟨h1, _⟩ | ⟨t0, rw1, names, t1, rw2, d2, t2, hneed, hf, hname, hrd, hro, hf2, hap, htr⟩
  · exact absurd hm (write_noremove h h1 n true)
  · obtain ⟨tag, t5, hk, h5⟩ := runs_rollOver hro
    rcases h5 with ⟨h5, _⟩ | ⟨_, d3, r, d4, t6, hr1, hr2, hte, h5⟩
    · cases h5
    · subst hte
      have hname' : ({ rw1 with file := none } : RW).name = c.fileName := hname
      rw [hname'] at hr1 htr
      have hroll : Rolling umask lib c d tr' (c.historyOf lib names) (backupName c.mode c.fileName tag) d4 :=
        ⟨d3, r, hr1, hr2, by rw [htr]; simp, history_ascending hrd, tag, rfl⟩
      have hm5 : (⟨.remove n, true⟩ : (o : Sys) × o.Resp) ∉ t5 := by
        rcases hk with ⟨_, _, rfl, _⟩ | ⟨_, _, _, rfl, _⟩ <;> simp
      have hm0 : (⟨.remove n, true⟩ : (o : Sys) × o.Resp) ∉ t0 := fun hx => by
        have e := Prog.All.runs (all_needsToRoll lib c rw) hneed _ hx; cases e
      have hm6 : (⟨.remove n, true⟩ : (o : Sys) × o.Resp) ∈ t6 := by
        rw [htr] at hm
        simpa [hm5, hm0, append_noremove hap n true] using hm
      rcases h5 with ⟨_, hdel⟩ | ⟨_, rfl, _⟩
      · rcases runs_delete_archives he ha hdel (fun x hx => hn x (by rw [htr]; simp [hx])) with hno | ⟨had, hmem⟩
        · exact absurd rfl (hno _ hm6 n)
        · obtain ⟨old, new, o1, ⟨o2, o3⟩, o4⟩ := had
          have hmt := (hmem n).mp ⟨true, hm6⟩
          have hne : n ≠ c.fileName := by
            rcases List.mem_append.mp (List.mem_of_mem_take hmt) with hx | hx
            · obtain ⟨v, hv⟩ := mem_historyOf hx
              intro e; rw [e] at hv; exact current_not_backup lib c v hv
            · simp only [List.mem_singleton] at hx
              rw [hx]
              intro e
              have := hasRollName_backup c tag
              rw [e, hasRollName_current] at this; cases this
          rw [← o2] at hmt
          obtain ⟨⟨n', data⟩, hin, rfl⟩ := List.mem_map.mp hmt
          obtain ⟨p, hp⟩ := o3 _ hin
          refine ⟨old ++ new, backupName c.mode c.fileName tag, ?_, by rw [htr]; simp, List.mem_append_right _ ?_⟩
          · rw [noArch_stops (noArch_append c rw2 bs) hap.stops, o4]; simp
          · have hdat := (rolling_data hroll).2 n' hne
            rw [dataOf_file hp] at hdat
            simp only at hdat ⊢
            split <;> rename_i hb
            · rw [if_pos hb] at hdat; rw [← hdat]; exact hin
            · rw [if_neg hb] at hdat; rw [← hdat]; exact hin
      · simp at hm6

example : archCfg.exploded = false ∧ archCfg.archive ≠ .none ∧ Life 0o022 demoRLib archCfg archDisk0.disk archRun4.tr archRun4.L'.disk archRun4.rw ∧
    Runs 0o022 (archCfg.write demoRLib archRun4.rw [6]) archRun4.L'.disk archWrite5.tr (archWrite5.res, archWrite5.rw') archWrite5.L'.disk ∧ NoneFailed archWrite5.tr ∧
    (⟨.remove c!"log.8", true⟩ : (o : Sys) × o.Resp) ∈ archWrite5.tr :=
  ⟨rfl, by decide, archRun4.life, archWrite5.runs, noneFailedB_ok (by decide +kernel), removedB_ok (by decide +kernel)⟩

/-- C70, what holds, for whole histories.  With an archive file, as long as nothing fails, nothing is ever lost: the
contents added to the archive, of the backups and of the log file are together what was there before and what has
been written since, in this order. -/
theorem C70_nothing_lost_partial {max : Int} (hk : c.kind = .size max) (hmax : 0 < max) (he : c.exploded = false) (ha : c.archive ≠ .none) {d0 : Disk} {hs0 : List Str}
    (hb : Backups lib c d0.dir hs0) {B : Int} (hB : 0 ≤ B) (hnum : ∀ n ∈ hs0, ∀ v, Backup lib c n v → v ≤ B) {old : Entries} (ho : archived d0 = some old)
    {ms : List Bytes} {tr : STrace} {d : Disk} {rw : RW} (hl : Session umask lib c d0 ms tr d rw) (hn : NoneFailed tr) (hnr : B + rolls tr < 2 ^ 63) :
    ∃ new hs, archived d = some (old ++ new) ∧ Backups lib c d.dir hs ∧
      (new.map Prod.snd).flatten ++ (files c d.dir hs).flatten = (files c d0.dir hs0).flatten ++ ms.flatten := by
  obtain ⟨new, hs, h1, h2, _, _, h3⟩ := session_keeps atEnd_nil (delete_effect he ha) atEnd_append (fun _ h => by rw [hk] at h; cases h; exact hmax) hb hl hn
    (size_back hk hb hB hnum hn hnr) (size_later hk hb hB hnum hn hnr)
  exact ⟨new, hs, h1 d0 d rfl rfl old ho, h2, h3⟩

def archRun5 : SimRun 0o022 demoRLib archCfg allWell [[2], [3], [4], [5, 5, 5], [6]] archDisk0 := simRun _ _ _ _ _ _ (by decide +kernel)

example : archCfg.exploded = false ∧ archCfg.archive ≠ .none ∧ Backups demoRLib archCfg archDisk0.disk.dir [c!"log.7"] ∧ archived archDisk0.disk = some [(c!"log.1", [1, 1])] ∧
    Session 0o022 demoRLib archCfg archDisk0.disk [[2], [3], [4], [5, 5, 5], [6]] archRun5.tr archRun5.L'.disk archRun5.rw ∧ NoneFailed archRun5.tr ∧ (7 : Int) + rolls archRun5.tr < 2 ^ 63 :=
  ⟨rfl, by decide, backupsB_ok (by decide +kernel), rfl, archRun5.session, noneFailedB_ok (by decide +kernel), by decide +kernel⟩

/-- C70, what holds, for whole histories of a time-rolling writer, under the conditions of C67. -/
theorem C70_nothing_lost_time_partial {pat : Str} (hk : c.kind = .time pat) {start : Int → Int} {T0 T1 : Int} (hp : Periods lib pat start T0 T1) (he : c.exploded = false) (ha : c.archive ≠ .none)
    {d0 : Disk} {hs0 : List Str} (hb : Backups lib c d0.dir hs0) (hold : ∀ n ∈ hs0, ∀ v, Backup lib c n v → v < start T0) {old : Entries} (ho : archived d0 = some old)
    {ms : List Bytes} {tr : STrace} {d : Disk} {rw : RW} (hl : Session umask lib c d0 ms tr d rw) (hn : NoneFailed tr)
    (hclock : (clocks tr).Pairwise (· ≤ ·)) (hT : ∀ t ∈ clocks tr, T0 ≤ t ∧ t ≤ T1) :
    ∃ new hs, archived d = some (old ++ new) ∧ Backups lib c d.dir hs ∧
      (new.map Prod.snd).flatten ++ (files c d.dir hs).flatten = (files c d0.dir hs0).flatten ++ ms.flatten := by
  obtain ⟨new, hs, h1, h2, _, _, h3⟩ := session_keeps atEnd_nil (delete_effect he ha) atEnd_append (fun _ h => by rw [hk] at h; cases h) hb hl hn
    (time_back hk hp hb hold hn hclock hT) (time_later hk hp hb hold hn hclock hT)
  exact ⟨new, hs, h1 d0 d rfl rfl old ho, h2, h3⟩

def archTCfg : RCfg := { demoTCfg with archive := .gzip, archivePath := c!"old.tar.gz" }

def archTDisk0 : LDisk := { demoTDisk0 with arch := [([], .file [(c!"log.x", [7])])] }

def archTRun : SimRun 0o022 demoRLib archTCfg demoClock [[2], [3], [4], [5, 5, 5], [6]] archTDisk0 := simRun _ _ _ _ _ _ (by decide +kernel)

/- The backup log.0 has gone to the archive. -/
example : Periods demoRLib c!"x" id 1 9 ∧ archTCfg.exploded = false ∧ archTCfg.archive ≠ .none ∧ Backups demoRLib archTCfg archTDisk0.disk.dir [c!"log.0"] ∧
    (∀ n ∈ [c!"log.0"], ∀ v, Backup demoRLib archTCfg n v → v < id (1 : Int)) ∧ archived archTDisk0.disk = some [(c!"log.x", [7])] ∧
    Session 0o022 demoRLib archTCfg archTDisk0.disk [[2], [3], [4], [5, 5, 5], [6]] archTRun.tr archTRun.L'.disk archTRun.rw ∧ NoneFailed archTRun.tr ∧
    (clocks archTRun.tr).Pairwise (· ≤ ·) ∧ (∀ t ∈ clocks archTRun.tr, 1 ≤ t ∧ t ≤ 9) ∧ archived archTRun.L'.disk = some [(c!"log.x", [7]), (c!"log.0", [9])] := by
  refine ⟨demo_periods, rfl, by decide, backupsB_ok (by decide +kernel), ?_, rfl, archTRun.session, noneFailedB_ok (by decide +kernel), by decide +kernel, by decide +kernel, by decide +kernel⟩
  intro n hn v hv
  simp only [List.mem_singleton] at hn
  subst hn
  rw [← backup_key hv]
  decide +kernel

end Log4g
