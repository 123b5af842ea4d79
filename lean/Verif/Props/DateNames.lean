import Verif.Lemmas.DateNames
import Verif.Props.GoTime

/-! # C121 — which files time rolling takes for its own -/

namespace Log4g
open Spec Strconv GoTime
open scoped List

variable {lib : RLib} {c : RCfg} {umask : Nat} {z : Zone} {other : RLib} {ps : List DatePiece} {d0 d : Disk} {tr : STrace} {rw : RW} {n : Str}

/-- C121, for any time library.  Whatever is written, fails or dies, with time rolling an entry of the directory other than the log file is not
touched, unless what its name has besides that of the log file can be read by the pattern, or is what the pattern made of a time the clock showed. -/
theorem C121_any_library {pat : Str} (hk : c.kind = .time pat) (hl : Life umask lib c d0 tr d rw) (hcur : n ≠ c.fileName)
    (hread : ∀ tag t, tag ≠ [] → lib.parse pat tag = some t → n ≠ backupName c.mode c.fileName tag)
    (hshown : ∀ t ∈ clocks tr, n ≠ backupName c.mode c.fileName (lib.format t pat)) : d.dir n = d0.dir n := by
  refine life_time_untouched hk hl hcur ?_ hshown
  rintro v ⟨tag, rfl, ht⟩
  rw [hk] at ht
  cases ht with
  | time h1 h2 => exact hread tag _ h1 h2 rfl

/-- C121, what holds for all patterns.  With time rolling an entry of the directory other than the log file is not touched, unless its name has, besides
that of the log file, a date of the calendar in the form of the pattern, hours with one digit, fractions of seconds and other numbers of blanks
included. -/
theorem C121_dates_partial (hp : PlainPattern ps) (hk : c.kind = .time (patternText ps)) (hl : Life umask (library z other) c d0 tr d rw)
    (hT : ∀ t ∈ clocks tr, FourDigitYear z t) (hcur : n ≠ c.fileName)
    (hn : ∀ date tag, ProperDate date → WrittenAs date ps tag → n ≠ backupName c.mode c.fileName tag) : d.dir n = d0.dir n := by
  refine C121_any_library hk hl hcur (fun tag t _ h => ?_) fun t ht => ?_
  · obtain ⟨date, h1, h2⟩ := read_written hp h
    exact hn date tag h1 h2
  · have e : (library z other).format t (patternText ps) = nameAt ps (shown z t) := by
      simp only [library, scan_pattern ps hp.seps]
      exact show_pieces (shown_reads z t).1 (four_year (hT t ht)) ps
    rw [e]
    exact hn _ _ ⟨(shown_reads z t).1, four_year (hT t ht)⟩ (usual_written _ ps)

/-- C121, for patterns without hours, seconds and blanks.  With time rolling an entry of the directory other than the log file is not touched,
unless its name is that of a backup of a day (month, …) of the calendar. -/
theorem C121_days_partial (hp : PlainPattern ps) (hhour : .field .hour ∉ ps) (hsecond : .field .second ∉ ps) (hblank : .sep ' ' ∉ ps) (hk : c.kind = .time (patternText ps))
    (hl : Life umask (library z other) c d0 tr d rw) (hT : ∀ t ∈ clocks tr, FourDigitYear z t) (hcur : n ≠ c.fileName)
    (hn : ∀ date, ProperDate date → n ≠ backupName c.mode c.fileName (nameAt ps date)) : d.dir n = d0.dir n :=
  C121_dates_partial hp hk hl hT hcur fun date tag h1 h2 => by rw [written_usual hhour hsecond hblank h2]; exact hn date h1

/-- C121, the other way round: files whose names are those of backups of periods count as backups. -/
theorem C121_taken {k : Nat} (hp : NamesDownTo ps k) (hk : c.kind = .time (patternText ps)) {date : Civil} (hd : ProperDate date) :
    ∃ v, Backup (library z other) c (backupName c.mode c.fileName (nameAt ps date)) v :=
  ⟨_, _, rfl, by rw [hk]; exact .time (name_nonempty hp date) (library_parse hp hd.1 hd.2)⟩

/-! The pattern of README.md, in a directory with a file named after a date that does not exist. -/

theorem daily_plain : PlainPattern dailyPieces where
  once f := by cases f <;> decide
  seps := daily_names.seps

def datesDisk0 : LDisk := { files := [(c!"log.2020-02-27", .file [9] 0o444), (c!"log.2020-02-30", .file [8] 0o444), (c!"log.2020-2-27", .file [7] 0o444), (c!"log.2020-02-27.gz", .file [6] 0o444)] }
def datesRun : SimRun 0o022 dailyLib dailyCfg dailyClock [[1], [2], [3], [4]] datesDisk0 := simRun _ _ _ _ _ _ (by decide +kernel)

theorem no_february_30 {date : Civil} (hd : ProperDate date) : c!"log.2020-02-30" ≠ backupName dailyCfg.mode dailyCfg.fileName (nameAt dailyPieces date) := by
  intro h
  have h : c!"2020-02-30" = nameAt dailyPieces date := by
    simp only [backupName, dailyCfg, demoRCfg] at h
    exact List.append_cancel_left (as := c!"log.") h
  have := library_parse (z := fixedZone 0) (other := demoRLib) daily_names hd.1 hd.2
  rw [← h] at this
  exact absurd this (by rw [show (library (fixedZone 0) demoRLib).parse (patternText dailyPieces) c!"2020-02-30" = none by decide +kernel]; simp)

example : PlainPattern dailyPieces ∧ dailyCfg.kind = .time (patternText dailyPieces) ∧ Life 0o022 dailyLib dailyCfg datesDisk0.disk datesRun.tr datesRun.L'.disk datesRun.rw ∧
    (∀ t ∈ clocks datesRun.tr, FourDigitYear (fixedZone 28800) t) ∧ (∀ date, ProperDate date → c!"log.2020-02-30" ≠ backupName dailyCfg.mode dailyCfg.fileName (nameAt dailyPieces date)) ∧
    datesRun.L'.files = [(c!"log", .file [4] 0o600), (c!"log.2020-02-29", .file [2, 3] 0o500), (c!"log.2020-02-28", .file [1] 0o500), (c!"log.2020-02-30", .file [8] 0o444),
      (c!"log.2020-2-27", .file [7] 0o444), (c!"log.2020-02-27.gz", .file [6] 0o444)] := by
  refine ⟨daily_plain, rfl, datesRun.life, fun t ht => ?_, fun _ h => no_february_30 h, by decide +kernel⟩
  have hT := (C118_fixed_zone (off := 28800) (k := 2) ⟨_, feb28late_reads, by decide, by decide⟩ ⟨_, mar01_reads, by decide, by decide⟩).2.2 t
  have hc : (clocks datesRun.tr).all (fun t => decide (1582905599000000000 ≤ t ∧ t ≤ 1582992001000000000)) = true := by decide +kernel
  rw [List.all_eq_true] at hc
  have := hc t ht
  simp only [decide_eq_true_eq] at this
  exact hT this.1 this.2

/-! A pattern with hours. -/

def hourlyPieces : List DatePiece := [.field .year, .sep '-', .field .month, .sep '-', .field .day, .sep '-', .field .hour]

theorem hourly_names : NamesDownTo hourlyPieces 3 where
  fields f := by cases f <;> decide
  seps c h := by
    simp only [hourlyPieces, List.mem_cons, reduceCtorEq, false_or, DatePiece.sep.injEq, List.not_mem_nil, or_false, or_self] at h
    subst h
    decide
  stop h := by
    have := h.subset (a := .field .second) (by simp)
    revert this
    decide

def hourlyCfg : RCfg := { demoRCfg with kind := .time c!"2006-01-02-15", maxRolls := 1 }
def hourlyDisk0 : LDisk := { files := [(c!"log.2020-02-28-3", .file [9] 0o444)] }
def hourlyRun : SimRun 0o022 dailyLib hourlyCfg dailyClock [[1], [2]] hourlyDisk0 := simRun _ _ _ _ _ _ (by decide +kernel)

/-- C121 is false for patterns with hours: a file whose name ends in a date with one digit for the hour, which no backup has, is taken for one and removed. -/
theorem C121_hours_refuted : ∃ (c : RCfg) (n : Str) (d0 : Disk) (tr : STrace) (d : Disk) (rw : RW), NamesDownTo hourlyPieces 3 ∧ c.kind = .time (patternText hourlyPieces) ∧
    (∀ date, n ≠ backupName c.mode c.fileName (nameAt hourlyPieces date)) ∧ n ≠ c.fileName ∧
    Session 0o022 (library (fixedZone 28800) demoRLib) c d0 [[1], [2]] tr d rw ∧ NoneFailed tr ∧ (clocks tr).Pairwise (· ≤ ·) ∧
    d0.dir n = some (.file [9] 0o444) ∧ d.dir n = none := by
  refine ⟨hourlyCfg, c!"log.2020-02-28-3", _, hourlyRun.tr, hourlyRun.L'.disk, hourlyRun.rw, hourly_names, rfl, fun date h => ?_, by decide, hourlyRun.session, noneFailedB_ok (by decide +kernel),
    by decide +kernel, rfl, by decide +kernel⟩
  have := congrArg List.length h
  simp [backupName, hourlyCfg, demoRCfg, nameAt, hourlyPieces, DatePiece.at, fourDigits, twoDigits] at this

end Log4g
