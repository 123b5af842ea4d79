import Verif.Props.Lingering
import Verif.Props.RollingWrites
import Verif.Lemmas.GoTime

/-! # Time rolling by the calendar -/

namespace Log4g
open Spec Strconv GoTime
open scoped List

variable {c : RCfg} {umask : Nat} {z : Zone} {off : Int} {other : RLib} {ps : List DatePiece} {k : Nat}

/-- C118, what holds: names.  In any time zone the name of a period shows the fields of the pattern, and two instants have the same name
just if the calendar shows the same year (month, …) at both. -/
theorem C118_names_partial (hp : NamesDownTo ps k) {s t : Int} (hs : FourDigitYear z s) (ht : FourDigitYear z t) {c c' b b' : Civil} (hc : Reads z s c) (hc' : Reads z t c')
    (hb : BeginningOf k c b) (hb' : BeginningOf k c' b') :
    (library z other).format s (patternText ps) = nameAt ps c ∧
    ((library z other).format s (patternText ps) = (library z other).format t (patternText ps) ↔ b = b') := by
  have e := library_format (other := other) hp hs
  have e' := library_format (other := other) hp ht
  rw [← reads_shown hc] at e
  rw [← reads_shown hc'] at e'
  have y := four_year hs
  have y' := four_year ht
  rw [← reads_shown hc] at y
  rw [← reads_shown hc'] at y'
  rw [e, e', beginningOf_eq hb, beginningOf_eq hb']
  refine ⟨rfl, fun h => name_beginning hp hc.1 y hc'.1 y' h, fun h => ?_⟩
  rw [← nameAt_beginning (fun f h => (hp.fields f).mp h) c, h, nameAt_beginning (fun f h => (hp.fields f).mp h)]

/-- C118, what holds: times.  Where the clock is always the same time ahead of UTC, the name of a period is read as the instant at which
the calendar and the clock showed the beginning of the year, month, … or second. -/
theorem C118_start_partial (hp : NamesDownTo ps k) {t : Int} (ht : FourDigitYear (fixedZone off) t) {c b : Civil} (hc : Reads (fixedZone off) t c) (hb : BeginningOf k c b) :
    ∃ S, (library (fixedZone off) other).parse (patternText ps) ((library (fixedZone off) other).format t (patternText ps)) = some S ∧
      Reads (fixedZone off) S b ∧ S % 1000000000 = 0 ∧ S ≤ t := by
  rw [reads_shown hc] at hb
  rw [beginningOf_eq hb, library_format hp ht, library_parse hp (shown_reads _ t).1 (four_year ht)]
  refine ⟨_, rfl, period_reads off k t, ?_⟩
  have h := beginning_le (k := k) (shown_reads (fixedZone off) t).1
  have h1 := fixed_start off k t
  have h2 := (shown_reads (fixedZone off) t).2
  have : dayNumber 1970 1 1 * 86400 = unixToInternal := rfl
  simp only [offsetAt, fixedZone] at h2
  unfold periodStart at h1
  rw [h1]
  simp only [fixedZone] at *
  omega

/-- C118, what holds: the log.  In a time zone whose clocks are not put back into a period that is over, if all backups there at first were
made in periods before the first one, the backups and the log file are a gap-free final part of the log. -/
theorem C118_gap_free_partial (hp : NamesDownTo ps k) (hk : c.kind = .time (patternText ps)) (hz : SmallChanges z k) {T0 T1 : Int} (hback : NeverBack z k T0 T1)
    (hT : ∀ t, T0 ≤ t → t ≤ T1 → FourDigitYear z t) {c0 b0 : Civil} (hc0 : Reads z T0 c0) (hb0 : BeginningOf k c0 b0) {d0 : Disk} {hs0 : List Str}
    (hb : Backups (library z other) c d0.dir hs0) (hold : ∀ n ∈ hs0, FromBefore c ps k b0 n) {tr : STrace} {d : Disk} {rw : RW}
    (hl : Life umask (library z other) c d0 tr d rw) (hclock : (clocks tr).Pairwise (· ≤ ·)) (ht : ∀ t ∈ clocks tr, T0 ≤ t ∧ t ≤ T1) :
    Trailing (library z other) c (files c d0.dir hs0) tr d.dir ∧
    (RemovesOk tr → GapFree (library z other) c (files c d0.dir hs0) tr d.dir) := by
  have hP : Periods (library z other) (patternText ps) (periodStart z k) T0 T1 := calendar_periods hp hz hback hT
  have hold : ∀ n ∈ hs0, ∀ v, Backup (library z other) c n v → v < periodStart z k T0 := by
    intro n hn v hv
    obtain ⟨c', b', he, hy, hy', hname, hb', hlt⟩ := hold n hn
    rw [beginningOf_eq hb', beginningOf_eq hb0] at hlt
    have hv' : Backup (library z other) c n (z.date (beginning k c') 0) :=
      ⟨_, hname, by rw [hk]; exact .time (name_nonempty hp c') (library_parse hp he ⟨hy, hy'⟩)⟩
    rw [backup_unique hv hv']
    rw [reads_shown hc0] at hlt
    exact date_lt hz he (shown_reads z T0).1 hlt
  exact ⟨C112_time hk hP hb hold hl hclock ht, fun hrm => C67_time_rolling_gap_free_partial hk hP hb hold hl hrm hclock ht⟩

/-- Where the offset never changes, all patterns meet the conditions. -/
theorem C118_fixed_zone {T0 T1 : Int} (h0 : FourDigitYear (fixedZone off) T0) (h1 : FourDigitYear (fixedZone off) T1) :
    SmallChanges (fixedZone off) k ∧ NeverBack (fixedZone off) k T0 T1 ∧ ∀ t, T0 ≤ t → t ≤ T1 → FourDigitYear (fixedZone off) t :=
  ⟨fixed_changes off k, fixed_never off k T0 T1, fun _ a b => fixed_four h0 h1 a b⟩

theorem natDigits_nonempty (n : Nat) : natDigits n ≠ [] := by
  rw [natDigits]
  split <;> simp

theorem library_nonempty (hp : NamesDownTo ps k) (t : Int) : (library z other).format t (patternText ps) ≠ [] := by
  simp only [library, scan_pattern ps hp.seps]
  intro h
  rw [List.flatMap_eq_nil_iff] at h
  have h := h .year (List.mem_map.mpr ⟨_, (hp.fields .year).mpr (Nat.zero_le _), rfl⟩)
  simp only [Elem.show, pad, List.append_eq_nil_iff] at h
  exact natDigits_nonempty _ h.2

theorem stampedFrom_clocks {l : Option Int} {tr : STrace} {x : Option Int × Bytes} (h : x ∈ stampedFrom l tr) {s : Int} (e : x.1 = some s) : l = some s ∨ s ∈ clocks tr := by
  induction tr generalizing l with
  | nil => simp [stampedFrom] at h
  | cons y tr ih =>
    obtain ⟨o, r⟩ := y
    cases o with
    | now =>
      simp only [stampedFrom] at h
      rcases ih h with h | h
      · right; simp only [clocks]; cases h; simp
      · right; simp only [clocks]; exact List.mem_cons_of_mem _ h
    | write n bs =>
      simp only [stampedFrom] at h
      rcases List.mem_cons.mp h with h | h
      · left; rw [h] at e; exact e
      · exact ih h
    | _ => exact ih h

/-- C118, what holds: the files.  In any time zone a backup made in a run of the program, unless it is empty, has the name of one year (month, …), and
all that is in it was written in that year (month, …): after the last look at the clock, which showed it. -/
theorem C118_one_period_partial (hp : NamesDownTo ps k) (hk : c.kind = .time (patternText ps)) {d0 d : Disk} {ms : List Bytes} {tr : STrace} {rw : RW}
    (h : Session umask (library z other) c d0 ms tr d rw) (hcur : ∀ data p, d0.dir c.fileName = some (.file data p) → data = [])
    (hren : RenamesOk tr) (hT : ∀ t ∈ clocks tr, FourDigitYear z t) {n : Str} {data : Bytes} {p : Nat} (hn : n ≠ c.fileName)
    (hd : d.dir n = some (.file data p)) (hnew : d.dir n ≠ d0.dir n) (hne : data ≠ []) :
    ∃ b cs, n = backupName c.mode c.fileName (nameAt ps b) ∧ cs <:+: stamped tr ∧ (cs.map Prod.snd).flatten = data ∧
      ∀ x ∈ cs, ∃ s c', x.1 = some s ∧ Reads z s c' ∧ BeginningOf k c' b := by
  obtain ⟨t, e1, cs, e2, e3, e4⟩ := C68_backup_period_partial hk (library_nonempty hp) h hcur hren hn hd hnew
  have hin : ∀ x ∈ cs, ∀ s, x.1 = some s → FourDigitYear z s := by
    intro x hx s e
    rcases stampedFrom_clocks (l := none) (e2.subset hx) e with h | h
    · cases h
    · exact hT s h
  cases cs with
  | nil => exact absurd e3.symm (by simpa using hne)
  | cons x0 cs =>
    obtain ⟨s0, f0, g0⟩ := e4 x0 (by simp)
    have y0 := hin x0 (by simp) s0 f0
    refine ⟨beginning k (shown z s0), x0 :: cs, ?_, e2, e3, ?_⟩
    · rw [e1, ← g0, library_format hp y0, nameAt_beginning fun f h => (hp.fields f).mp h]
    · intro x hx
      obtain ⟨s, f, g⟩ := e4 x hx
      have y := hin x hx s f
      refine ⟨s, shown z s, f, shown_reads z s, ?_⟩
      rw [← g0, library_format hp y, library_format hp y0] at g
      rw [← name_beginning hp (shown_reads z s).1 (four_year y) (shown_reads z s0).1 (four_year y0) g]
      exact beginning_of _ _

/-! A program in Shanghai (eight hours ahead of UTC) with the pattern of README.md, around midnight. -/

def dailyPieces : List DatePiece := [.field .year, .sep '-', .field .month, .sep '-', .field .day]

theorem daily_names : NamesDownTo dailyPieces 2 where
  fields f := by cases f <;> decide
  seps c h := by
    simp only [dailyPieces, List.mem_cons, reduceCtorEq, false_or, DatePiece.sep.injEq, List.not_mem_nil, or_false, or_self] at h
    subst h
    decide
  stop h := by
    have := h.subset (show DatePiece.field .second ∈ _ by simp)
    revert this
    decide

def dailyLib : RLib := library (fixedZone 28800) demoRLib
def dailyCfg : RCfg := { demoRCfg with kind := .time c!"2006-01-02" }
/-- The instants of 2020-02-28 23:59:59, 2020-02-29 00:00:00, 2020-02-29 23:59:59, 2020-03-01 00:00:01. -/
def dailyClock : Nat → Nat → Bool × Int := fun j _ => (false, if j = 0 then 1582905599000000000 else if j = 1 then 1582905600000000000 else if j = 2 then 1582991999999999999 else 1582992001000000000)
def dailyDisk0 : LDisk := { files := [(c!"log.2020-02-27", .file [9] 0o444)] }
def dailyRun : SimRun 0o022 dailyLib dailyCfg dailyClock [[1], [2], [3], [4]] dailyDisk0 := simRun _ _ _ _ _ _ (by decide +kernel)

def feb27 : Civil := { year := 2020, month := 2, day := 27, hour := 0, minute := 0, second := 0 }
def feb28 : Civil := { year := 2020, month := 2, day := 28, hour := 0, minute := 0, second := 0 }
def feb28late : Civil := { year := 2020, month := 2, day := 28, hour := 23, minute := 59, second := 59 }
def mar01 : Civil := { year := 2020, month := 3, day := 1, hour := 0, minute := 0, second := 1 }

theorem feb28late_reads : Reads (fixedZone 28800) 1582905599000000000 feb28late :=
  ⟨⟨by decide, by decide, by decide, ⟨29, rfl, by decide⟩, by decide, by decide, by decide⟩, by decide +kernel⟩

theorem mar01_reads : Reads (fixedZone 28800) 1582992001000000000 mar01 :=
  ⟨⟨by decide, by decide, by decide, ⟨31, rfl, by decide⟩, by decide, by decide, by decide⟩, by decide +kernel⟩

example : patternText dailyPieces = c!"2006-01-02" ∧ Session 0o022 dailyLib dailyCfg dailyDisk0.disk [[1], [2], [3], [4]] dailyRun.tr dailyRun.L'.disk dailyRun.rw ∧
    (clocks dailyRun.tr).Pairwise (· ≤ ·) ∧ RenamesOk dailyRun.tr ∧ RemovesOk dailyRun.tr ∧ Backups dailyLib dailyCfg dailyDisk0.disk.dir [c!"log.2020-02-27"] ∧
    FromBefore dailyCfg dailyPieces 2 feb28 c!"log.2020-02-27" ∧
    dailyRun.L'.files = [(c!"log", .file [4] 0o600), (c!"log.2020-02-29", .file [2, 3] 0o500), (c!"log.2020-02-28", .file [1] 0o500)] ∧
    FourDigitYear (fixedZone 28800) 1582905599000000000 ∧ FourDigitYear (fixedZone 28800) 1582992001000000000 ∧ BeginningOf 2 feb28late feb28 :=
  ⟨rfl, dailyRun.session, by decide +kernel, renamesOkB_ok (by decide +kernel), removesOkB_ok (by decide +kernel), backupsB_ok (by decide +kernel),
    ⟨feb27, feb27, ⟨by decide, by decide, by decide, ⟨29, rfl, by decide⟩, by decide, by decide, by decide⟩, by decide, by decide, by decide +kernel, ⟨rfl, rfl, rfl, rfl, rfl, rfl⟩, by decide +kernel⟩,
    by decide +kernel, ⟨_, feb28late_reads, by decide, by decide⟩, ⟨_, mar01_reads, by decide, by decide⟩, ⟨rfl, rfl, rfl, rfl, rfl, rfl⟩⟩

/-! The end of summer time in central Europe on 25 October 2020: at three the clocks were put back to two. -/

/-- Two hours ahead of UTC until 01:00 UTC, one hour ahead from then on. -/
def cetZone : Zone := { lookup := fun sec => if sec < 1603587600 then (7200, -2 ^ 63, 1603587600) else (3600, 1603587600, 2 ^ 63 - 1) }

theorem cet_changes : SmallChanges cetZone 2 := by
  intro u v
  show (cetZone.lookup u).1 - (cetZone.lookup v).1 < 86400
  simp only [cetZone]
  split <;> split <;> simp

/-- The clocks are put back after midnight, so the date does not go back. -/
theorem cet_never (T0 T1 : Int) : NeverBack cetZone 2 T0 T1 := by
  refine neverBack_of fun s t _ h _ => ?_
  rw [days_whole _ (shown_reads cetZone s).1, days_whole _ (shown_reads cetZone t).1, (shown_reads cetZone s).2, (shown_reads cetZone t).2]
  have hst : s / 1000000000 ≤ t / 1000000000 := Int.ediv_le_ediv (by decide) h
  have : dayNumber 1970 1 1 * 86400 = 62135596800 := rfl
  rw [this]
  simp only [offsetAt, cetZone]
  generalize s / 1000000000 = a at *
  generalize t / 1000000000 = b at *
  by_cases ha : a < 1603587600
  · rw [if_pos ha]
    by_cases hb : b < 1603587600
    · rw [if_pos hb]; simp only; omega
    · rw [if_neg hb]; simp only; omega
  · rw [if_neg ha, if_neg (by omega)]; simp only; omega

def minutely : List DatePiece := [.field .year, .sep '-', .field .month, .sep '-', .field .day, .sep '-', .field .hour, .sep '-', .field .minute]

theorem minutely_names : NamesDownTo minutely 4 where
  fields f := by cases f <;> decide
  seps c h := by
    simp only [minutely, List.mem_cons, reduceCtorEq, false_or, DatePiece.sep.injEq, List.not_mem_nil, or_false, or_self] at h
    subst h
    decide
  stop h := by
    have := h.subset (show DatePiece.field .second ∈ _ by simp)
    revert this
    decide

def cetLib : RLib := library cetZone demoRLib
def cetCfg : RCfg := { demoRCfg with kind := .time c!"2006-01-02-15-04", maxRolls := 5 }
/-- 00:30, 00:31, 01:30 and 01:31 UTC. -/
def cetClock : Nat → Nat → Bool × Int := fun j _ => (false, if j = 0 then 1603585800000000000 else if j = 1 then 1603585860000000000 else if j = 2 then 1603589400000000000 else 1603589460000000000)
def cetRun : SimRun 0o022 cetLib cetCfg cetClock [[1], [2], [3], [4]] { files := [] } := simRun _ _ _ _ _ _ (by decide +kernel)

theorem cetRun_files : cetRun.L'.files = [(c!"log", .file [4] 0o600), (c!"log.2020-10-25-02-30", .file [3] 0o500), (c!"log.2020-10-25-02-31", .file [2] 0o500)] := by decide +kernel

/-- A log of which a part is not in the files, though fewer backups than configured are there. -/
theorem not_gapFree_missing {lib : RLib} {c : RCfg} {L : LDisk} {tr : STrace} {names : List Str} {x : UInt8} (hx : x ∈ (chunks tr).flatten)
    (hfiles : ∀ e ∈ L.files, ∀ data p, e.2 = .file data p → x ∉ data) (hnames : L.files.map Prod.fst = names) (hlen : (names.length : Int) < c.maxRolls) :
    ¬ GapFree lib c [] tr L.disk.dir := by
  rintro ⟨hs, dropped, groups, hb, h1, h2, h3⟩
  have key : ∀ n data p, L.disk.dir n = some (.file data p) → x ∉ data := fun n data p e =>
    hfiles _ (Map.mem_of_get (k := n) (v := Node.file data p) (m := L.files) e) data p rfl
  have hsub : ∀ n ∈ hs, n ∈ names := by
    intro n hn
    obtain ⟨_, data, p, e⟩ := (hb.all n).mp hn
    rw [← hnames]
    exact List.mem_map_of_mem (f := Prod.fst) (Map.mem_of_get (k := n) (v := Node.file data p) (m := L.files) e)
  have hnd : hs.Nodup := hb.order.imp_of_mem fun {a b} ha _ hab e => by
    obtain ⟨⟨v, hv⟩, _⟩ := (hb.all a).mp ha
    have := hab v v hv (e ▸ hv)
    omega
  have hlen' : hs.length ≤ names.length := hnd.length_le_of_subset hsub
  have hd : dropped = [] := by
    rcases h3 with h3 | h3
    · exact h3
    · omega
  subst hd
  have hone : x ∈ (groups.map List.flatten).flatten := by
    rw [← List.flatten_flatten, h1]
    exact hx
  rw [h2, List.nil_append] at hone
  obtain ⟨b, hb1, hb2⟩ := List.mem_flatten.mp hone
  simp only [files, List.mem_append, List.mem_map] at hb1
  rcases hb1 with ⟨n, _, rfl⟩ | hb1
  · unfold dataOf at hb2
    split at hb2
    · rename_i e; exact key _ _ _ e hb2
    · cases hb2
  · unfold current at hb1
    split at hb1
    · rename_i e
      simp only [List.mem_singleton] at hb1
      exact key _ _ _ e (hb1 ▸ hb2)
    · cases hb1

/-- With the pattern of README.md the night of the clock change is like any other. -/
def cetDailyRun : SimRun 0o022 cetLib dailyCfg cetClock [[1], [2], [3], [4]] { files := [(c!"log.2020-10-24", .file [9] 0o444)] } := simRun _ _ _ _ _ _ (by decide +kernel)

example : SmallChanges cetZone 2 ∧ (∀ T0 T1, NeverBack cetZone 2 T0 T1) ∧ (clocks cetDailyRun.tr).Pairwise (· ≤ ·) ∧
    cetDailyRun.L'.files = [(c!"log", .file [1, 2, 3, 4] 0o600), (c!"log.2020-10-24", .file [9] 0o444)] :=
  ⟨cet_changes, cet_never, by decide +kernel, by decide +kernel⟩

/-- C118 is false where clocks are put back at the end of summer time: with a pattern down to the minute the names of periods come back
an hour later, and the roll overwrites the backup of the same name.  The system clock never goes back, nothing fails and there are fewer
backups than configured, and yet a message is gone. -/
theorem C118_summer_time_refuted : ∃ (c : RCfg) (d0 : Disk) (tr : STrace) (d : Disk) (rw : RW), NamesDownTo minutely 4 ∧ c.kind = .time (patternText minutely) ∧ (∀ n, d0.dir n = none) ∧
    Session 0o022 (library cetZone demoRLib) c d0 [[1], [2], [3], [4]] tr d rw ∧ NoneFailed tr ∧ (clocks tr).Pairwise (· ≤ ·) ∧
    ¬ GapFree (library cetZone demoRLib) c (files c d0.dir []) tr d.dir := by
  refine ⟨cetCfg, _, cetRun.tr, cetRun.L'.disk, cetRun.rw, minutely_names, rfl, fun _ => rfl, cetRun.session, noneFailedB_ok (by decide +kernel), by decide +kernel, ?_⟩
  refine not_gapFree_missing (x := 1) (names := [c!"log", c!"log.2020-10-25-02-30", c!"log.2020-10-25-02-31"]) (by decide +kernel) ?_ (by decide +kernel) (by decide)
  rw [cetRun_files]
  intro e he data p hp
  simp only [List.mem_cons, List.not_mem_nil, or_false] at he
  rcases he with rfl | rfl | rfl <;> cases hp <;> decide

/-! A pattern without the year, over New Year. -/

def yearlessLib : RLib := library (fixedZone 0) demoRLib
def yearlessCfg : RCfg := { demoRCfg with kind := .time c!"01-02", maxRolls := 2 }
/-- Noon of 30 and 31 December 2020 and of 1, 2 and 3 January 2021. -/
def yearlessClock : Nat → Nat → Bool × Int := fun j _ => (false, 1609329600000000000 + j * 86400000000000)
def yearlessRun : SimRun 0o022 yearlessLib yearlessCfg yearlessClock [[1], [2], [3], [4], [5]] { files := [] } := simRun _ _ _ _ _ _ (by decide +kernel)

theorem yearlessRun_files : yearlessRun.L'.files = [(c!"log", .file [5] 0o600), (c!"log.01-02", .file [4] 0o500), (c!"log.12-31", .file [2] 0o500)] := by decide +kernel

/-- C118 is false for patterns without the year: in January the backups of December pass for newer ones than those of January, which are
removed first. -/
theorem C118_no_year_refuted : ∃ (c : RCfg) (d0 : Disk) (tr : STrace) (d : Disk) (rw : RW), c.kind = .time c!"01-02" ∧ (∀ n, d0.dir n = none) ∧
    Session 0o022 (library (fixedZone 0) demoRLib) c d0 [[1], [2], [3], [4], [5]] tr d rw ∧ NoneFailed tr ∧ (clocks tr).Pairwise (· ≤ ·) ∧
    ¬ GapFree (library (fixedZone 0) demoRLib) c (files c d0.dir []) tr d.dir := by
  refine ⟨yearlessCfg, _, yearlessRun.tr, yearlessRun.L'.disk, yearlessRun.rw, rfl, fun _ => rfl, yearlessRun.session, noneFailedB_ok (by decide +kernel), by decide +kernel, ?_⟩
  rintro ⟨hs, dropped, groups, hb, h1, h2, h3⟩
  have hget : ∀ n data p, yearlessRun.L'.disk.dir n = some (.file data p) →
      (n, Node.file data p) ∈ [(c!"log", Node.file [5] 0o600), (c!"log.01-02", .file [4] 0o500), (c!"log.12-31", .file [2] 0o500)] := by
    intro n data p e
    have := Map.mem_of_get (k := n) (v := Node.file data p) (m := yearlessRun.L'.files) e
    rwa [yearlessRun_files] at this
  have hch : chunks yearlessRun.tr = [[1], [2], [3], [4], [5]] := by decide +kernel
  have hall : dropped.flatten ++ (files yearlessCfg yearlessRun.L'.disk.dir hs).flatten = [1, 2, 3, 4, 5] := by
    rw [← List.flatten_append, ← h2, ← List.flatten_flatten, h1, hch]
    rfl
  have hmem : c!"log.12-31" ∈ hs := (hb.all _).mpr ⟨⟨_, c!"12-31", rfl, .time (by decide) rfl⟩, [2], 0o500, by decide +kernel⟩
  have h2in : (2 : UInt8) ∈ (files yearlessCfg yearlessRun.L'.disk.dir hs).flatten := by
    refine List.mem_flatten.mpr ⟨[2], ?_, by simp⟩
    simp only [files, List.mem_append, List.mem_map]
    exact .inl ⟨_, hmem, by decide +kernel⟩
  have h3out : (3 : UInt8) ∉ (files yearlessCfg yearlessRun.L'.disk.dir hs).flatten := by
    intro h
    obtain ⟨b, hb1, hb2⟩ := List.mem_flatten.mp h
    have key : ∀ n data p, yearlessRun.L'.disk.dir n = some (.file data p) → (3 : UInt8) ∉ data := by
      intro n data p e
      have := hget n data p e
      simp only [List.mem_cons, Prod.mk.injEq, Node.file.injEq, List.not_mem_nil, or_false] at this
      rcases this with ⟨_, rfl, _⟩ | ⟨_, rfl, _⟩ | ⟨_, rfl, _⟩ <;> decide
    simp only [files, List.mem_append, List.mem_map] at hb1
    rcases hb1 with ⟨n, _, rfl⟩ | hb1
    · unfold dataOf at hb2
      split at hb2
      · rename_i e; exact key _ _ _ e hb2
      · cases hb2
    · unfold current at hb1
      split at hb1
      · rename_i e
        simp only [List.mem_singleton] at hb1
        exact key _ _ _ e (hb1 ▸ hb2)
      · cases hb1
  obtain ⟨X, hX⟩ : ∃ X, dropped.flatten = X := ⟨_, rfl⟩
  obtain ⟨Y, hY⟩ : ∃ Y, (files yearlessCfg yearlessRun.L'.disk.dir hs).flatten = Y := ⟨_, rfl⟩
  rw [hX, hY] at hall
  rw [hY] at h2in h3out
  match X with
  | [] => simp only [List.nil_append] at hall; subst hall; exact h3out (by decide)
  | [_] => simp only [List.cons_append, List.nil_append, List.cons.injEq] at hall; rw [hall.2] at h3out; exact h3out (by decide)
  | [_, _] => simp only [List.cons_append, List.nil_append, List.cons.injEq] at hall; rw [hall.2.2] at h3out; exact h3out (by decide)
  | _ :: _ :: _ :: _ =>
    simp only [List.cons_append, List.cons.injEq] at hall
    have : (2 : UInt8) ∈ [(4 : UInt8), 5] := by rw [← hall.2.2.2]; simp [h2in]
    revert this
    decide

end Log4g
