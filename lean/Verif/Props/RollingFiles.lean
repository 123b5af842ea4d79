import Verif.Props.Rolling
import Verif.Lemmas.RollDirs

/-! # Properties of the files the rolling writers make -/

namespace Log4g
open Spec Strconv

variable {lib : RLib} {c : RCfg} {umask : Nat}

/-- C55, when the write returns, for both kinds of rolling: the message is at the end of the current file, behind what
that held before, or alone in it. -/
theorem C55_written_whole {d0 d d' : Disk} {tr tr' : STrace} {rw rw' : RW} {msg : Bytes} {n : Nat} (hl : Life umask lib c d0 tr d rw)
    (hw : Runs umask (c.write lib rw msg) d tr' ((n, true), rw') d') :
    ∃ old p, d'.dir c.fileName = some (.file (old ++ msg) p) ∧ (old = [] ∨ d.dir c.fileName = some (.file old p)) := by
  obtain ⟨_, h1, h2⟩ := write_dir (life_knows hl) hw
  obtain ⟨_, hn⟩ := h1 rfl
  dsimp only at hn
  have key : ∀ d2 : Dir, (d2 c.fileName = none ∨ d2 = d.dir) → Appended umask c d2 d'.dir msg (n, true) →
      ∃ old p, d'.dir c.fileName = some (.file (old ++ msg) p) ∧ (old = [] ∨ d.dir c.fileName = some (.file old p)) := by
    intro d2 hd h
    rcases h with ⟨h, _⟩ | ⟨_, h⟩ | ⟨data, p, h3, h⟩
    · cases h
    · exact ⟨[], reduced umask c.filePerm, by rw [h, hn]; simp, .inl rfl⟩
    · rcases hd with hd | rfl
      · rw [hd] at h3; cases h3
      · exact ⟨data, p, by rw [h, hn]; simp, .inr h3⟩
  rcases h2 with ⟨_, _, h⟩ | ⟨_, _, _, _, d2, _, _, _, _, hnone, _, _, _, h⟩
  · exact key _ (.inr rfl) h
  · exact key _ (.inl hnone) h

example : Life 0o022 demoRLib demoRCfg demoDisk0.disk demoRun4.tr demoRun4.L'.disk demoRun4.rw ∧
    Runs 0o022 (demoRCfg.write demoRLib demoRun4.rw [6]) demoRun4.L'.disk demoWrite5.tr ((1, true), demoWrite5.rw') demoWrite5.L'.disk :=
  ⟨demoRun4.life, by have h : demoWrite5.res = (1, true) := by decide +kernel
                     rw [← h]; exact demoWrite5.runs⟩

theorem session_sizes {max L : Int} (hk : c.kind = .size max) (hmax : 0 < max) (hL : 0 ≤ L) {d0 d : Disk} (h0 : d0.dir c.fileName = none) {ms : List Bytes} {tr : STrace}
    {rw : RW} (h : Session umask lib c d0 ms tr d rw) (hms : ∀ m ∈ ms, (m.length : Int) ≤ L) : Sizes lib c max max L d0 d rw := by
  induction h with
  | start => exact ⟨fun h => (by cases h), fun data p e => (by rw [h0] at e; cases e), fun _ _ data p e => (by rw [h0] at e; cases e), fun n v _ data p e => .inl e⟩
  | write _ hr ih => exact sizes_write hk hmax (Int.le_refl _) hL (hms _ (by simp)) (ih fun m hm => hms m (by simp [hm])) hr

/-- C57.  Messages no longer than `L`, written by a writer that starts without a log file, whatever fails: the current
file stays below the limit plus `L`, and so does every backup it makes, which has reached the limit. -/
theorem C57_file_sizes {max : Int} {L : Nat} (hk : c.kind = .size max) (hmax : 0 < max) {d0 d : Disk} (h0 : d0.dir c.fileName = none) {ms : List Bytes} {tr : STrace}
    {rw : RW} (h : Session umask lib c d0 ms tr d rw) (hms : ∀ m ∈ ms, m.length ≤ L) :
    (∀ data p, d.dir c.fileName = some (.file data p) → (data.length : Int) < max + L) ∧
    (∀ n v, Backup lib c n v → ∀ data p, d.dir n = some (.file data p) →
      d0.dir n = some (.file data p) ∨ max ≤ (data.length : Int) ∧ (data.length : Int) < max + L) := by
  have := session_sizes hk hmax (Int.natCast_nonneg L) h0 h fun m hm => Int.ofNat_le.mpr (hms m hm)
  exact ⟨this.cur, this.backs⟩

/-- A directory with a backup only. -/
def demoDisk1 : LDisk := { files := [(c!"log.7", .file [9] 0o444)] }

def demoRunB : SimRun 0o022 demoRLib demoRCfg allWell [[2], [3, 3], [4], [5, 5, 5], [6]] demoDisk1 := simRun _ _ _ _ _ _ (by decide +kernel)

example : demoDisk1.disk.dir demoRCfg.fileName = none ∧
    Session 0o022 demoRLib demoRCfg demoDisk1.disk [[2], [3, 3], [4], [5, 5, 5], [6]] demoRunB.tr demoRunB.L'.disk demoRunB.rw ∧
    (∀ m ∈ ([[2], [3, 3], [4], [5, 5, 5], [6]] : List Bytes), m.length ≤ 3) ∧ rolls demoRunB.tr = 2 :=
  ⟨by decide, demoRunB.session, by decide, by decide +kernel⟩

/-- C58, what holds: as long as no backup has the number 2⁶³-1, a write renames the log file only, to a name that is
not there and comes after all backups. -/
theorem C58_new_name_partial {max : Int} (hk : c.kind = .size max) {d0 d d' : Disk} {tr tr' : STrace} {rw rw' : RW} {msg : Bytes} {res : Nat × Bool}
    (hl : Life umask lib c d0 tr d rw) (hw : Runs umask (c.write lib rw msg) d tr' (res, rw') d')
    (hsmall : ∀ n v, Backup lib c n v → Regular d.dir n → v < 2 ^ 63 - 1) {a b : Str} {r : Bool} (hm : (⟨.rename a b, r⟩ : (o : Sys) × o.Resp) ∈ tr') :
    a = c.fileName ∧ ¬ Regular d.dir b ∧ ∃ w, Backup lib c b w ∧ ∀ n v, Backup lib c n v → Regular d.dir n → v < w := by
  obtain ⟨ha, t0, rw1, names, tag, _, _, hrd, rfl, _, htag⟩ := write_rename (life_name hl) hw hm
  have hmem := hrd.2.2
  rcases htag with ⟨max', _, rfl⟩ | ⟨pat, hk', _⟩
  · obtain ⟨w, hw1, hw2⟩ := new_number (lib := lib) (c := c) (names := names) hk fun n hn v hv => hsmall n v hv ((hmem n).mp hn)
    refine ⟨ha, fun hreg => ?_, w, hw1, fun n v hv hreg => hw2 n ((hmem n).mpr hreg) v hv⟩
    exact absurd (hw2 _ ((hmem _).mpr hreg) w hw1) (Int.lt_irrefl _)
  · rw [hk] at hk'; cases hk'

example : (∀ n v, Backup demoRLib demoRCfg n v → Regular demoRun4.L'.disk.dir n → v < 2 ^ 63 - 1) ∧
    (⟨.rename c!"log" c!"log.10", true⟩ : (o : Sys) × o.Resp) ∈ demoWrite5.tr := by
  refine ⟨fun n v hv hreg => ?_, renamesB_ok (by decide +kernel)⟩
  have hb : Backups demoRLib demoRCfg demoRun4.L'.disk.dir [c!"log.8", c!"log.9"] := backupsB_ok (by decide +kernel)
  have hn := (hb.all n).mpr ⟨⟨v, hv⟩, hreg⟩
  rw [← backup_key hv]
  simp only [List.mem_cons, List.not_mem_nil, or_false] at hn
  rcases hn with rfl | rfl <;> decide

/-- Writer and directory for the number that cannot be counted on from. -/
def wrapRCfg : RCfg := { fileName := c!"log", kind := .size 2, maxRolls := 5 }
def wrapDisk : LDisk := { files := [(c!"log.9223372036854775807", .file [9] 0o444)] }
def wrapRun : SimRun 0o022 demoRLib wrapRCfg allWell [[2, 2], [3, 3]] wrapDisk := simRun _ _ _ _ _ _ (by decide +kernel)
def wrapWrite : SimWrite 0o022 demoRLib wrapRCfg (allWell 2) [4, 4] wrapRun.rw wrapRun.L' := simWrite _ _ _ _ _ _ _ (by decide +kernel)

/-- C58 fails: after number 2⁶³-1 comes -2⁶³, which sorts before it; so the next roll takes that name again and
overwrites the backup. -/
theorem C58_new_name_refuted : ∃ (lib : RLib) (c : RCfg) (max : Int) (d0 d d' : Disk) (tr tr' : STrace) (rw rw' : RW) (msg : Bytes) (res : Nat × Bool) (a b : Str),
    c.kind = .size max ∧ Life 0o022 lib c d0 tr d rw ∧ Runs 0o022 (c.write lib rw msg) d tr' (res, rw') d' ∧ NoneFailed (tr ++ tr') ∧
    (⟨.rename a b, true⟩ : (o : Sys) × o.Resp) ∈ tr' ∧ d.dir b = some (.file [2, 2] c.backPerm) ∧ d'.dir b = some (.file [3, 3] c.backPerm) := by
  refine ⟨demoRLib, wrapRCfg, 2, wrapDisk.disk, wrapRun.L'.disk, wrapWrite.L'.disk, wrapRun.tr, wrapWrite.tr, wrapRun.rw, wrapWrite.rw', [4, 4], wrapWrite.res,
    c!"log", c!"log.-9223372036854775808", rfl, wrapRun.life, wrapWrite.runs, noneFailedB_ok (by decide +kernel), renamesB_ok (by decide +kernel), by decide +kernel, by decide +kernel⟩

/-- C63.  A new writer appends its first message to the log file it finds, whatever its size, and changes nothing else.
The old content counts from then on: the second message rolls if both together reach the limit, and is appended if
not. -/
theorem C63_restart_appends (hmax : ∀ max, c.kind = .size max → 0 < max) {d d' : Disk} {data msg : Bytes} {p : Nat} {tr : STrace} {res : Nat × Bool} {rw' : RW}
    (h0 : d.dir c.fileName = some (.file data p)) (hw : Runs umask (c.write lib {} msg) d tr (res, rw') d') :
    (d'.dir c.fileName = some (.file (data ++ msg.take res.1) p) ∧ (res.2 = true → res.1 = msg.length) ∧ ∀ n, n ≠ c.fileName → d'.dir n = d.dir n) ∧
    ∀ max, c.kind = .size max → res.2 = true → ∀ msg2 tr2 res2 rw2 d2, Runs umask (c.write lib rw' msg2) d' tr2 (res2, rw2) d2 →
      ((data.length + msg.length : Nat) < max → rolls tr2 = 0 ∧ d2.dir c.fileName = some (.file (data ++ msg ++ msg2.take res2.1) p)) ∧
      (max ≤ (data.length + msg.length : Nat) → LogCallsOk tr2 → rolls tr2 = 1 ∧ d2.dir c.fileName = some (.file msg2 (reduced umask c.filePerm))) := by
  have hk0 : Knows c ({} : RW) d := fun h => by cases h
  obtain ⟨hk1, hres, h2⟩ := write_dir hk0 hw
  have happ : ∀ {d1 d2 : Dir} {bs : Bytes} {r : Nat × Bool} {x : Bytes} {q : Nat}, Appended umask c d1 d2 bs r → d1 c.fileName = some (.file x q) → d2 c.fileName = some (.file (x ++ bs.take r.1) q) := by
    intro d1 d2 bs r x q h hx
    rcases h with ⟨rfl, h⟩ | ⟨h, _⟩ | ⟨_, _, h, h'⟩
    · rw [h, hx]; simp
    · rw [hx] at h; cases h
    · rw [hx] at h; cases h; exact h'
  have hnoroll : rolls tr = 0 := by
    cases hk : c.kind with
    | size max => exact (write_must_roll hk hw).1 (hmax max hk)
    | time pat =>
      obtain ⟨t1, b, rw1, d1, t2, rw2, d2, k1, k2⟩ := runs_write hw
      obtain ⟨_, k3⟩ := runs_needsToRoll k1
      rcases k3 with ⟨_, hk', _⟩ | ⟨_, _, _, rfl, ⟨_, rfl, _⟩ | ⟨h, _⟩⟩
      · rw [hk] at hk'; cases hk'
      · rcases k2 with ⟨h, _⟩ | ⟨⟨h, _⟩ | ⟨_, rfl, _⟩, t3, ha, rfl⟩
        · cases h
        · cases h
        · have := rolls_zero fun x hx a b => append_norename ha x hx a b
          simp [rolls_append, rolls, this]
      · exact absurd rfl h
  rcases h2 with ⟨_, hoth, ha⟩ | ⟨_, _, _, _, _, hr, _⟩
  · have hcur := happ ha h0
    refine ⟨⟨hcur, fun h => (hres h).2, hoth⟩, ?_⟩
    intro max hk hok msg2 tr2 res2 rw2 d2 hw2
    obtain ⟨hopen, hlen⟩ := hres hok
    obtain ⟨_, data', p', e', hsize⟩ := hk1 hopen
    rw [hlen, List.take_length] at hcur
    rw [hcur] at e'; cases e'
    have hroll := write_must_roll hk hw2
    rw [hsize] at hroll
    simp only [List.length_append] at hroll
    obtain ⟨_, hres2, h3⟩ := write_dir hk1 hw2
    refine ⟨fun hlt => ?_, fun hge hnf => ?_⟩
    · have hz := hroll.1 hlt
      refine ⟨hz, ?_⟩
      rcases h3 with ⟨_, _, ha2⟩ | ⟨_, _, _, _, _, hr, _⟩
      · exact happ ha2 hcur
      · omega
    · have hok2 : res2.2 = true := write_ok (by rw [hopen]; simp) (fun _ _ _ _ => hopen) hw2 hnf
      have hz := hroll.2 hge hok2
      rcases h3 with ⟨hr, _, _⟩ | ⟨_, _, _, _, d3, hr, _, _, _, hnone, _, _, _, ha2⟩
      · omega
      · refine ⟨hr, ?_⟩
        rcases ha2 with ⟨rfl, _⟩ | ⟨_, h⟩ | ⟨_, _, h, _⟩
        · cases hok2
        · rw [h, (hres2 hok2).2, List.take_length]
        · rw [hnone] at h; cases h
  · omega

/-- A file beyond the limit, with two messages after it. -/
def bigDisk : LDisk := { files := [(c!"log", .file [1, 1, 1] 0o600)] }
def bigWrite1 : SimWrite 0o022 demoRLib demoRCfg (allWell 0) [2] {} bigDisk := simWrite _ _ _ _ _ _ _ (by decide +kernel)
def bigWrite2 : SimWrite 0o022 demoRLib demoRCfg (allWell 1) [3] bigWrite1.rw' bigWrite1.L' := simWrite _ _ _ _ _ _ _ (by decide +kernel)

example : bigDisk.disk.dir demoRCfg.fileName = some (.file [1, 1, 1] 0o600) ∧
    Runs 0o022 (demoRCfg.write demoRLib {} [2]) bigDisk.disk bigWrite1.tr (bigWrite1.res, bigWrite1.rw') bigWrite1.L'.disk ∧ bigWrite1.res.2 = true ∧
    Runs 0o022 (demoRCfg.write demoRLib bigWrite1.rw' [3]) bigWrite1.L'.disk bigWrite2.tr (bigWrite2.res, bigWrite2.rw') bigWrite2.L'.disk ∧ LogCallsOk bigWrite2.tr :=
  ⟨by decide, bigWrite1.runs, by decide +kernel, bigWrite2.runs, logCallsOk_of (noneFailedB_ok (by decide +kernel))⟩

/-- C64.  As long as no change of permissions fails: every entry of the directory other than the log file is as it was
at first, or gone, or a file with the configured backup permissions; the log file has the configured permissions reduced
by the umask, unless it is still the one that was there at first. -/
theorem C64_permissions {d0 d : Disk} {ms : List Bytes} {tr : STrace} {rw : RW} (h : Session umask lib c d0 ms tr d rw) (hok : ChmodsOk tr) :
    (∀ n, n ≠ c.fileName → d.dir n = d0.dir n ∨ d.dir n = none ∨ ∃ data, d.dir n = some (.file data c.backPerm)) ∧
    (∀ data p, d.dir c.fileName = some (.file data p) →
      p = reduced umask c.filePerm ∨ (rolls tr = 0 ∧ ∃ data0, d0.dir c.fileName = some (.file data0 p))) := by
  induction h with
  | start => exact ⟨fun n _ => .inl rfl, fun data p e => .inr ⟨rfl, data, e⟩⟩
  | @write ms tr d rw m tr' res rw' d' hs hr ih =>
    have ih := ih fun n p r hm => hok n p r (by simp [hm])
    obtain ⟨_, _, h2⟩ := write_dir (session_knows hs) hr
    rw [rolls_append]
    rcases h2 with ⟨hz, hoth, ha⟩ | ⟨data, p, tag, q, d2, hz, he, _, hq, hnone, ho2, hb2, hoth, ha⟩
    · refine ⟨fun n hn => by rw [hoth n hn]; exact ih.1 n hn, fun data p e => ?_⟩
      rw [hz]
      rcases ha with ⟨_, ha⟩ | ⟨_, ha⟩ | ⟨x, y, h3, ha⟩
      · rw [ha] at e; exact ih.2 data p e
      · rw [ha] at e; cases e; exact .inl rfl
      · rw [ha] at e; cases e; exact ih.2 x p h3
    · have hq := hq fun n p r hm => hok n p r (by simp [hm])
      subst hq
      refine ⟨fun n hn => ?_, fun data p e => ?_⟩
      · rw [hoth n hn]
        by_cases hnew : n = backupName c.mode c.fileName tag
        · subst hnew
          rcases hb2 with hb2 | hb2
          · exact .inr (.inr ⟨data, hb2⟩)
          · exact .inr (.inl hb2)
        · rcases ho2 n hn hnew with h | h
          · rw [h]; exact ih.1 n hn
          · exact .inr (.inl h)
      · rcases ha with ⟨_, ha⟩ | ⟨_, ha⟩ | ⟨x, y, h3, ha⟩
        · rw [ha, hnone] at e; cases e
        · rw [ha] at e; cases e; exact .inl rfl
        · rw [hnone] at h3; cases h3

example : Session 0o022 demoRLib demoRCfg demoDisk0.disk [[2], [3], [4], [5, 5, 5], [6]] demoRun.tr demoRun.L'.disk demoRun.rw ∧ ChmodsOk demoRun.tr ∧
    demoRun.L'.disk.dir c!"log.10" = some (.file [5, 5, 5] demoRCfg.backPerm) :=
  ⟨demoRun.session, chmodsOk_of_noneFailed (noneFailedB_ok (by decide +kernel)), by decide +kernel⟩

end Log4g
