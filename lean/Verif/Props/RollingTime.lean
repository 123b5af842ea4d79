import Verif.Props.Rolling
import Verif.Lemmas.RollTimes

/-! # Properties of time rolling -/

namespace Log4g
open Spec Strconv

variable {lib : RLib} {c : RCfg} {umask : Nat}

theorem time_between (S : Prop) {pat : Str} (hk : c.kind = .time pat) {start : Int → Int} {T0 T1 : Int} (hp : Periods lib pat start T0 T1) {d0 : Disk}
    {hs0 : List Str} (hb : Backups lib c d0.dir hs0) (hold : ∀ n ∈ hs0, ∀ v, Backup lib c n v → v < start T0) {tr : STrace} {d : Disk} {rw : RW}
    (hl : Life umask lib c d0 tr d rw) (hrm : S → RemovesOk tr) (hclock : (clocks tr).Pairwise (· ≤ ·)) (hT : ∀ t ∈ clocks tr, T0 ≤ t ∧ t ≤ T1) :
    Between lib c S (hs0.map (dataOf d0.dir), current c d0.dir) (Earlier lib c start T0 T1) (InPeriod lib c pat start) rw tr d := by
  have hX : Earlier lib c start T0 T1 [] hs0 := fun t _ h0 h1 n hn v hv => by
    have := hold n hn v hv
    have := hp.mono _ _ (Int.le_refl _) h0 h1
    omega
  refine life_between (timePlan hk _ hp) ⟨hs0, kept_start hb, hX⟩ hl fun t ht => ⟨fun s => removesOk_prefix (hrm s) ht, ?_⟩
  obtain ⟨u, rfl⟩ := ht
  rw [clocks_append] at hclock hT
  exact ⟨(List.pairwise_append.mp hclock).1, fun s hs => hT s (by simp [hs])⟩

/-- C67, what holds.  With periods that do not go backwards or repeat, no clock going backwards and all backups there
at first from earlier periods, time rolling keeps a gap-free final part of the log. -/
theorem C67_time_rolling_gap_free_partial {pat : Str} (hk : c.kind = .time pat) {start : Int → Int} {T0 T1 : Int} (hp : Periods lib pat start T0 T1) {d0 : Disk}
    {hs0 : List Str} (hb : Backups lib c d0.dir hs0) (hold : ∀ n ∈ hs0, ∀ v, Backup lib c n v → v < start T0) {tr : STrace} {d : Disk} {rw : RW}
    (hl : Life umask lib c d0 tr d rw) (hrm : RemovesOk tr) (hclock : (clocks tr).Pairwise (· ≤ ·)) (hT : ∀ t ∈ clocks tr, T0 ≤ t ∧ t ≤ T1) :
    GapFree lib c (files c d0.dir hs0) tr d.dir := by
  obtain ⟨hs, h, _⟩ := time_between True hk hp hb hold hl (fun _ => hrm) hclock hT
  exact h.1.gapFree trivial

/-- C55, time rolling, under the conditions of C67. -/
theorem C55_time {pat : Str} (hk : c.kind = .time pat) {start : Int → Int} {T0 T1 : Int} (hp : Periods lib pat start T0 T1) {d0 : Disk}
    {hs0 : List Str} (hb : Backups lib c d0.dir hs0) (hold : ∀ n ∈ hs0, ∀ v, Backup lib c n v → v < start T0) {t1 t2 t3 : STrace} {d1 d1' d : Disk}
    {rw1 rw1' rw : RW} {msg : Bytes} {n : Nat} (hw : Runs umask (c.write lib rw1 msg) d1 t2 ((n, true), rw1') d1')
    (hl : Life umask lib c d0 (t1 ++ t2 ++ t3) d rw) (hrm : RemovesOk (t1 ++ t2 ++ t3)) (hclock : (clocks (t1 ++ t2 ++ t3)).Pairwise (· ≤ ·))
    (hT : ∀ t ∈ clocks (t1 ++ t2 ++ t3), T0 ≤ t ∧ t ≤ T1) :
    ∃ (hs : List Str) (dropped : List Bytes) (before : List (List Bytes)) (g1 g2 : List Bytes) (after : List (List Bytes)), Backups lib c d.dir hs ∧
      dropped ++ files c d.dir hs = before.map List.flatten ++ [g1.flatten ++ msg ++ g2.flatten] ++ after.map List.flatten ∧
      before.flatten ++ g1 = files c d0.dir hs0 ++ chunks t1 ∧ g2 ++ after.flatten = chunks t3 := by
  refine gapFree_piece (C67_time_rolling_gap_free_partial hk hp hb hold hl hrm hclock hT) ?_
  rcases write_chunks hw with ⟨_, _, h⟩ | ⟨h, _, hn⟩
  · cases h
  · rw [h, hn rfl, List.take_length]

/-- In the sample library the name of a period is the number of the instant. -/
theorem demo_periods : Periods demoRLib c!"x" id 1 9 where
  mono s t _ h _ := h
  nonempty t h0 h1 := by
    have : t ∈ [(1 : Int), 2, 3, 4, 5, 6, 7, 8, 9] := by simp; omega
    simp only [List.mem_cons, List.not_mem_nil, or_false] at this
    rcases this with rfl | rfl | rfl | rfl | rfl | rfl | rfl | rfl | rfl <;> decide +kernel
  parse t h0 h1 := by
    have : t ∈ [(1 : Int), 2, 3, 4, 5, 6, 7, 8, 9] := by simp; omega
    simp only [List.mem_cons, List.not_mem_nil, or_false] at this
    rcases this with rfl | rfl | rfl | rfl | rfl | rfl | rfl | rfl | rfl <;> decide +kernel
  same s t _ _ _ h := by rw [show s = t from h]

example : Backups demoRLib demoTCfg demoTDisk0.disk.dir [c!"log.0"] ∧ (∀ n ∈ [c!"log.0"], ∀ v, Backup demoRLib demoTCfg n v → v < id (1 : Int)) ∧
    Life 0o022 demoRLib demoTCfg demoTDisk0.disk demoTRun.tr demoTRun.L'.disk demoTRun.rw ∧ RemovesOk demoTRun.tr ∧
    clocks demoTRun.tr = [1, 1, 2, 2, 3, 3, 3] ∧
    demoTRun.L'.files = [(c!"log", .file [5, 5, 5, 6] 0o600), (c!"log.2", .file [4] 0o500), (c!"log.1", .file [2, 3] 0o500), (c!"other", .file [5] 0o600)] := by
  refine ⟨backupsB_ok (by decide +kernel), ?_, demoTRun.life, removesOkB_ok (by decide +kernel), by decide +kernel, by decide +kernel⟩
  intro n hn v hv
  simp only [List.mem_singleton] at hn
  subst hn
  rw [← backup_key hv]
  decide

theorem itoa_ne_nil (v : Int) : itoa v ≠ [] := by
  intro h
  have := decimal_itoa v
  rw [h] at this
  cases this with
  | plain hd => exact hd.1 rfl

/-- A library whose periods are named by the parity of the instant: names come back, as those of the hours of a day do. -/
def parityRLib : RLib := { demoRLib with format := fun t _ => itoa (t % 2) }
def parityCfg : RCfg := { demoTCfg with maxRolls := 5 }
def parityClock : Nat → Nat → Bool × Int := fun j _ => (false, j + 1)
def parityRun : SimRun 0o022 parityRLib parityCfg parityClock [[1], [2], [3], [4]] { files := [] } := simRun _ _ _ _ _ _ (by decide +kernel)

theorem parityRun_files : parityRun.L'.files = [(c!"log", .file [4] 0o600), (c!"log.1", .file [3] 0o500), (c!"log.0", .file [2] 0o500)] := by decide +kernel

/-- C67 is false: when names of periods come back, as those of a pattern without the date do, the roll overwrites the
older backup of the same name.  Nothing fails, the clock never goes back, there are fewer backups than configured, and
yet a message is gone. -/
theorem C67_time_rolling_gap_free_refuted : ∃ (lib : RLib) (c : RCfg) (d0 : Disk) (tr : STrace) (d : Disk) (rw : RW), c.kind = .time c!"x" ∧ (∀ n, d0.dir n = none) ∧
    (∀ t, lib.format t c!"x" ≠ []) ∧ Session 0o022 lib c d0 [[1], [2], [3], [4]] tr d rw ∧ NoneFailed tr ∧ (clocks tr).Pairwise (· ≤ ·) ∧
    ¬ GapFree lib c (files c d0.dir []) tr d.dir := by
  refine ⟨parityRLib, parityCfg, _, parityRun.tr, parityRun.L'.disk, parityRun.rw, rfl, fun _ => rfl, fun t => itoa_ne_nil _, parityRun.session,
    noneFailedB_ok (by decide +kernel), by decide +kernel, ?_⟩
  rintro ⟨hs, dropped, groups, hb, h1, h2, h3⟩
  have hget : ∀ n data p, parityRun.L'.disk.dir n = some (.file data p) → (n, Node.file data p) ∈ [(c!"log", .file [4] 0o600), (c!"log.1", .file [3] 0o500), (c!"log.0", .file [2] 0o500)] := by
    intro n data p e
    have := Map.mem_of_get (k := n) (v := Node.file data p) (m := parityRun.L'.files) e
    rwa [parityRun_files] at this
  have hsub : ∀ n ∈ hs, n ∈ [c!"log", c!"log.1", c!"log.0"] := by
    intro n hn
    obtain ⟨_, data, p, e⟩ := (hb.all n).mp hn
    have := List.mem_map_of_mem (f := Prod.fst) (hget n data p e)
    exact this
  have hnd : hs.Nodup := hb.order.imp_of_mem fun {a b} ha _ hab e => by
    obtain ⟨⟨v, hv⟩, _⟩ := (hb.all a).mp ha
    have := hab v v hv (e ▸ hv)
    omega
  have hlen : hs.length ≤ 3 := hnd.length_le_of_subset hsub
  have hd : dropped = [] := by
    rcases h3 with h3 | h3
    · exact h3
    · have : (5 : Int) ≤ hs.length := h3
      omega
  subst hd
  have hch : chunks parityRun.tr = [[1], [2], [3], [4]] := by decide +kernel
  have hone : (1 : UInt8) ∈ (groups.map List.flatten).flatten := by
    rw [← List.flatten_flatten, h1, hch]
    simp
  rw [h2, List.nil_append] at hone
  obtain ⟨b, hb1, hb2⟩ := List.mem_flatten.mp hone
  have key : ∀ n data p, parityRun.L'.disk.dir n = some (.file data p) → (1 : UInt8) ∉ data := by
    intro n data p e
    have := hget n data p e
    simp only [List.mem_cons, Prod.mk.injEq, Node.file.injEq, List.not_mem_nil, or_false] at this
    rcases this with ⟨_, rfl, _⟩ | ⟨_, rfl, _⟩ | ⟨_, rfl, _⟩ <;> decide
  simp only [files, List.mem_append, List.mem_map] at hb1
  rcases hb1 with ⟨n, _, rfl⟩ | hb1
  · unfold dataOf at hb2
    split at hb2
    · rename_i e; exact key _ _ _ e hb2
    · cases hb2
  · unfold current at hb1
    split at hb1
    · rename_i e
      simp only [List.mem_singleton] at hb1
      exact key _ _ _ e (hb1 ▸ hb2)
    · cases hb1

theorem rename_only {a b a' b' : Str} {r r' : Bool} {tr : STrace} (h : (⟨.rename a b, r⟩ : (o : Sys) × o.Resp) ∈ tr)
    (hx : ∀ x ∈ tr, still x.1 ∨ x.1 = .now ∨ x = ⟨.rename a' b', r'⟩) : a = a' ∧ b = b' ∧ r = r' := by
  rcases hx _ h with h | h | h
  · exact absurd rfl (h.2 a b)
  · cases h
  · cases h; exact ⟨rfl, rfl, rfl⟩

/-- C66.  A write renames only the log file, only when the period at its first look at the clock is not that of the
current file, and to the name of the backup of the current file's period; and a write that finds another period and
succeeds has rolled. -/
theorem C66_rolls_at_period_change {pat : Str} (hk : c.kind = .time pat) (hne : ∀ t, lib.format t pat ≠ []) {d0 d d' : Disk} {ms : List Bytes} {tr tr' : STrace} {rw rw' : RW} {m : Bytes}
    {res : Nat × Bool} (h : Session umask lib c d0 ms tr d rw) (hw : Runs umask (c.write lib rw m) d tr' (res, rw') d') :
    (∀ a b r, (⟨.rename a b, r⟩ : (o : Sys) × o.Resp) ∈ tr' → a = c.fileName ∧ ∃ t0 t1, periodAt tr = some t0 ∧ (clocks tr').head? = some t1 ∧
      lib.format t1 pat ≠ lib.format t0 pat ∧ b = backupName c.mode c.fileName (lib.format t0 pat)) ∧
    (∀ t0 t1, periodAt tr = some t0 → (clocks tr').head? = some t1 → lib.format t1 pat ≠ lib.format t0 pat → res.2 = true → rolls tr' = 1) := by
  have hp := session_period hk hne h
  obtain ⟨t, ⟨h1, u, rfl, ha⟩ | ⟨h1, h2, h3⟩⟩ := time_write hk (life_name h.life) hw
  · refine ⟨fun a b r hm => ?_, fun t0 t1 e1 e2 hd hres => ?_⟩
    · rcases List.mem_cons.mp hm with hm | hm
      · cases hm
      · exact absurd rfl ((append_still ha _ hm).2 a b)
    · rw [e1] at hp
      cases e2
      rcases h1 with h1 | h1
      · rw [hp] at h1; exact absurd h1 (hne _)
      · rw [h1] at hd; exact absurd hp hd
  · obtain ⟨p, hp0⟩ : ∃ q, periodAt tr = some q := by
      cases hq : periodAt tr with
      | none => rw [hq] at hp; exact absurd hp h1
      | some p => exact ⟨p, rfl⟩
    rw [hp0] at hp
    have hp : rw.timeName = lib.format p pat := hp
    rcases h3 with ⟨rfl, _, h3, h4⟩ | ⟨names, t2, _, _, ⟨rfl, _, rfl, rfl⟩ | ⟨_, r', _, u, v, _, _, _, rfl, hu, ha⟩⟩
    · refine ⟨fun a b r hm => ?_, fun t0 t1 e1 e2 hd hres => by cases hres⟩
      rcases h4 with ⟨rfl, _⟩ | ⟨_, rfl | rfl⟩ <;> simp at hm
    · refine ⟨fun a b r hm => ?_, fun t0 t1 e1 e2 hd hres => by cases hres⟩
      obtain ⟨rfl, rfl, _⟩ := rename_only hm (a' := c.fileName) (b' := backupName c.mode c.fileName rw.timeName) (r' := false) (by simp [still])
      exact ⟨rfl, p, t, hp0, rfl, by rw [← hp]; exact h2, by rw [hp]⟩
    · have hu' : ∀ x ∈ u, still x.1 := by
        rcases hu with ⟨_, hu⟩ | ⟨rfl, _⟩
        · exact delete_still hu
        · simp
      refine ⟨fun a b r hm => ?_, fun t0 t1 e1 e2 hd hres => ?_⟩
      · obtain ⟨rfl, rfl, _⟩ := rename_only hm (a' := c.fileName) (b' := backupName c.mode c.fileName rw.timeName) (r' := true) (by
          intro x hx
          rcases List.mem_append.mp hx with hx | hx
          · rcases List.mem_append.mp hx with hx | hx
            · simp only [List.mem_cons, List.not_mem_nil, or_false] at hx
              rcases hx with rfl | rfl | rfl | rfl | rfl | rfl <;> simp [still]
            · exact .inl (hu' x hx)
          · exact .inl (append_still ha x hx))
        exact ⟨rfl, p, t, hp0, rfl, by rw [← hp]; exact h2, by rw [hp]⟩
      · have z1 : rolls u = 0 := rolls_zero fun x hx a b => (hu' x hx).2 a b
        have z2 : rolls v = 0 := rolls_zero fun x hx a b => (append_still ha x hx).2 a b
        rw [rolls_append, rolls_append, z1, z2]; rfl

/-- Four of the sample messages, and the fifth in another period. -/
def demoTRun2 : SimRun 0o022 demoRLib demoTCfg demoClock [[2], [3]] demoTDisk0 := simRun _ _ _ _ _ _ (by decide +kernel)
def demoTWrite3 : SimWrite 0o022 demoRLib demoTCfg (demoClock 2) [4] demoTRun2.rw demoTRun2.L' := simWrite _ _ _ _ _ _ _ (by decide +kernel)

example : (∀ t, demoRLib.format t c!"x" ≠ []) ∧ Session 0o022 demoRLib demoTCfg demoTDisk0.disk [[2], [3]] demoTRun2.tr demoTRun2.L'.disk demoTRun2.rw ∧
    Runs 0o022 (demoTCfg.write demoRLib demoTRun2.rw [4]) demoTRun2.L'.disk demoTWrite3.tr (demoTWrite3.res, demoTWrite3.rw') demoTWrite3.L'.disk ∧
    periodAt demoTRun2.tr = some 1 ∧ (clocks demoTWrite3.tr).head? = some 2 ∧ (⟨.rename c!"log" c!"log.1", true⟩ : (o : Sys) × o.Resp) ∈ demoTWrite3.tr ∧ demoTWrite3.res.2 = true :=
  ⟨fun t => itoa_ne_nil t, demoTRun2.session, demoTWrite3.runs, by decide +kernel, by decide +kernel, renamesB_ok (by decide +kernel), by decide +kernel⟩

/-- C66, the rest: with a pattern that gives nothing (as the empty one does), no write ever renames anything. -/
theorem C66_empty_pattern {pat : Str} (hk : c.kind = .time pat) (he : ∀ t, lib.format t pat = []) {d0 d : Disk} {ms : List Bytes} {tr : STrace} {rw : RW}
    (h : Session umask lib c d0 ms tr d rw) : ∀ a b r, (⟨.rename a b, r⟩ : (o : Sys) × o.Resp) ∉ tr := by
  suffices h : (∀ a b r, (⟨.rename a b, r⟩ : (o : Sys) × o.Resp) ∉ tr) ∧ rw.timeName = [] from h.1
  induction h with
  | start => exact ⟨by simp, rfl⟩
  | write hs hr ih =>
    obtain ⟨t, ⟨_, u, rfl, ha⟩ | ⟨h1, _⟩⟩ := time_write hk (life_name hs.life) hr
    · refine ⟨fun a b r hm => ?_, by rw [append_timeName ha]; exact he t⟩
      rcases List.mem_append.mp hm with hm | hm
      · exact ih.1 a b r hm
      · rcases List.mem_cons.mp hm with hm | hm
        · cases hm
        · exact (append_still ha _ hm).2 a b rfl
    · exact absurd ih.2 h1

/-- A library whose format is empty for the empty layout, as that of package time is. -/
def emptyRLib : RLib := { demoRLib with format := fun t pat => if pat = [] then [] else itoa t }
def emptyTRun : SimRun 0o022 emptyRLib { demoRCfg with kind := .time [] } demoClock [[2], [3], [4]] demoTDisk0 := simRun _ _ _ _ _ _ (by decide +kernel)

example : (∀ t, emptyRLib.format t [] = []) ∧ Session 0o022 emptyRLib { demoRCfg with kind := .time [] } demoTDisk0.disk [[2], [3], [4]] emptyTRun.tr emptyTRun.L'.disk emptyTRun.rw ∧
    clocks emptyTRun.tr = [1, 1, 2] ∧ emptyTRun.L'.disk.dir c!"log" = some (.file [2, 3, 4] 0o600) :=
  ⟨fun _ => rfl, emptyTRun.session, by decide +kernel, by decide +kernel⟩

/-- A writer writes `[1]` at 1; another one, after a restart, `[2]` at 2 and `[3]` at 3. -/
def lateWrite1 : SimWrite 0o022 demoRLib demoTCfg (fun _ => (false, 1)) [1] {} { files := [] } := simWrite _ _ _ _ _ _ _ (by decide +kernel)
def lateWrite2 : SimWrite 0o022 demoRLib demoTCfg (fun _ => (false, 2)) [2] {} lateWrite1.L' := simWrite _ _ _ _ _ _ _ (by decide +kernel)
def lateWrite3 : SimWrite 0o022 demoRLib demoTCfg (fun _ => (false, 3)) [3] lateWrite2.rw' lateWrite2.L' := simWrite _ _ _ _ _ _ _ (by decide +kernel)

/-- C68 is false: after a restart the writer appends to the file of the earlier period and takes it for the file of the
period of the first write.  Nothing fails, the clock shows 1, 2, 3, and the backup of period 2 starts with what was
written in period 1. -/
theorem C68_backup_period_refuted : ∃ (lib : RLib) (c : RCfg) (d0 : Disk) (tr : STrace) (d : Disk) (rw : RW) (data : Bytes) (p : Nat), c.kind = .time c!"x" ∧ (∀ n, d0.dir n = none) ∧
    (∀ t, lib.format t c!"x" = itoa t) ∧ Life 0o022 lib c d0 tr d rw ∧ NoneFailed tr ∧ (clocks tr).Pairwise (· ≤ ·) ∧
    d.dir (backupName c.mode c.fileName (lib.format 2 c!"x")) = some (.file data p) ∧
    ¬ ∃ cs : List (Option Int × Bytes), cs.Sublist (stamped tr) ∧ (cs.map Prod.snd).flatten = data ∧ ∀ x ∈ cs, ∃ s, x.1 = some s ∧ lib.format s c!"x" = lib.format 2 c!"x" := by
  refine ⟨demoRLib, demoTCfg, _, _, lateWrite3.L'.disk, lateWrite3.rw', [1, 2], 0o500, rfl, fun _ => rfl, fun _ => rfl,
    .write (.write (.restart (.write .start lateWrite1.runs)) lateWrite2.runs) lateWrite3.runs, noneFailedB_ok (by decide +kernel), by decide +kernel, by decide +kernel, ?_⟩
  rintro ⟨cs, hsub, hdat, hall⟩
  have hone : (1 : UInt8) ∈ (cs.map Prod.snd).flatten := by rw [hdat]; decide
  obtain ⟨b, hb, h1⟩ := List.mem_flatten.mp hone
  obtain ⟨x, hx, rfl⟩ := List.mem_map.mp hb
  obtain ⟨s, hs, hf⟩ := hall x hx
  have hst : stamped ([] ++ lateWrite1.tr ++ lateWrite2.tr ++ lateWrite3.tr) = [(some 1, [1]), (some 2, [2]), (some 3, [3])] := by decide +kernel
  have hm := hsub.subset hx
  rw [hst] at hm
  simp only [List.mem_cons, List.not_mem_nil, or_false] at hm
  rcases hm with rfl | rfl | rfl
  · cases hs
    exact absurd hf (by decide +kernel)
  · exact absurd h1 (by decide)
  · exact absurd h1 (by decide)

/-- C68, what holds.  As long as a single writer that started with an empty log file (or none) works and no renaming
fails, every backup it has made holds exactly a consecutive series of pieces written in the period it is named after. -/
theorem C68_backup_period_partial {pat : Str} (hk : c.kind = .time pat) (hne : ∀ t, lib.format t pat ≠ []) {d0 d : Disk} {ms : List Bytes} {tr : STrace} {rw : RW}
    (h : Session umask lib c d0 ms tr d rw) (hcur : ∀ data p, d0.dir c.fileName = some (.file data p) → data = []) (hren : RenamesOk tr) {n : Str} {data : Bytes} {p : Nat}
    (hn : n ≠ c.fileName) (hd : d.dir n = some (.file data p)) (hnew : d.dir n ≠ d0.dir n) :
    ∃ t, n = backupName c.mode c.fileName (lib.format t pat) ∧ ∃ cs, cs <:+: stamped tr ∧ (cs.map Prod.snd).flatten = data ∧
      ∀ x ∈ cs, ∃ s, x.1 = some s ∧ lib.format s pat = lib.format t pat := by
  have h0 : dataOf d0.dir c.fileName = [] := by
    unfold dataOf
    split
    · rename_i e; exact hcur _ _ e
    · rfl
  rcases (session_filed hk hne h h0 hren).old n hn with e | e | ⟨data', p', t, cs, e1, e2, e3, e4, e5⟩
  · exact absurd e hnew
  · rw [e] at hd; cases hd
  · rw [hd] at e1; cases e1
    exact ⟨t, e2, cs, e3, e4, e5⟩

/-- Whether no renaming fails. -/
def renamesOkB : STrace → Bool
  | [] => true
  | ⟨.rename _ _, r⟩ :: tr => r && renamesOkB tr
  | _ :: tr => renamesOkB tr

theorem renamesOkB_ok {tr : STrace} (h : renamesOkB tr = true) : RenamesOk tr := by
  induction tr with
  | nil => intro a b r hm; simp at hm
  | cons x tr ih =>
    intro a b r hm
    rcases List.mem_cons.mp hm with rfl | hm
    · simp only [renamesOkB, Bool.and_eq_true] at h; exact h.1
    · refine ih ?_ a b r hm
      obtain ⟨o, q⟩ := x
      cases o <;> simp_all [renamesOkB]

example : (∀ t, demoRLib.format t c!"x" ≠ []) ∧ Session 0o022 demoRLib demoTCfg demoTDisk0.disk [[2], [3], [4], [5, 5, 5], [6]] demoTRun.tr demoTRun.L'.disk demoTRun.rw ∧
    demoTDisk0.disk.dir c!"log" = none ∧ RenamesOk demoTRun.tr ∧ demoTRun.L'.disk.dir c!"log.1" = some (.file [2, 3] 0o500) ∧ demoTDisk0.disk.dir c!"log.1" = none ∧
    stamped demoTRun.tr = [(some 1, [2]), (some 1, [3]), (some 2, [4]), (some 3, [5, 5, 5]), (some 3, [6])] :=
  ⟨fun t => itoa_ne_nil t, demoTRun.session, by decide +kernel, renamesOkB_ok (by decide +kernel), by decide +kernel, by decide +kernel, by decide +kernel⟩

end Log4g
