import Verif.Lemmas.RollPlans
import Verif.Lemmas.RollFacts
import Verif.Lemmas.RollDemo
import Verif.Lemmas.RollSize

/-! # Properties of the rolling writers -/

namespace Log4g
open Spec Strconv

variable {lib : RLib} {c : RCfg} {umask : Nat}

/-- What is in the directory, for each file. -/
theorem Kept.groups {S : Prop} {F0 : List Bytes × List Bytes} {hs : List Str} {tr : STrace} {d : Dir} (h : Kept lib c S F0 hs tr d) :
    ∃ (old recent : List Str) (dropped : List Bytes) (gs : List (List Bytes)), hs = old ++ recent ∧ gs.flatten = F0.1 ++ F0.2 ++ chunks tr ∧
      gs.map List.flatten = dropped ++ files c d recent ∧ (dropped = [] ∨ c.maxRolls ≤ recent.length) ∧
      (old.map (dataOf d)).Sublist dropped ∧ (S → old = []) := by
  obtain ⟨old, recent, dr, rfl, h2, h3, h4, h5⟩ := h.keep
  have hch := cuts_chunks F0.2 tr
  have hone : ∀ xs : List Bytes, (xs.map fun x => [x]).flatten = xs := fun xs => by simp [List.flatten_eq_flatMap, List.flatMap_map]
  have hone' : ∀ xs : List Bytes, (xs.map fun x => [x]).map List.flatten = xs := fun xs => by
    rw [List.map_map]
    have : (List.flatten ∘ fun x : Bytes => [x]) = id := by funext x; simp
    rw [this]; simp
  rcases h.cur with ⟨hc, hl⟩ | hc
  · rw [hl, List.append_nil] at hch
    refine ⟨old, recent, dr, F0.1.map (fun x => [x]) ++ (cuts F0.2 tr).1, rfl, ?_, ?_, h3, h4, h5⟩
    · rw [List.flatten_append, hone, hch, List.append_assoc]
    · rw [List.map_append, hone', ← h2, files, hc, List.append_nil]
  · refine ⟨old, recent, dr, F0.1.map (fun x => [x]) ++ (cuts F0.2 tr).1 ++ [(cuts F0.2 tr).2], rfl, ?_, ?_, h3, h4, h5⟩
    · rw [List.flatten_append, List.flatten_append, hone, List.append_assoc, List.append_assoc, ← hch]
      simp
    · rw [List.map_append, List.map_append, hone', ← h2, files, hc]
      simp

theorem Kept.trailing {S : Prop} {F0 : List Bytes × List Bytes} {hs : List Str} {tr : STrace} {d : Dir} (h : Kept lib c S F0 hs tr d) :
    Trailing lib c (F0.1 ++ F0.2) tr d := by
  obtain ⟨old, recent, dr, gs, rfl, h1, h2, h3, h4, _⟩ := h.groups
  exact ⟨old, recent, dr, gs, h.backups, h1, h2, h3, h4⟩

theorem Kept.gapFree {S : Prop} {F0 : List Bytes × List Bytes} {hs : List Str} {tr : STrace} {d : Dir} (h : Kept lib c S F0 hs tr d) (hS : S) :
    GapFree lib c (F0.1 ++ F0.2) tr d := by
  obtain ⟨old, recent, dr, gs, rfl, h1, h2, h3, h4, h5⟩ := h.groups
  obtain rfl := h5 hS
  exact ⟨recent, dr, gs, h.backups, h1, h2, h3⟩

theorem kept_start {S : Prop} {d : Dir} {hs : List Str} (h : Backups lib c d hs) : Kept lib c S (hs.map (dataOf d), current c d) hs [] d := by
  refine ⟨h, ⟨[], hs, [], rfl, by simp [cuts], .inl rfl, .refl _, fun _ => rfl⟩, ?_⟩
  simp only [cuts, List.foldl_nil]
  unfold current
  split <;> simp

theorem removesOk_prefix {a b : STrace} (h : RemovesOk b) (hp : a <+: b) : RemovesOk a := fun n r hm => h n r (hp.subset hm)

theorem rolls_prefix {a b : STrace} (hp : a <+: b) : rolls a ≤ rolls b := by
  obtain ⟨t, rfl⟩ := hp
  rw [rolls_append]; omega

theorem size_between (S : Prop) {max : Int} (hk : c.kind = .size max) {d0 : Disk} {hs0 : List Str} (hb : Backups lib c d0.dir hs0) {B : Int} (hB : 0 ≤ B)
    (hnum : ∀ n ∈ hs0, ∀ v, Backup lib c n v → v ≤ B) {tr : STrace} {d : Disk} {rw : RW} (hl : Life umask lib c d0 tr d rw)
    (hrm : S → RemovesOk tr) (hnr : B + rolls tr < 2 ^ 63) :
    Between lib c S (hs0.map (dataOf d0.dir), current c d0.dir) (fun tr hs => NumbersUpTo lib c B tr hs ∧ RolledFull max (current c d0.dir) tr)
      (fun _ _ _ => True) rw tr d :=
  life_between (sizePlan hk _ hB) ⟨hs0, kept_start hb, fun n hn v hv => by have := hnum n hn v hv; simp [rolls]; exact this, fun g hg => by cases hg⟩ hl
    fun t ht => ⟨fun s => removesOk_prefix (hrm s) ht, by have := rolls_prefix ht; omega⟩

/-- C54.  Whatever is written, in whatever pieces, whatever else fails, whatever dies and is started again: as long as
removals work and the numbers of backups stay within 64 bits, the directory holds a gap-free final part of the log. -/
theorem C54_size_rolling_gap_free {max : Int} (hk : c.kind = .size max) {d0 : Disk} {hs0 : List Str} (hb : Backups lib c d0.dir hs0) {B : Int} (hB : 0 ≤ B)
    (hnum : ∀ n ∈ hs0, ∀ v, Backup lib c n v → v ≤ B) {tr : STrace} {d : Disk} {rw : RW} (hl : Life umask lib c d0 tr d rw)
    (hrm : RemovesOk tr) (hnr : B + rolls tr < 2 ^ 63) : GapFree lib c (files c d0.dir hs0) tr d.dir := by
  obtain ⟨hs, h, _⟩ := size_between True hk hb hB hnum hl (fun _ => hrm) hnr
  exact h.1.gapFree trivial

/-- The bound on the numbers in `demoDisk0`. -/
theorem demo_numbers : ∀ n ∈ [c!"log.7"], ∀ v, Backup demoRLib demoRCfg n v → v ≤ 7 := by
  intro n hn v hv
  simp only [List.mem_singleton] at hn
  subst hn
  rw [← backup_key hv]
  decide

example : Backups demoRLib demoRCfg demoDisk0.disk.dir [c!"log.7"] ∧ (∀ n ∈ [c!"log.7"], ∀ v, Backup demoRLib demoRCfg n v → v ≤ 7) ∧
    Life 0o022 demoRLib demoRCfg demoDisk0.disk demoRun.tr demoRun.L'.disk demoRun.rw ∧ RemovesOk demoRun.tr ∧ (7 : Int) + rolls demoRun.tr < 2 ^ 63 ∧
    chunks demoRun.tr = [[2], [3], [4], [5, 5, 5], [6]] ∧ rolls demoRun.tr = 3 :=
  ⟨demoDisk0_backups, demo_numbers, demoRun.life, demoRun_removes, by rw [demoRun_rolls]; decide, by decide +kernel, demoRun_rolls⟩

theorem flatten_split {α : Type} {gs : List (List α)} {A C : List α} {b : α} (h : gs.flatten = A ++ [b] ++ C) :
    ∃ pre g1 g2 post, gs = pre ++ [g1 ++ [b] ++ g2] ++ post ∧ pre.flatten ++ g1 = A ∧ g2 ++ post.flatten = C := by
  induction gs generalizing A with
  | nil => simp at h
  | cons g gs ih =>
    rw [List.flatten_cons, List.append_assoc] at h
    rcases List.append_eq_append_iff.mp h with ⟨a, rfl, ha⟩ | ⟨a, rfl, ha⟩
    · obtain ⟨pre, g1, g2, post, rfl, h1, h2⟩ := ih (by rw [ha, List.append_assoc])
      exact ⟨g :: pre, g1, g2, post, by simp, by simp [← h1], h2⟩
    · cases a with
      | nil =>
        simp only [List.nil_append] at ha
        obtain ⟨pre, g1, g2, post, rfl, h1, h2⟩ := ih (A := []) (by rw [← ha]; simp)
        exact ⟨A :: pre, g1, g2, post, by simp, by simp [List.append_eq_nil_iff.mp h1], h2⟩
      | cons x a =>
        simp only [List.cons_append, List.nil_append, List.cons.injEq] at ha
        obtain ⟨rfl, rfl⟩ := ha
        exact ⟨[], A, a, gs, by simp, by simp, rfl⟩

/-- In a gap-free log a piece is within one file. -/
theorem gapFree_piece {F0 : List Bytes} {t1 t2 t3 : STrace} {d : Dir} {bs : Bytes} (h : GapFree lib c F0 (t1 ++ t2 ++ t3) d) (hc : chunks t2 = [bs]) :
    ∃ (hs : List Str) (dropped : List Bytes) (before : List (List Bytes)) (g1 g2 : List Bytes) (after : List (List Bytes)), Backups lib c d hs ∧
      dropped ++ files c d hs = before.map List.flatten ++ [g1.flatten ++ bs ++ g2.flatten] ++ after.map List.flatten ∧
      before.flatten ++ g1 = F0 ++ chunks t1 ∧ g2 ++ after.flatten = chunks t3 := by
  obtain ⟨hs, dr, gs, hb, h1, h2, _⟩ := h
  rw [chunks_append, chunks_append, hc, ← List.append_assoc, ← List.append_assoc] at h1
  obtain ⟨pre, g1, g2, post, rfl, h3, h4⟩ := flatten_split h1
  exact ⟨hs, dr, pre, g1, g2, post, hb, by rw [← h2]; simp, h3, h4⟩

/-- C55.  A message whose write succeeds is and stays contiguous within one file (kept or dropped as a whole), behind
what was there and written before and in front of what is written later. -/
theorem C55_message_in_one_file {max : Int} (hk : c.kind = .size max) {d0 : Disk} {hs0 : List Str} (hb : Backups lib c d0.dir hs0) {B : Int} (hB : 0 ≤ B)
    (hnum : ∀ n ∈ hs0, ∀ v, Backup lib c n v → v ≤ B) {t1 t2 t3 : STrace} {d1 d1' d : Disk} {rw1 rw1' rw : RW} {msg : Bytes} {n : Nat}
    (hw : Runs umask (c.write lib rw1 msg) d1 t2 ((n, true), rw1') d1') (hl : Life umask lib c d0 (t1 ++ t2 ++ t3) d rw)
    (hrm : RemovesOk (t1 ++ t2 ++ t3)) (hnr : B + rolls (t1 ++ t2 ++ t3) < 2 ^ 63) :
    ∃ (hs : List Str) (dropped : List Bytes) (before : List (List Bytes)) (g1 g2 : List Bytes) (after : List (List Bytes)), Backups lib c d.dir hs ∧
      dropped ++ files c d.dir hs = before.map List.flatten ++ [g1.flatten ++ msg ++ g2.flatten] ++ after.map List.flatten ∧
      before.flatten ++ g1 = files c d0.dir hs0 ++ chunks t1 ∧ g2 ++ after.flatten = chunks t3 := by
  refine gapFree_piece (C54_size_rolling_gap_free hk hb hB hnum hl hrm hnr) ?_
  rcases write_chunks hw with ⟨_, _, h⟩ | ⟨h, _, hn⟩
  · cases h
  · rw [h, hn rfl, List.take_length]

example : chunks demoRun4.tr = [[2], [3], [4], [5, 5, 5]] ∧ demoWrite5.res = (1, true) ∧
    Runs 0o022 (demoRCfg.write demoRLib demoRun4.rw [6]) demoRun4.L'.disk demoWrite5.tr (demoWrite5.res, demoWrite5.rw') demoWrite5.L'.disk ∧
    Life 0o022 demoRLib demoRCfg demoDisk0.disk (demoRun4.tr ++ demoWrite5.tr ++ []) demoWrite5.L'.disk demoWrite5.rw' ∧
    RemovesOk (demoRun4.tr ++ demoWrite5.tr ++ []) ∧ (7 : Int) + rolls (demoRun4.tr ++ demoWrite5.tr ++ []) < 2 ^ 63 :=
  ⟨by decide +kernel, by decide +kernel, demoWrite5.runs, by simpa using Life.write demoRun4.life demoWrite5.runs, removesOkB_ok (by decide +kernel), by decide +kernel⟩

/-- C56.  A write that rolls leaves at most `maxRolls` backups besides those it tried to remove in vain; a write that does
not leaves all files other than the current one exactly as they were. -/
theorem C56_at_most_max_backups (hmax : 0 < c.maxRolls) {d0 d d' : Disk} {tr tr' : STrace} {rw rw' : RW} {msg : Bytes} {res : Nat × Bool}
    (hl : Life umask lib c d0 tr d rw) (hw : Runs umask (c.write lib rw msg) d tr' (res, rw') d') :
    (0 < rolls tr' → ∀ hs : List Str, hs.Nodup → (∀ n ∈ hs, (∃ v, Backup lib c n v) ∧ Regular d'.dir n ∧ (⟨.remove n, false⟩ : (o : Sys) × o.Resp) ∉ tr') →
      (hs.length : Int) ≤ c.maxRolls) ∧
    (rolls tr' = 0 → ∀ n, n ≠ c.fileName → d'.dir n = d.dir n) := by
  refine ⟨fun hr hs hnd hall => write_rolled hmax (life_name hl) hw hr hnd hall, fun hr n hn => ?_⟩
  rcases write_cases (life_name hl) hw with ⟨_, h⟩ | ⟨t0, rw1, names, t1, rw2, d2, t2, _, _, _, _, ho, _, _, rfl⟩
  · exact h n hn
  · obtain ⟨tag, t5, _, h5⟩ := runs_rollOver ho
    rcases h5 with ⟨h5, _⟩ | ⟨_, _, _, _, _, _, _, rfl, _⟩
    · cases h5
    · simp [rolls_append, rolls] at hr

example : 0 < demoRCfg.maxRolls ∧ Life 0o022 demoRLib demoRCfg demoDisk0.disk demoRun4.tr demoRun4.L'.disk demoRun4.rw ∧
    Runs 0o022 (demoRCfg.write demoRLib demoRun4.rw [6]) demoRun4.L'.disk demoWrite5.tr (demoWrite5.res, demoWrite5.rw') demoWrite5.L'.disk ∧
    0 < rolls demoWrite5.tr ∧ RemovesOk demoWrite5.tr :=
  ⟨by decide, demoRun4.life, demoWrite5.runs, by rw [demoWrite5_rolls]; decide, demoWrite5_removes⟩

/-- C59.  Whatever is written, fails or dies: an entry of the directory that is not the log file and has no name like
those of its backups is not touched. -/
theorem C59_foreign_files_untouched {d0 d : Disk} {tr : STrace} {rw : RW} (hl : Life umask lib c d0 tr d rw) {n : Str} (hcur : n ≠ c.fileName)
    (hlike : ¬ LikeBackup c n) : d.dir n = d0.dir n := by
  refine life_untouched (own := fun n => n = c.fileName ∨ LikeBackup c n) (.inl rfl) ?_ ?_ hl (by simp [hcur, hlike])
  · rintro n v ⟨tag, rfl, ht⟩
    refine .inr ⟨tag, rfl, ?_⟩
    generalize c.kind = k at ht
    cases ht with
    | size h1 h2 h3 => exact ⟨v, h1, h2, h3⟩
    | time _ _ => trivial
  · intro rw tag ht
    refine .inr ⟨tag, rfl, ?_⟩
    unfold TagOf at ht
    cases hk : c.kind with
    | size max =>
      rw [hk] at ht
      obtain ⟨v, rfl⟩ := ht
      exact decimal_tag_range v
    | time pat => trivial

example : c!"other" ≠ demoRCfg.fileName ∧ ¬ LikeBackup demoRCfg c!"other" ∧ demoDisk0.disk.dir c!"other" = some (.file [5] 0o600) := by
  refine ⟨by decide, ?_, by decide⟩
  rintro ⟨tag, h, _⟩
  simp [backupName, demoRCfg] at h

/-- C60.  The name made of a tag gives back the tag; no two tags give one name; a name taken for that of a backup is
the name made of its tag; the log file is not taken for a backup. -/
theorem C60_backup_names (c : RCfg) :
    (∀ tag, c.createFullFileName c.fileName tag = backupName c.mode c.fileName tag ∧ c.hasRollName (c.createFullFileName c.fileName tag) = true ∧ c.getFileRollName (c.createFullFileName c.fileName tag) = tag) ∧
    (∀ a b, c.createFullFileName c.fileName a = c.createFullFileName c.fileName b → a = b) ∧
    (∀ n, c.hasRollName n = true → c.createFullFileName c.fileName (c.getFileRollName n) = n) ∧
    c.hasRollName c.fileName = false := by
  refine ⟨fun tag => ?_, fun a b h => ?_, fun n h => ?_, hasRollName_current c⟩
  · rw [createFull_eq]; exact ⟨rfl, hasRollName_backup c tag, getFileRollName_backup c tag⟩
  · rw [createFull_eq, createFull_eq] at h; exact backupName_inj _ _ h
  · rw [createFull_eq]; exact (backup_of_hasRollName c n h).symm

/-- C61.  The same at every moment a process dies: after a life of writes, crashes and restarts, a write cut off between
any two of its calls. -/
theorem C61_crash_consistent {max : Int} (hk : c.kind = .size max) {d0 : Disk} {hs0 : List Str} (hb : Backups lib c d0.dir hs0) {B : Int} (hB : 0 ≤ B)
    (hnum : ∀ n ∈ hs0, ∀ v, Backup lib c n v → v ≤ B) {tr tr' : STrace} {d d' : Disk} {rw : RW} {msg : Bytes}
    (hl : Life umask lib c d0 tr d rw) (hc : Stops umask (c.write lib rw msg) d tr' d')
    (hrm : RemovesOk (tr ++ tr')) (hnr : B + rolls (tr ++ tr') < 2 ^ 63) : GapFree lib c (files c d0.dir hs0) (tr ++ tr') d'.dir :=
  C54_size_rolling_gap_free hk hb hB hnum (.crash hl hc) hrm hnr

/- The process dies after the renaming: there is no current file and one backup too many. -/
example : Life 0o022 demoRLib demoRCfg demoDisk0.disk demoRun4.tr demoRun4.L'.disk demoRun4.rw ∧
    Stops 0o022 (demoRCfg.write demoRLib demoRun4.rw [6]) demoRun4.L'.disk demoStop5.tr demoStop5.L'.disk ∧
    RemovesOk (demoRun4.tr ++ demoStop5.tr) ∧ (7 : Int) + rolls (demoRun4.tr ++ demoStop5.tr) < 2 ^ 63 ∧
    demoStop5.L'.disk.dir c!"log" = none ∧ demoStop5.L'.files.map (·.1) = [c!"log.10", c!"log.9", c!"log.8", c!"other"] :=
  ⟨demoRun4.life, demoStop5.stops, removesOkB_ok (by decide +kernel), by decide +kernel, by decide +kernel, by decide +kernel⟩

end Log4g
