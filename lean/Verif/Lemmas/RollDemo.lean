import Verif.Lemmas.RollSim

/-! # Sample runs of the rolling writer, for examples and counterexamples -/

namespace Log4g
open Spec

/-- Five messages, three rolls, nothing fails. -/
def demoRun : SimRun 0o022 demoRLib demoRCfg allWell [[2], [3], [4], [5, 5, 5], [6]] demoDisk0 := simRun _ _ _ _ _ _ (by decide +kernel)

/-- Four of the messages. -/
def demoRun4 : SimRun 0o022 demoRLib demoRCfg allWell [[2], [3], [4], [5, 5, 5]] demoDisk0 := simRun _ _ _ _ _ _ (by decide +kernel)

/-- The fifth. -/
def demoWrite5 : SimWrite 0o022 demoRLib demoRCfg (allWell 4) [6] demoRun4.rw demoRun4.L' := simWrite _ _ _ _ _ _ _ (by decide +kernel)

/-- The fifth, cut off in the middle of the roll: after the renaming, before the removal of the oldest backup. -/
def demoStop5 : SimStop 0o022 demoRLib demoRCfg (allWell 4) 3 [6] demoRun4.rw demoRun4.L' := simStop _ _ _ _ _ _ _ _ (by decide +kernel)

/-- The sample run but with time as the measure: the clock shows 1, 1, 2, 3, 3 at the five writes. -/
def demoTCfg : RCfg := { demoRCfg with kind := .time c!"x" }

def demoClock : Nat → Nat → Bool × Int := fun j _ => (false, if j ≤ 1 then 1 else if j = 2 then 2 else 3)

def demoTDisk0 : LDisk := { files := [(c!"log.0", .file [9] 0o444), (c!"other", .file [5] 0o600)] }

def demoTRun : SimRun 0o022 demoRLib demoTCfg demoClock [[2], [3], [4], [5, 5, 5], [6]] demoTDisk0 := simRun _ _ _ _ _ _ (by decide +kernel)

theorem demoRun_files : demoRun.L'.files = [(c!"log", .file [6] 0o600), (c!"log.10", .file [5, 5, 5] 0o500), (c!"log.9", .file [3, 4] 0o500), (c!"other", .file [5] 0o600)] := by
  decide +kernel

theorem demoRun_rolls : rolls demoRun.tr = 3 := by decide +kernel

/-- Whether no removal fails. -/
def removesOkB : STrace → Bool
  | [] => true
  | ⟨.remove _, r⟩ :: tr => r && removesOkB tr
  | _ :: tr => removesOkB tr

theorem removesOkB_ok {tr : STrace} (h : removesOkB tr = true) : RemovesOk tr := by
  induction tr with
  | nil => intro n r hm; simp at hm
  | cons x tr ih =>
    intro n r hm
    rcases List.mem_cons.mp hm with rfl | hm
    · simp only [removesOkB, Bool.and_eq_true] at h; exact h.1
    · refine ih ?_ n r hm
      obtain ⟨o, q⟩ := x
      cases o <;> simp_all [removesOkB]

theorem demoWrite5_rolls : rolls demoWrite5.tr = 1 := by decide +kernel

theorem demoWrite5_removes : RemovesOk demoWrite5.tr := removesOkB_ok (by decide +kernel)

theorem demoRun_removes : RemovesOk demoRun.tr := removesOkB_ok (by decide +kernel)

/-- Whether a call failed. -/
def failedB : (o : Sys) × o.Resp → Bool
  | ⟨.stat _, r⟩ => r.isNone
  | ⟨.write _ _, r⟩ => !r.2
  | ⟨.readdir, r⟩ => r.isNone
  | ⟨.now, _⟩ => false
  | ⟨.archRead, .failed⟩ => true
  | ⟨.archRead, _⟩ => false
  | ⟨.rollRead _, r⟩ => r.isNone
  | ⟨.mkdirAll _, r⟩ | ⟨.openAppend _ _, r⟩ | ⟨.close _, r⟩ | ⟨.rename _ _, r⟩ | ⟨.chmod _ _, r⟩ | ⟨.remove _, r⟩ => !r
  | ⟨.tmpCreate, r⟩ | ⟨.tmpEntry _ _, r⟩ | ⟨.tmpClose, r⟩ | ⟨.tmpRename _, r⟩ | ⟨.tmpRemove, r⟩ => !r

theorem failedB_iff (x : (o : Sys) × o.Resp) : failedB x = true ↔ Failed x := by
  obtain ⟨o, r⟩ := x
  cases o <;> (try simp [failedB, Failed])
  case archRead => cases r <;> simp [failedB, Failed]

theorem noneFailedB_ok {tr : STrace} (h : tr.all (fun x => !failedB x) = true) : NoneFailed tr := by
  intro x hx hf
  have := List.all_eq_true.mp h x hx
  rw [(failedB_iff x).mpr hf] at this
  cases this

/-- Whether the call is made only for an archive. -/
def forArchiveB : Sys → Bool
  | .tmpCreate | .archRead | .rollRead _ | .tmpEntry _ _ | .tmpClose | .tmpRename _ | .tmpRemove => true
  | _ => false

theorem logCallsOkB_ok {tr : STrace} (h : tr.all (fun x => forArchiveB x.1 || !failedB x) = true) : LogCallsOk tr := by
  intro x hx hna hf
  have := List.all_eq_true.mp h x hx
  rw [(failedB_iff x).mpr hf, Bool.not_true, Bool.or_false] at this
  obtain ⟨o, r⟩ := x
  cases o <;> first | (cases this; done) | exact hna trivial

/-- Whether there is a successful renaming of `a` to `b`. -/
def renamesB (a b : Str) (tr : STrace) : Bool :=
  tr.any fun x => match x with
    | ⟨.rename a' b', r⟩ => decide (a' = a) && decide (b' = b) && r
    | _ => false

theorem renamesB_ok {a b : Str} {tr : STrace} (h : renamesB a b tr = true) : (⟨.rename a b, true⟩ : (o : Sys) × o.Resp) ∈ tr := by
  obtain ⟨x, hx, h⟩ := List.any_eq_true.mp h
  split at h
  · simp only [Bool.and_eq_true, decide_eq_true_eq] at h
    obtain ⟨⟨rfl, rfl⟩, rfl⟩ := h
    exact hx
  · cases h

/-- Whether there is a failed renaming of `a` to `b`. -/
def failsRenameB (a b : Str) (tr : STrace) : Bool :=
  tr.any fun x => match x with
    | ⟨.rename a' b', r⟩ => decide (a' = a) && decide (b' = b) && !r
    | _ => false

theorem failsRenameB_ok {a b : Str} {tr : STrace} (h : failsRenameB a b tr = true) : (⟨.rename a b, false⟩ : (o : Sys) × o.Resp) ∈ tr := by
  obtain ⟨x, hx, h⟩ := List.any_eq_true.mp h
  split at h
  · rename_i a' b' r
    simp only [Bool.and_eq_true, decide_eq_true_eq, Bool.not_eq_true'] at h
    obtain ⟨⟨rfl, rfl⟩, hr⟩ := h
    subst hr
    exact hx
  · cases h

/-- Whether a name is that of a backup. -/
def isBackup (lib : RLib) (c : RCfg) (n : Str) : Bool := c.hasRollName n && c.isFileRollNameValid lib (c.getFileRollName n)

theorem isBackup_iff (lib : RLib) (c : RCfg) (n : Str) : isBackup lib c n = true ↔ ∃ v, Backup lib c n v := by
  rw [isBackup, Bool.and_eq_true, valid_iff]
  constructor
  · rintro ⟨h, v, hv⟩; exact ⟨v, (backup_iff lib c n v).mpr ⟨h, hv⟩⟩
  · rintro ⟨v, hv⟩
    obtain ⟨h, hv⟩ := (backup_iff lib c n v).mp hv
    exact ⟨h, v, hv⟩

/-- Whether `hs` are the backups. -/
def backupsB (lib : RLib) (c : RCfg) (L : LDisk) (hs : List Str) : Bool :=
  hs.all (fun n => isBackup lib c n && match L.files.get n with | some (.file _ _) => true | _ => false) &&
  L.files.all (fun x => !isBackup lib c x.1 || match x.2 with | .file _ _ => decide (x.1 ∈ hs) | .dir => true) &&
  decide (hs.Pairwise fun a b => c.key lib (c.getFileRollName a) < c.key lib (c.getFileRollName b))

theorem backupsB_ok {lib : RLib} {c : RCfg} {L : LDisk} {hs : List Str} (h : backupsB lib c L hs = true) : Backups lib c L.disk.dir hs := by
  simp only [backupsB, Bool.and_eq_true, List.all_eq_true, decide_eq_true_eq] at h
  obtain ⟨⟨h1, h2⟩, h3⟩ := h
  refine ⟨fun n => ⟨fun hn => ?_, ?_⟩, ?_⟩
  · obtain ⟨ha, hb⟩ := h1 n hn
    refine ⟨(isBackup_iff lib c n).mp ha, ?_⟩
    split at hb
    · rename_i d p e; exact ⟨d, p, e⟩
    · cases hb
  · rintro ⟨hv, data, p, e⟩
    have hb := (isBackup_iff lib c n).mpr hv
    have := h2 (n, .file data p) (by
      have := Map.mem_of_get (k := n) (v := .file data p) (m := L.files) e
      exact this)
    simpa [hb] using this
  · refine h3.imp ?_
    intro a b hab v w hv hw
    rw [backup_key hv, backup_key hw] at hab
    exact hab

theorem demoDisk0_backups : Backups demoRLib demoRCfg demoDisk0.disk.dir [c!"log.7"] := backupsB_ok (by decide +kernel)

end Log4g
