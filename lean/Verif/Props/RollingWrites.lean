import Verif.Lemmas.RollWrites
import Verif.Props.RollingTime

/-! # Rolling files, in terms of what the program writes and is told -/

namespace Log4g
open Spec

variable {lib : RLib} {c : RCfg} {umask : Nat}

/-- C54 and C61.  Whatever a program writes, however often it dies or starts anew, whatever fails but removals: the
directory holds a gap-free final part of what was there and of what it wrote: of each message as many bytes as it was
told, so all of every message whose write succeeded, and of each message during which it died some first bytes. -/
theorem C54_messages {max : Int} (hk : c.kind = .size max) {d0 : Disk} {hs0 : List Str} (hb : Backups lib c d0.dir hs0) {B : Int} (hB : 0 ≤ B)
    (hnum : ∀ n ∈ hs0, ∀ v, Backup lib c n v → v ≤ B) {ds : List Deed} {tr : STrace} {d : Disk} {rw : RW} (hl : LifeOf umask lib c d0 ds tr d rw)
    (hrm : RemovesOk tr) (hnr : B + rolls tr < 2 ^ 63) : ∃ ps, PiecesOf ds ps ∧ KeepsLog lib c (files c d0.dir hs0) ps d.dir :=
  gapFree_keeps hl (C54_size_rolling_gap_free hk hb hB hnum (lifeOf_life hl) hrm hnr)

/-- C67, what holds, likewise. -/
theorem C67_messages_partial {pat : Str} (hk : c.kind = .time pat) {start : Int → Int} {T0 T1 : Int} (hp : Periods lib pat start T0 T1) {d0 : Disk}
    {hs0 : List Str} (hb : Backups lib c d0.dir hs0) (hold : ∀ n ∈ hs0, ∀ v, Backup lib c n v → v < start T0) {ds : List Deed} {tr : STrace} {d : Disk} {rw : RW}
    (hl : LifeOf umask lib c d0 ds tr d rw) (hrm : RemovesOk tr) (hclock : (clocks tr).Pairwise (· ≤ ·)) (hT : ∀ t ∈ clocks tr, T0 ≤ t ∧ t ≤ T1) :
    ∃ ps, PiecesOf ds ps ∧ KeepsLog lib c (files c d0.dir hs0) ps d.dir :=
  gapFree_keeps hl (C67_time_rolling_gap_free_partial hk hp hb hold (lifeOf_life hl) hrm hclock hT)

/-! A program that writes a message, dies while writing a second, starts anew and writes a third. -/

def deedA : SimWrite 0o022 demoRLib demoRCfg (allWell 0) [2, 2] {} demoDisk0 := simWrite _ _ _ _ _ _ _ (by decide +kernel)
def deedB : SimStop 0o022 demoRLib demoRCfg (allWell 1) 3 [3] deedA.rw' deedA.L' := simStop _ _ _ _ _ _ _ _ (by decide +kernel)
def deedC : SimWrite 0o022 demoRLib demoRCfg (allWell 2) [4] {} deedB.L' := simWrite _ _ _ _ _ _ _ (by decide +kernel)

example : LifeOf 0o022 demoRLib demoRCfg demoDisk0.disk [.wrote [2, 2] 2 true, .died [3], .wrote [4] 1 true] (deedA.tr ++ deedB.tr ++ deedC.tr) deedC.L'.disk deedC.rw' ∧
    RemovesOk (deedA.tr ++ deedB.tr ++ deedC.tr) ∧ (7 : Int) + rolls (deedA.tr ++ deedB.tr ++ deedC.tr) < 2 ^ 63 ∧ 0 < rolls (deedA.tr ++ deedB.tr ++ deedC.tr) := by
  have ha : deedA.res = (2, true) := by decide +kernel
  have hc : deedC.res = (1, true) := by decide +kernel
  have h1 := deedA.runs
  have h3 := deedC.runs
  rw [ha] at h1
  rw [hc] at h3
  exact ⟨.write (.crash (.write .start h1) deedB.stops) h3, removesOkB_ok (by decide +kernel), by decide +kernel, by decide +kernel⟩

end Log4g
