import Verif.Lemmas.RollFaults
import Verif.Lemmas.RollDemo

/-! # What failures do to the rolling writers -/

namespace Log4g
open Spec Strconv

variable {lib : RLib} {c : RCfg} {umask : Nat}

theorem oneFailedB_ok {tr : STrace} (h : (tr.filter failedB).length = 1) : OneFailed tr := by
  induction tr with
  | nil => cases h
  | cons x xs ih =>
    cases hx : failedB x with
    | true =>
      rw [List.filter_cons_of_pos hx] at h
      simp only [List.length_cons, Nat.add_eq_right, List.length_eq_zero_iff, List.filter_eq_nil_iff] at h
      exact ⟨[], x, xs, rfl, fun y hy => (by cases hy), (failedB_iff x).mp hx, fun y hy hf => h y hy ((failedB_iff y).mpr hf)⟩
    | false =>
      rw [List.filter_cons_of_neg (by simp [hx])] at h
      obtain ⟨a, y, b, rfl, h1, h2, h3⟩ := ih h
      refine ⟨x :: a, y, b, rfl, ?_, h2, h3⟩
      intro z hz hf
      rcases List.mem_cons.mp hz with rfl | hz
      · rw [(failedB_iff z).mpr hf] at hx; cases hx
      · exact h1 z hz hf

theorem lost_later {max : Int} (hk : c.kind = .size max) {rw rw' : RW} {d d' : Disk} {ms : List Bytes} {tr : STrace} {rs : List (Nat × Bool)} (hl : Lost max rw)
    (h : Later umask lib c d rw ms tr rs d' rw') : (∀ r ∈ rs, r = (0, false)) ∧ Lost max rw' ∧ d' = d := by
  induction h with
  | start => exact ⟨by simp, hl, rfl⟩
  | write _ hr ih =>
    obtain ⟨_, rfl, rfl, rfl⟩ := lost_write hk ih.2.1 hr
    refine ⟨fun r h => ?_, ih.2⟩
    rcases List.mem_append.mp h with h | h
    · exact ih.1 r h
    · simpa using h

theorem dead_later {rw rw' : RW} {d d' : Disk} {ms : List Bytes} {tr : STrace} {rs : List (Nat × Bool)} (hl : rw.file = some .dead)
    (h : Later umask lib c d rw ms tr rs d' rw') : (∀ r ∈ rs, r = (0, false)) ∧ rw'.file = some .dead ∧ d' = d := by
  induction h with
  | start => exact ⟨by simp, hl, rfl⟩
  | write _ hr ih =>
    obtain ⟨rfl, h2, rfl⟩ := dead_write ih.2.1 hr
    refine ⟨fun r h => ?_, h2, ih.2.2⟩
    rcases List.mem_append.mp h with h | h
    · exact ih.1 r h
    · simpa using h

/-- Call `i` of write `j` (from 0) fails. -/
def failAt (j i : Nat) : Nat → Nat → Bool × Int := fun j' i' => (decide (j' = j ∧ i' = i), 0)

/-- Reading the directory for the first roll fails. -/
def noDirRun : SimRun 0o022 demoRLib demoRCfg (failAt 1 1) [[2], [3]] demoDisk0 := simRun _ _ _ _ _ _ (by decide +kernel)

/-- C62 fails for size rolling: when reading the directory fails once, every later write fails, though no other call
does. -/
theorem C62_size_transient_refuted : ∃ (lib : RLib) (c : RCfg) (max : Int) (d0 d : Disk) (tr : STrace) (rw : RW) (ms : List Bytes), c.kind = .size max ∧ 0 < max ∧
    Session 0o022 lib c d0 ms tr d rw ∧ OneFailed tr ∧
    ∀ ms' tr' rs d' rw', Later 0o022 lib c d rw ms' tr' rs d' rw' → (∀ r ∈ rs, r = (0, false)) ∧ d' = d := by
  refine ⟨demoRLib, demoRCfg, 2, demoDisk0.disk, noDirRun.L'.disk, noDirRun.tr, noDirRun.rw, [[2], [3]], rfl, by decide, noDirRun.session, oneFailedB_ok (by decide +kernel), ?_⟩
  intro ms' tr' rs d' rw' h
  have := lost_later (max := 2) rfl (show Lost 2 noDirRun.rw from ⟨by decide +kernel, by decide +kernel⟩) h
  exact ⟨this.1, this.2.2⟩

/-- In a later period, closing the file fails. -/
def noCloseRun : SimRun 0o022 demoRLib demoTCfg (fun j i => (decide (j = 1 ∧ i = 1), (j : Int))) [[2], [3]] demoTDisk0 := simRun _ _ _ _ _ _ (by decide +kernel)

/-- C62 fails for time rolling: when closing the file fails once, every later write fails, though no other call does. -/
theorem C62_time_transient_refuted : ∃ (lib : RLib) (c : RCfg) (pat : Str) (d0 d : Disk) (tr : STrace) (rw : RW) (ms : List Bytes), c.kind = .time pat ∧
    Session 0o022 lib c d0 ms tr d rw ∧ OneFailed tr ∧
    ∀ ms' tr' rs d' rw', Later 0o022 lib c d rw ms' tr' rs d' rw' → (∀ r ∈ rs, r = (0, false)) ∧ d' = d := by
  refine ⟨demoRLib, demoTCfg, c!"x", demoTDisk0.disk, noCloseRun.L'.disk, noCloseRun.tr, noCloseRun.rw, [[2], [3]], rfl, noCloseRun.session, oneFailedB_ok (by decide +kernel), ?_⟩
  intro ms' tr' rs d' rw' h
  have := dead_later (show noCloseRun.rw.file = some .dead by decide +kernel) h
  exact ⟨this.1, this.2.2⟩

theorem nofile_later {pat : Str} (hk : c.kind = .time pat) {rw rw' : RW} {d d' : Disk} {ms : List Bytes} {tr : STrace} {rs : List (Nat × Bool)} (hf : rw.file = none) (hn : rw.timeName ≠ [])
    (h : Later umask lib c d rw ms tr rs d' rw') (hcl : ∀ t ∈ clocks tr, lib.format t pat ≠ rw.timeName) : (∀ r ∈ rs, r = (0, false)) ∧ rw' = rw ∧ d' = d := by
  induction h with
  | start => exact ⟨by simp, rfl, rfl⟩
  | @write ms tr rs d1 rw1 m tr' res rw2 d2 _ hr ih =>
    rw [clocks_append] at hcl
    obtain ⟨h1, rfl, rfl⟩ := ih fun t ht => hcl t (by simp [ht])
    obtain ⟨t1, b, rw3, d3, t2, rw4, d4, k1, k2⟩ := runs_write hr
    obtain ⟨rfl, k3⟩ := runs_needsToRoll k1
    rcases k3 with ⟨_, hk', _⟩ | ⟨pat', t, hk', rfl, k3⟩
    · rw [hk] at hk'; cases hk'
    · rw [hk] at hk'; cases hk'
      rcases k3 with ⟨h, _⟩ | ⟨_, hb, rfl⟩
      · exact absurd h hn
      · have ht : lib.format t pat ≠ rw3.timeName := by
          rcases k2 with ⟨_, _, rfl, _⟩ | ⟨_, _, _, rfl⟩ <;> exact hcl t (by simp [clocks, clocks_append])
        have hb : b = true := by rw [hb]; simpa using ht
        rcases k2 with ⟨_, hroll, _, rfl, rfl, rfl⟩ | ⟨⟨_, hroll⟩ | ⟨hb', _⟩, _⟩
        · rcases runs_roll hroll with ⟨_, rfl, ⟨_, _, rfl⟩ | ⟨h3, _⟩ | ⟨h3, _⟩⟩ | ⟨h3, _⟩
          · refine ⟨fun r h => ?_, rfl, rfl⟩
            rcases List.mem_append.mp h with h | h
            · exact h1 r h
            · simpa using h
          all_goals rw [hf] at h3; cases h3
        · rcases runs_roll hroll with ⟨h3, _⟩ | ⟨h3, _⟩
          · cases h3
          · rw [hf] at h3; cases h3
        · rw [hb] at hb'; cases hb'

/-- In the first period, opening the file fails. -/
def noOpenRun : SimRun 0o022 demoRLib demoTCfg (fun _ i => (decide (i = 2), 1)) [[2]] demoTDisk0 := simRun _ _ _ _ _ _ (by decide +kernel)

/-- C62 also fails for time rolling in another way: when opening the file fails once and nothing is written until the
period is over, every later write fails. -/
theorem C62_time_open_refuted : ∃ (lib : RLib) (c : RCfg) (pat : Str) (d0 d : Disk) (tr : STrace) (rw : RW) (ms : List Bytes), c.kind = .time pat ∧
    Session 0o022 lib c d0 ms tr d rw ∧ OneFailed tr ∧ (∃ n p, (⟨.openAppend n p, false⟩ : (o : Sys) × o.Resp) ∈ tr) ∧ clocks tr = [1] ∧
    ∀ ms' tr' rs d' rw', Later 0o022 lib c d rw ms' tr' rs d' rw' → (∀ t ∈ clocks tr', 1 < t) → (∀ r ∈ rs, r = (0, false)) ∧ d' = d := by
  refine ⟨demoRLib, demoTCfg, c!"x", demoTDisk0.disk, noOpenRun.L'.disk, noOpenRun.tr, noOpenRun.rw, [[2]], rfl, noOpenRun.session, oneFailedB_ok (by decide +kernel),
    ⟨c!"log", _, List.mem_of_getElem? (i := 2) rfl⟩, by decide +kernel, ?_⟩
  intro ms' tr' rs d' rw' h hcl
  have := nofile_later (c := demoTCfg) rfl (show noOpenRun.rw.file = none by decide +kernel) (show noOpenRun.rw.timeName ≠ [] by decide +kernel) h fun t ht he => by
    have h1 : noOpenRun.rw.timeName = itoa 1 := by decide +kernel
    rw [h1] at he
    have he : itoa t = itoa 1 := he
    have := decimal_unique (decimal_itoa t) (by rw [he]; exact decimal_itoa 1)
    have := hcl t ht
    omega
  exact ⟨this.1, this.2.2⟩

/-- C62, what holds for size rolling, exactly: when a write failed that had begun to roll and had not come to hand over
its message, all later writes fail; otherwise the next write succeeds if no call fails, except perhaps for archives. -/
theorem C62_size_transient_partial {max : Int} (hk : c.kind = .size max) (hmax : 0 < max) {d0 d : Disk} {ws : List (STrace × (Nat × Bool))} {rw : RW}
    (h : Tries umask lib c d0 ws d rw) :
    ((∃ w ∈ ws, w.2.2 = false ∧ BeganRoll w.1 ∧ ¬ HandedOver w.1) → ∀ ms tr rs d' rw', Later umask lib c d rw ms tr rs d' rw' → (∀ r ∈ rs, r = (0, false)) ∧ d' = d) ∧
    (¬ (∃ w ∈ ws, w.2.2 = false ∧ BeganRoll w.1 ∧ ¬ HandedOver w.1) → ∀ m tr res rw' d', Runs umask (c.write lib rw m) d tr (res, rw') d' → LogCallsOk tr →
      res = (m.length, true)) := by
  have key : (∃ w ∈ ws, w.2.2 = false ∧ BeganRoll w.1 ∧ ¬ HandedOver w.1) ∧ Lost max rw ∨ ¬ (∃ w ∈ ws, w.2.2 = false ∧ BeganRoll w.1 ∧ ¬ HandedOver w.1) ∧ Healthy max rw := by
    induction h with
    | start => exact .inr ⟨by simp, .inr ⟨rfl, hmax⟩⟩
    | @write ws d rw m tr res rw' d' _ hr ih =>
      rcases ih with ⟨⟨w, hw, h1⟩, hl⟩ | ⟨hno, hh⟩
      · obtain ⟨_, _, rfl, _⟩ := lost_write hk hl hr
        exact .inl ⟨⟨w, by simp [hw], h1⟩, hl⟩
      · rcases size_state hk hh hr with ⟨h1, h2, h3, h4⟩ | ⟨h1, h2⟩
        · exact .inl ⟨⟨(tr, res), by simp, h1, h2, h3⟩, h4⟩
        · refine .inr ⟨?_, h2⟩
          rintro ⟨w, hw, g1, g2, g3⟩
          rcases List.mem_append.mp hw with hw | hw
          · exact hno ⟨w, hw, g1, g2, g3⟩
          · simp only [List.mem_singleton] at hw
            subst hw
            rcases h1 with h1 | h1 | h1
            · rw [h1] at g1; cases g1
            · exact h1 g2
            · exact g3 h1
  refine ⟨fun hx ms tr rs d' rw' hl => ?_, fun hx m tr res rw' d' hr hnf => ?_⟩
  · rcases key with ⟨_, hl'⟩ | ⟨hno, _⟩
    · have := lost_later hk hl' hl
      exact ⟨this.1, this.2.2⟩
    · exact absurd hx hno
  · rcases key with ⟨h1, _⟩ | ⟨_, hh⟩
    · exact absurd h1 hx
    · have hdead : rw.file ≠ some .dead := by rcases hh with h | ⟨h, _⟩ <;> rw [h] <;> simp
      have hok : res.2 = true := by
        refine write_ok hdead (fun t1 rw1 _ hn => ?_) hr hnf
        obtain ⟨_, k3⟩ := runs_needsToRoll hn
        rcases k3 with ⟨max', hk', _, _, hb⟩ | ⟨_, _, hk', _⟩
        · rw [hk] at hk'; cases hk'
          rcases hh with h | ⟨_, h⟩
          · exact h
          · simp at hb; omega
        · rw [hk] at hk'; cases hk'
      obtain ⟨n, ok⟩ := res
      rcases write_chunks hr with ⟨_, _, rfl⟩ | ⟨_, _, hn⟩
      · cases hok
      · cases hok; rw [hn rfl]

/-- Opening the file fails; then all is well again. -/
def faultW1 : SimWrite 0o022 demoRLib demoRCfg (fun i => (decide (i = 1), 0)) [2] {} demoDisk0 := simWrite _ _ _ _ _ _ _ (by decide +kernel)
def faultW2 : SimWrite 0o022 demoRLib demoRCfg (allWell 0) [2] faultW1.rw' faultW1.L' := simWrite _ _ _ _ _ _ _ (by decide +kernel)

example : Tries 0o022 demoRLib demoRCfg demoDisk0.disk [(faultW1.tr, faultW1.res)] faultW1.L'.disk faultW1.rw' ∧ faultW1.res = (0, false) ∧ ¬ BeganRoll faultW1.tr ∧
    Runs 0o022 (demoRCfg.write demoRLib faultW1.rw' [2]) faultW1.L'.disk faultW2.tr (faultW2.res, faultW2.rw') faultW2.L'.disk ∧ LogCallsOk faultW2.tr ∧ faultW2.res = (1, true) :=
  ⟨.write .start faultW1.runs, by decide +kernel, fun h => h, faultW2.runs, logCallsOk_of (noneFailedB_ok (by decide +kernel)), by decide +kernel⟩

/-- C62, what holds for time rolling: as long as no write failed for other reasons than a failing call, and none because
a file could not be closed or the directory not be read, the next write succeeds if no call fails (except perhaps for archives) and it is the first, or
the one before handed over its message, or the period is still that of the last look at the clock. -/
theorem C62_time_transient_partial {pat : Str} (hk : c.kind = .time pat) {d0 d : Disk} {ws : List (STrace × (Nat × Bool))} {rw : RW}
    (h : Tries umask lib c d0 ws d rw) (hcr : ∀ w ∈ ws, (∀ n, (⟨.close n, false⟩ : (o : Sys) × o.Resp) ∉ w.1) ∧ (⟨.readdir, none⟩ : (o : Sys) × o.Resp) ∉ w.1)
    (hf : ∀ w ∈ ws, w.2.2 = true ∨ ∃ x ∈ w.1, Failed x) {m : Bytes} {tr : STrace} {res : Nat × Bool} {rw' : RW} {d' : Disk}
    (hr : Runs umask (c.write lib rw m) d tr (res, rw') d') (hnf : LogCallsOk tr)
    (hlast : ∀ w, ws.getLast? = some w → HandedOver w.1 ∨
      ∀ t t', (clocks w.1).getLast? = some t → (clocks tr).head? = some t' → lib.format t' pat = lib.format t pat) : res = (m.length, true) := by
  have key : rw.file ≠ some .dead ∧ (ws = [] ∧ rw = {} ∨ ∃ w, ws.getLast? = some w ∧ (HandedOver w.1 → rw.file = some .opened) ∧
      ∃ t, (clocks w.1).getLast? = some t ∧ rw.timeName = lib.format t pat) := by
    clear hr hlast hnf
    induction h with
    | start => exact ⟨by simp, .inl ⟨rfl, rfl⟩⟩
    | @write ws d rw m tr res rw' d' _ hr ih =>
      have ih := ih (fun w hw => hcr w (by simp [hw])) (fun w hw => hf w (by simp [hw]))
      obtain ⟨h1, h2, h3⟩ := time_state hk ih.1 hr (hcr (tr, res) (by simp)) (hf (tr, res) (by simp))
      exact ⟨h1, .inr ⟨(tr, res), by simp, h2, h3⟩⟩
  have hok : res.2 = true := by
    refine write_ok key.1 (fun t1 rw1 hp hn => ?_) hr hnf
    obtain ⟨_, k3⟩ := runs_needsToRoll hn
    rcases k3 with ⟨_, hk', _⟩ | ⟨pat', t, hk', rfl, k3⟩
    · rw [hk] at hk'; cases hk'
    · rw [hk] at hk'; cases hk'
      rcases k3 with ⟨_, h, _⟩ | ⟨hne, hb, _⟩
      · cases h
      · have hb : lib.format t pat ≠ rw.timeName := by simpa using hb.symm
        rcases key.2 with ⟨_, rfl⟩ | ⟨w, hw, hh, t0, ht0, hn0⟩
        · exact absurd rfl hne
        · rcases hlast w hw with h | h
          · exact hh h
          · obtain ⟨u, rfl⟩ := hp
            exact absurd (by rw [hn0]; exact h t0 t ht0 rfl) hb
  obtain ⟨n, ok⟩ := res
  rcases write_chunks hr with ⟨_, _, rfl⟩ | ⟨_, _, hn⟩
  · cases hok
  · cases hok; rw [hn rfl]

/-- The renaming fails; the next write is in the same period. -/
def faultT1 : SimWrite 0o022 demoRLib demoTCfg (fun _ => (false, 1)) [2] {} demoTDisk0 := simWrite _ _ _ _ _ _ _ (by decide +kernel)
def faultT2 : SimWrite 0o022 demoRLib demoTCfg (fun i => (decide (i = 4), 2)) [3] faultT1.rw' faultT1.L' := simWrite _ _ _ _ _ _ _ (by decide +kernel)
def faultT3 : SimWrite 0o022 demoRLib demoTCfg (fun _ => (false, 2)) [4] faultT2.rw' faultT2.L' := simWrite _ _ _ _ _ _ _ (by decide +kernel)

example : Tries 0o022 demoRLib demoTCfg demoTDisk0.disk [(faultT1.tr, faultT1.res), (faultT2.tr, faultT2.res)] faultT2.L'.disk faultT2.rw' ∧ faultT2.res = (0, false) ∧
    clocks faultT2.tr = [2, 2] ∧ (⟨.rename c!"log" c!"log.1", false⟩ : (o : Sys) × o.Resp) ∈ faultT2.tr ∧
    Runs 0o022 (demoTCfg.write demoRLib faultT2.rw' [4]) faultT2.L'.disk faultT3.tr (faultT3.res, faultT3.rw') faultT3.L'.disk ∧ LogCallsOk faultT3.tr ∧ clocks faultT3.tr = [2] ∧
    faultT3.res = (1, true) :=
  ⟨.write (.write .start faultT1.runs) faultT2.runs, by decide +kernel, by decide +kernel, failsRenameB_ok (by decide +kernel), faultT3.runs, logCallsOk_of (noneFailedB_ok (by decide +kernel)), by decide +kernel,
    by decide +kernel⟩

/-- C62, what holds for time rolling, the rest: whatever failed before, when the last write handed over its message the
next one succeeds if no call fails (except perhaps for archives); when it did not, and the clock shows only periods it has not shown
before, all later writes fail, whatever the calls do. -/
theorem C62_time_next_partial {pat : Str} (hk : c.kind = .time pat) {d0 d : Disk} {ws : List (STrace × (Nat × Bool))} {rw : RW}
    (h : Tries umask lib c d0 ws d rw) {w : STrace × (Nat × Bool)} (hw : ws.getLast? = some w) :
    (HandedOver w.1 → ∀ m tr res rw' d', Runs umask (c.write lib rw m) d tr (res, rw') d' → LogCallsOk tr → res = (m.length, true)) ∧
    (¬ HandedOver w.1 → (∀ v ∈ ws, ∀ t ∈ clocks v.1, lib.format t pat ≠ []) → ∀ ms tr rs d' rw', Later umask lib c d rw ms tr rs d' rw' →
      (∀ t' ∈ clocks tr, ∀ v ∈ ws, ∀ t ∈ clocks v.1, lib.format t' pat ≠ lib.format t pat) → (∀ r ∈ rs, r = (0, false)) ∧ d' = d) := by
  rcases time_after hk h with ⟨rfl, _⟩ | ⟨w', hw', ho, v, hv, t, ht, hn⟩
  · cases hw
  · rw [hw] at hw'; cases hw'
    refine ⟨fun hh m tr res rw' d' hr hnf => ?_, fun hh hne ms tr rs d' rw' hl hcl => ?_⟩
    · have hop := ho.mp hh
      have hok : res.2 = true := write_ok (by rw [hop]; simp) (fun _ _ _ _ => hop) hr hnf
      obtain ⟨n, ok⟩ := res
      rcases write_chunks hr with ⟨_, _, rfl⟩ | ⟨_, _, hn⟩
      · cases hok
      · cases hok; rw [hn rfl]
    · cases hf : rw.file with
      | none =>
        have := nofile_later hk hf (by rw [hn]; exact hne v hv t ht) hl fun t' ht' => by rw [hn]; exact hcl t' ht' v hv t ht
        exact ⟨this.1, this.2.2⟩
      | some f =>
        cases f with
        | opened => exact absurd (ho.mpr hf) hh
        | dead => have := dead_later hf hl; exact ⟨this.1, this.2.2⟩

/-- Opening the file fails; the next write is in the next period. -/
def faultT4 : SimWrite 0o022 demoRLib demoTCfg (fun i => (decide (i = 2), 1)) [2] {} demoTDisk0 := simWrite _ _ _ _ _ _ _ (by decide +kernel)
def faultT5 : SimWrite 0o022 demoRLib demoTCfg (fun _ => (false, 2)) [3] faultT4.rw' faultT4.L' := simWrite _ _ _ _ _ _ _ (by decide +kernel)

def handedB (tr : STrace) : Bool := tr.any fun | ⟨.write _ _, _⟩ => true | _ => false

theorem handedB_iff {tr : STrace} : handedB tr = true ↔ HandedOver tr := by
  simp only [handedB, List.any_eq_true, HandedOver]
  constructor
  · rintro ⟨⟨o, r⟩, hm, h⟩
    cases o <;> first | exact ⟨_, _, _, hm⟩ | cases h
  · rintro ⟨n, bs, r, hm⟩
    exact ⟨_, hm, rfl⟩

example : Tries 0o022 demoRLib demoTCfg demoTDisk0.disk [(faultT4.tr, faultT4.res)] faultT4.L'.disk faultT4.rw' ∧ ¬ HandedOver faultT4.tr ∧ clocks faultT4.tr = [1] ∧
    Later 0o022 demoRLib demoTCfg faultT4.L'.disk faultT4.rw' [[3]] ([] ++ faultT5.tr) [faultT5.res] faultT5.L'.disk faultT5.rw' ∧ clocks faultT5.tr = [2] ∧ demoRLib.format 1 c!"x" ≠ [] ∧
    demoRLib.format 2 c!"x" ≠ demoRLib.format 1 c!"x" ∧ (∀ x ∈ faultT5.tr, ¬ Failed x) ∧ faultT5.res = (0, false) :=
  ⟨.write .start faultT4.runs, fun h => by have := handedB_iff.mpr h; revert this; decide +kernel, by decide +kernel, .write .start faultT5.runs, by decide +kernel, by decide +kernel, by decide +kernel,
    noneFailedB_ok (by decide +kernel), by decide +kernel⟩

example : Tries 0o022 demoRLib demoTCfg demoTDisk0.disk [(faultT1.tr, faultT1.res)] faultT1.L'.disk faultT1.rw' ∧ HandedOver faultT1.tr :=
  ⟨.write .start faultT1.runs, handedB_iff.mp (by decide +kernel)⟩

end Log4g
