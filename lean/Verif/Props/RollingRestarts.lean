import Verif.Lemmas.RollRestarts
import Verif.Props.RollingWrites

/-! # Properties of rolling files over restarts -/

namespace Log4g
open Spec

variable {lib : RLib} {c : RCfg} {umask : Nat}

/-- C100, what holds.  Messages no longer than `L`, a log file shorter than `K` to begin with, whatever fails and however
often the program dies or starts anew: each new start may add one message, so the files stay below `K` plus `L` for the
first writer and for each further one, and every backup made has reached the limit. -/
theorem C100_restarts_partial {max K : Int} {L : Nat} (hk : c.kind = .size max) (hmax : 0 < max) (hK : max ≤ K) {d0 d : Disk}
    (h0 : ∀ data p, d0.dir c.fileName = some (.file data p) → (data.length : Int) < K) {ds : List Deed} {tr : STrace} {rw : RW}
    (h : LifeOf umask lib c d0 ds tr d rw) (hms : ∀ m ∈ ds, m.text.length ≤ L) :
    (∀ data p, d.dir c.fileName = some (.file data p) → (data.length : Int) < K + L * (restarts ds + 1)) ∧
    (∀ n v, Backup lib c n v → ∀ data p, d.dir n = some (.file data p) →
      d0.dir n = some (.file data p) ∨ max ≤ (data.length : Int) ∧ (data.length : Int) < K + L * (restarts ds + 1)) := by
  have hs := lifeOf_sizes hk hmax hK h0 h hms
  have e : K + (restarts ds : Int) * L + L = K + L * (restarts ds + 1) := by rw [Int.mul_add, Int.mul_comm]; omega
  exact ⟨by rw [← e]; exact hs.cur, by rw [← e]; exact hs.backs⟩

example : (∀ data p, demoDisk0.disk.dir demoRCfg.fileName = some (.file data p) → (data.length : Int) < 2) ∧
    ∃ ds tr d rw, LifeOf 0o022 demoRLib demoRCfg demoDisk0.disk ds tr d rw ∧ (∀ m ∈ ds, m.text.length ≤ 2) ∧ restarts ds = 1 ∧ 0 < rolls tr := by
  refine ⟨fun data p e => ?_, [.wrote [2, 2] 2 true, .died [3], .wrote [4] 1 true], deedA.tr ++ deedB.tr ++ deedC.tr, deedC.L'.disk, deedC.rw', ?_, by decide, by decide, ?_⟩
  · have : demoDisk0.disk.dir demoRCfg.fileName = some (.file [1] 0o600) := by decide
    rw [this] at e; cases e; decide
  · have ha : deedA.res = (2, true) := by decide +kernel
    have hc : deedC.res = (1, true) := by decide +kernel
    have h1 := deedA.runs
    have h3 := deedC.runs
    rw [ha] at h1
    rw [hc] at h3
    exact .write (.crash (.write .start h1) deedB.stops) h3
  · decide +kernel

/-- C100 fails: a program that starts anew for each message never rolls, by size or by time.  All that it writes goes to
the end of the log file, and no other file changes. -/
theorem C100_never_rolls (hmax : ∀ max, c.kind = .size max → 0 < max) {d0 d : Disk} {ds : List Deed} {tr : STrace} {rw : RW}
    (h : LifeOf umask lib c d0 ds tr d rw) (ha : alone ds) :
    rolls tr = 0 ∧ (∀ n, n ≠ c.fileName → d.dir n = d0.dir n) ∧
      ∃ ps, PiecesOf ds ps ∧ fileText d.dir c.fileName = fileText d0.dir c.fileName ++ ps.flatten :=
  lifeOf_alone hmax h ha

/-! A message, and another by a new writer. -/

def anewA : SimWrite 0o022 demoRLib demoRCfg (allWell 0) [2, 2] {} demoDisk0 := simWrite _ _ _ _ _ _ _ (by decide +kernel)
def anewB : SimWrite 0o022 demoRLib demoRCfg (allWell 1) [3] {} anewA.L' := simWrite _ _ _ _ _ _ _ (by decide +kernel)

example : LifeOf 0o022 demoRLib demoRCfg demoDisk0.disk [.wrote [2, 2] 2 true, .restarted, .wrote [3] 1 true] (anewA.tr ++ anewB.tr) anewB.L'.disk anewB.rw' ∧
    alone [.wrote [2, 2] 2 true, .restarted, .wrote [3] 1 true] ∧ fileText anewB.L'.disk.dir c!"log" = [1, 2, 2, 3] := by
  have ha : anewA.res = (2, true) := by decide +kernel
  have hb : anewB.res = (1, true) := by decide +kernel
  have h1 := anewA.runs
  have h3 := anewB.runs
  rw [ha] at h1
  rw [hb] at h3
  exact ⟨.write (.restart (.write .start h1)) h3, trivial, by decide +kernel⟩

/-- C100 fails: with a limit of two bytes and messages of one, the log file grows beyond every bound, though no call
fails. -/
theorem C100_restarts_refuted : ∃ (lib : RLib) (c : RCfg) (d0 : Disk), c.kind = .size 2 ∧ fileText d0.dir c.fileName = [] ∧
    ∀ N : Nat, ∃ (ds : List Deed) (tr : STrace) (d : Disk) (rw : RW), LifeOf 0o022 lib c d0 ds tr d rw ∧ alone ds ∧ NoneFailed tr ∧
      (∀ m ∈ ds, m.text.length ≤ 1) ∧ ∃ data p, d.dir c.fileName = some (.file data p) ∧ data.length = N := by
  refine ⟨demoRLib, demoRCfg, ({ files := [(c!"log", .file [] 0o600)] } : LDisk).disk, rfl, by decide, fun N => ?_⟩
  suffices hx : ∃ (ds : List Deed) (tr : STrace) (d : Disk), LifeOf 0o022 demoRLib demoRCfg ({ files := [(c!"log", .file [] 0o600)] } : LDisk).disk ds tr d {} ∧
      alone ds ∧ (∀ xs m n ok, ds ≠ xs ++ [.wrote m n ok]) ∧ NoneFailed tr ∧ (∀ m ∈ ds, m.text.length ≤ 1) ∧
      ∃ data p, d.dir demoRCfg.fileName = some (.file data p) ∧ data.length = N by
    obtain ⟨ds, tr, d, h1, h2, _, h3⟩ := hx
    exact ⟨ds, tr, d, _, h1, h2, h3⟩
  induction N with
  | zero => exact ⟨[], [], _, .start, trivial, by simp, (by intro x hx; cases hx), by simp, [], 0o600, by decide, rfl⟩
  | succ N ih =>
    obtain ⟨ds, tr, d, h1, h2, h3, h4, h5, data, p, h6, h7⟩ := ih
    obtain ⟨tr', rw', hr, hnf⟩ := anew_appends (umask := 0o022) (lib := demoRLib) (c := demoRCfg) (max := 2) rfl (by decide) h6 [1]
    refine ⟨ds ++ [.wrote [1] 1 true] ++ [.restarted], tr ++ tr', _, .restart (.write h1 hr), ?_, ?_, ?_, ?_, data ++ [1], p, by rw [put_dir, if_pos rfl], by simp [h7]⟩
    · exact snoc_alone (snoc_alone h2 (.inr h3)) (.inl rfl)
    · intro xs m n ok he
      have := congrArg List.getLast? he
      simp at this
    · intro x hx
      rcases List.mem_append.mp hx with hx | hx
      · exact h4 x hx
      · exact hnf x hx
    · intro m hm
      simp only [List.mem_append, List.mem_cons, List.not_mem_nil, or_false] at hm
      rcases hm with (hm | rfl) | rfl
      · exact h5 m hm
      · decide
      · decide

end Log4g
