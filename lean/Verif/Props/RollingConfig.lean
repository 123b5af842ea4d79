import Verif.Lemmas.RollKeep
import Verif.Lemmas.RollDemo
import Verif.Props.RollingFaults
import Verif.Props.Rolling
import Verif.Props.Numbers

/-! # Rolling outputs as they are configured -/

namespace Log4g
open Spec Strconv

variable {lib : RLib} {c : RCfg} {umask : Nat}

/-- What a configuration gives: by its type. -/
theorem rollingWriter_kind {tc : Toolchain} {cfg : CfgMap} (h : newRollingWriter tc cfg = some c) :
    (cfg.at c!"type" = c!"size_rolling_file" ∧ c.kind = .size (getMaxSize (cfg.at c!"size"))) ∨ (cfg.at c!"type" = c!"time_rolling_file" ∧ c.kind = .time (cfg.at c!"pattern")) := by
  simp only [newRollingWriter] at h
  split at h
  · rename_i ht; cases h; exact .inl ⟨ht, rfl⟩
  · split at h
    · rename_i ht; cases h; exact .inr ⟨ht, rfl⟩
    · cases h

/-- The ranges of what a configuration gives. -/
theorem rollingWriter_ranges {tc : Toolchain} {cfg : CfgMap} (h : newRollingWriter tc cfg = some c) :
    (1 ≤ c.maxRolls ∧ c.maxRolls ≤ 20) ∧ (1 ≤ c.dirPerm ∧ c.dirPerm ≤ 0o777) ∧ (1 ≤ c.filePerm ∧ c.filePerm ≤ 0o777) ∧ (1 ≤ c.backPerm ∧ c.backPerm ≤ 0o777) := by
  have hr : ∀ s, 1 ≤ getMaxRolls s ∧ getMaxRolls s ≤ 20 := fun s => by
    simp only [getMaxRolls, clampInt]
    split <;> split <;> omega
  have hp : ∀ s dflt, 1 ≤ dflt ∧ dflt ≤ 0o777 → 1 ≤ getFileMode tc s dflt ∧ getFileMode tc s dflt ≤ 0o777 := fun s dflt hd => (C29_file_mode tc s dflt hd).1
  simp only [newRollingWriter] at h
  split at h
  · cases h; exact ⟨hr _, hp _ _ (by decide), hp _ _ (by decide), hp _ _ (by decide)⟩
  · split at h
    · cases h; exact ⟨hr _, hp _ _ (by decide), hp _ _ (by decide), hp _ _ (by decide)⟩
    · cases h

/-- What a permission option gives: the mode it denotes as a Go integer literal if that is one between 1 and 0777,
and else the default. -/
def Spec.Chosen (tc : Toolchain) (s : Str) (dflt mode : Nat) : Prop :=
  (∃ n, GoNat (tc = .since113) s n ∧ 1 ≤ n ∧ n ≤ 0o777 ∧ mode = n) ∨ ((∀ n, GoNat (tc = .since113) s n → n = 0 ∨ 0o777 < n) ∧ mode = dflt)

/-- C29, where the modes go: a rolling output makes its log file with what `file_perm` says and otherwise 0600, its
directory with what `dir_perm` says and otherwise 0760, and gives backups what `back_perm` says and otherwise 0500. -/
theorem C29_rolling {tc : Toolchain} {cfg : CfgMap} (h : newRollingWriter tc cfg = some c) :
    Chosen tc (cfg.at c!"file_perm") 0o600 c.filePerm ∧ Chosen tc (cfg.at c!"dir_perm") 0o760 c.dirPerm ∧ Chosen tc (cfg.at c!"back_perm") 0o500 c.backPerm := by
  have hp : ∀ s dflt, 1 ≤ dflt ∧ dflt ≤ 0o777 → Chosen tc s dflt (getFileMode tc s dflt) := fun s dflt hd => by
    obtain ⟨-, h1, h2⟩ := C29_file_mode tc s dflt hd
    rcases Classical.em (∃ n, GoNat (tc = .since113) s n ∧ 1 ≤ n ∧ n ≤ 0o777) with ⟨n, hn, ha, hb⟩ | hno
    · exact .inl ⟨n, hn, ha, hb, h1 n hn ha hb⟩
    · have : ∀ n, GoNat (tc = .since113) s n → n = 0 ∨ 0o777 < n := fun n hn => by
        rcases Nat.lt_or_ge 0o777 n with h | h
        · exact .inr h
        · rcases Nat.eq_zero_or_pos n with h' | h'
          · exact .inl h'
          · exact absurd ⟨n, hn, h', h⟩ hno
      exact .inr ⟨this, h2 this⟩
  simp only [newRollingWriter] at h
  split at h
  · cases h; exact ⟨hp _ _ (by decide), hp _ _ (by decide), hp _ _ (by decide)⟩
  · split at h
    · cases h; exact ⟨hp _ _ (by decide), hp _ _ (by decide), hp _ _ (by decide)⟩
    · cases h

/-- Both cases occur in one configuration: the mode of backups is given, the other two are not. -/
example : ∃ c, newRollingWriter .since113 (some [(c!"type", c!"size_rolling_file"), (c!"file", c!"log"), (c!"back_perm", c!"0444")]) = some c ∧
    c.filePerm = 0o600 ∧ c.dirPerm = 0o760 ∧ c.backPerm = 0o444 := by
  refine ⟨_, rfl, ?_, ?_, ?_⟩ <;> decide +kernel

/-- C78 fails: with size "99999999999999999999K", nothing is ever written, and no operation of the system is even
tried. -/
theorem C78_writes_succeed_refuted : ∃ cfg : CfgMap, cfg.at c!"type" = c!"size_rolling_file" ∧ cfg.at c!"size" = c!"99999999999999999999K" ∧
    ∀ tc, ∃ c, newRollingWriter tc cfg = some c ∧ ∀ umask lib d ms tr rs d' rw', Later umask lib c d {} ms tr rs d' rw' → tr = [] ∧ d' = d ∧ ∀ r ∈ rs, r = (0, false) := by
  refine ⟨some [(c!"type", c!"size_rolling_file"), (c!"size", c!"99999999999999999999K"), (c!"file", c!"log")], by decide, by decide, fun tc => ?_⟩
  have hsome : ∃ c, newRollingWriter tc (some [(c!"type", c!"size_rolling_file"), (c!"size", c!"99999999999999999999K"), (c!"file", c!"log")]) = some c := ⟨_, rfl⟩
  obtain ⟨c, hc⟩ := hsome
  refine ⟨c, hc, ?_⟩
  have hk : c.kind = .size (-1024) := by
    rcases rollingWriter_kind hc with ⟨_, h⟩ | ⟨h, _⟩
    · rw [h]; decide
    · exact absurd h (by decide)
  intro umask lib d ms tr rs d' rw' h
  have hl : Lost (-1024) {} := ⟨by simp, by decide⟩
  have key : tr = [] ∧ (∀ r ∈ rs, r = (0, false)) ∧ Lost (-1024) rw' ∧ d' = d := by
    induction h with
    | start => exact ⟨rfl, by simp, hl, rfl⟩
    | write _ hr ih =>
      obtain ⟨h1, h2, h3, h4⟩ := ih
      obtain ⟨rfl, rfl, rfl, rfl⟩ := lost_write hk h3 hr
      refine ⟨by simp [h1], fun r hm => ?_, h3, h4⟩
      rcases List.mem_append.mp hm with hm | hm
      · exact h2 r hm
      · simpa using hm
  exact ⟨key.1, key.2.2.2, key.2.1⟩

/-- C78, what holds: for every configuration whose size, if it is a size-rolling one, is not an overlong number with
a unit, as long as nothing fails except perhaps for archives, every write succeeds. -/
theorem C78_writes_succeed_partial {tc : Toolchain} {cfg : CfgMap} (hc : newRollingWriter tc cfg = some c)
    (hsize : ¬ (HasUnit (cfg.at c!"size") ∧ (Overlong [] (cfg.at c!"size") ∨ Overlong ['+'] (cfg.at c!"size"))))
    {d0 d : Disk} {ms : List Bytes} {tr tr' : STrace} {rw rw' : RW} {m : Bytes} {res : Nat × Bool} {d' : Disk} (h : Session umask lib c d0 ms tr d rw)
    (hr : Runs umask (c.write lib rw m) d tr' (res, rw') d') (hn : LogCallsOk (tr ++ tr')) : res = (m.length, true) := by
  have hok := session_ok (fun max hk => ?_) h hr hn
  · obtain ⟨n, ok⟩ := res
    have := ((write_dir (session_knows h) hr).2.1 hok).2
    simp only at hok this ⊢
    rw [hok, this]
  · rcases rollingWriter_kind hc with ⟨_, hk'⟩ | ⟨_, hk'⟩
    · rw [hk] at hk'; cases hk'
      exact (C31_size_positive_partial _).mpr hsize
    · rw [hk] at hk'; cases hk'

/-- A configuration with the values of the sample writer. -/
def plainCfg : CfgMap := some [(c!"type", c!"size_rolling_file"), (c!"file", c!"logs/log"), (c!"size", c!"2"), (c!"backups", c!"2")]

def plainRCfg : RCfg := { demoRCfg with dirPath := c!"logs/", archivePath := c!"logs/" }

def plainRun4 : SimRun 0o022 demoRLib plainRCfg allWell [[2], [3], [4], [5, 5, 5]] demoDisk0 := simRun _ _ _ _ _ _ (by decide +kernel)

def plainWrite5 : SimWrite 0o022 demoRLib plainRCfg (allWell 4) [6] plainRun4.rw plainRun4.L' := simWrite _ _ _ _ _ _ _ (by decide +kernel)

example : (∀ tc, newRollingWriter tc plainCfg = some plainRCfg) ∧ ¬ HasUnit (plainCfg.at c!"size") ∧
    Session 0o022 demoRLib plainRCfg demoDisk0.disk [[2], [3], [4], [5, 5, 5]] plainRun4.tr plainRun4.L'.disk plainRun4.rw ∧
    Runs 0o022 (plainRCfg.write demoRLib plainRun4.rw [6]) plainRun4.L'.disk plainWrite5.tr (plainWrite5.res, plainWrite5.rw') plainWrite5.L'.disk ∧
    LogCallsOk (plainRun4.tr ++ plainWrite5.tr) := by
  refine ⟨fun tc => by cases tc <;> decide +kernel, ?_, plainRun4.session, plainWrite5.runs, logCallsOk_of (noneFailedB_ok (by decide +kernel))⟩
  rintro ⟨t, c, h, hc⟩
  have h : c!"2" = t ++ [c] := h
  have h := congrArg List.getLast? h
  rw [List.getLast?_concat] at h
  cases h
  rcases hc with hc | hc | hc <;> exact absurd hc (by decide)

end Log4g
