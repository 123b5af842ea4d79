import Verif.Props.Async
import Verif.Props.RollingTime
import Verif.Lemmas.RollIdle

/-! # An idle rolling output: C69 -/

namespace Log4g
open Spec Strconv

variable {lib : RLib} {c : RCfg} {umask : Nat}

theorem Demo.ticks {V : Type} {cfg : ACfg V} {s : AState V} (hp : s.panicked = false) (hw : s.worker = .running) : AExec cfg s [.tick, .tick, .tick] s.flush.flush.flush :=
  ((AExec.nil.snoc ⟨hp, .tick hw⟩).snoc ⟨hp, .tick hw⟩).snoc ⟨hp, .tick hw⟩

/-- One event is logged and written at a tick; three more ticks come while nothing is logged. -/
theorem Demo.idle : ∃ s1 s2, AExec Demo.acfg (newAsync Demo.prog1) [.begin, .start 0 (.send Demo.evt), .queued 0 Demo.evt, .took (some Demo.evt), .tick] s1 ∧
    s1.writes = [[120]] ∧ AExec Demo.acfg s1 [.tick, .tick, .tick] s2 ∧ s2.writes = [[120], [], [], []] := by
  have h0 : AExec Demo.acfg (newAsync Demo.prog1) [] _ := .nil
  have h1 := h0.snoc ⟨rfl, .begin rfl⟩
  have h2 := h1.snoc ⟨rfl, .sendStart (t := 0) (e := Demo.evt) rfl rfl⟩
  have h3 := h2.snoc ⟨rfl, .sendQueue (t := 0) (e := Demo.evt) rfl rfl (by decide)⟩
  have h5 := h3.snoc ⟨rfl, .takeEvent rfl rfl rfl⟩
  have h6 := h5.snoc ⟨rfl, .tick rfl⟩
  exact ⟨_, _, h6, rfl, Demo.ticks rfl rfl, rfl⟩

/-- What these writes do to the files when each comes in a new period. -/
def idleRun1 : SimRun 0o022 demoRLib demoTCfg parityClock [[120]] { files := [] } := simRun _ _ _ _ _ _ (by decide +kernel)
def idleRun4 : SimRun 0o022 demoRLib demoTCfg parityClock [[120], [], [], []] { files := [] } := simRun _ _ _ _ _ _ (by decide +kernel)

theorem idleRun4_files : idleRun4.L'.files = [(c!"log", .file [] 0o600), (c!"log.3", .file [] 0o500), (c!"log.2", .file [] 0o500)] := by decide +kernel

/-- C69 is false: the worker of an asynchronous output hands an empty text to the writer at every tick, and the time
rolling writer rolls on it in every new period.  Here one event is logged, and the log file holds its text; then only
ticks come, no call fails, and no file holds it any more. -/
theorem C69_idle_refuted : ∃ (acfg : ACfg Nat) (prog : Nat → List (ACall Nat)) (atr idle : List (ALab Nat)) (s1 s2 : AState Nat) (lib : RLib) (c : RCfg) (d0 d1 d2 : Disk) (tr1 tr2 : STrace) (rw1 rw2 : RW),
    AExec acfg (newAsync prog) atr s1 ∧ AExec acfg s1 idle s2 ∧ (∀ l ∈ idle, l = .tick) ∧ c.kind = .time c!"x" ∧ 0 < c.maxRolls ∧ (∀ n, d0.dir n = none) ∧
    Session 0o022 lib c d0 s1.writes tr1 d1 rw1 ∧ NoneFailed tr1 ∧ dataOf d1.dir c.fileName = [120] ∧
    Session 0o022 lib c d0 s2.writes tr2 d2 rw2 ∧ NoneFailed tr2 ∧ ∀ n, dataOf d2.dir n = [] := by
  obtain ⟨s1, s2, h1, w1, h2, w2⟩ := Demo.idle
  refine ⟨_, _, _, _, s1, s2, demoRLib, demoTCfg, _, idleRun1.L'.disk, idleRun4.L'.disk, idleRun1.tr, idleRun4.tr, idleRun1.rw, idleRun4.rw, h1, h2, by simp, rfl, by decide, fun _ => rfl,
    by rw [w1]; exact idleRun1.session, noneFailedB_ok (by decide +kernel), by decide +kernel, by rw [w2]; exact idleRun4.session, noneFailedB_ok (by decide +kernel), ?_⟩
  intro n
  unfold dataOf
  split
  · rename_i data p e
    have := Map.mem_of_get (k := n) (v := Node.file data p) (m := idleRun4.L'.files) e
    rw [idleRun4_files] at this
    simp only [List.mem_cons, Prod.mk.injEq, Node.file.injEq, List.not_mem_nil, or_false] at this
    rcases this with ⟨_, h, _⟩ | ⟨_, h, _⟩ | ⟨_, h, _⟩ <;> exact h
  · rfl

/-- C69, what holds for size rolling: however often nothing is written, the writer rolls at most once, and while it has
not rolled all files keep their contents. -/
theorem C69_idle_size_partial {max : Int} (hk : c.kind = .size max) (hmax : 0 < max) {d0 d d' : Disk} {ms es : List Bytes} {tr tr' : STrace} {rw rw' : RW} {rs : List (Nat × Bool)}
    (h : Session umask lib c d0 ms tr d rw) (hl : Later umask lib c d rw es tr' rs d' rw') (hes : ∀ m ∈ es, m = []) :
    rolls tr' ≤ 1 ∧ (rolls tr' = 0 → ∀ n, dataOf d'.dir n = dataOf d.dir n) :=
  let ⟨h1, _, h3⟩ := idle_size hk hmax (session_knows h) hl hes
  ⟨h1, h3⟩

/-- Two empty writes; the first rolls. -/
def emptyWrite1 : SimWrite 0o022 demoRLib demoRCfg (allWell 4) [] demoRun4.rw demoRun4.L' := simWrite _ _ _ _ _ _ _ (by decide +kernel)
def emptyWrite2 : SimWrite 0o022 demoRLib demoRCfg (allWell 5) [] emptyWrite1.rw' emptyWrite1.L' := simWrite _ _ _ _ _ _ _ (by decide +kernel)

example : Session 0o022 demoRLib demoRCfg demoDisk0.disk [[2], [3], [4], [5, 5, 5]] demoRun4.tr demoRun4.L'.disk demoRun4.rw ∧
    Later 0o022 demoRLib demoRCfg demoRun4.L'.disk demoRun4.rw [[], []] (emptyWrite1.tr ++ emptyWrite2.tr) [emptyWrite1.res, emptyWrite2.res] emptyWrite2.L'.disk emptyWrite2.rw' ∧
    rolls (emptyWrite1.tr ++ emptyWrite2.tr) = 1 :=
  ⟨demoRun4.session, .write (.write .start emptyWrite1.runs) emptyWrite2.runs, by decide +kernel⟩

/-- C69, what holds for time rolling: while the period of the current file lasts, nothing is rolled and all files keep
their contents. -/
theorem C69_idle_time_partial {pat : Str} (hk : c.kind = .time pat) (hne : ∀ t, lib.format t pat ≠ []) {d0 d d' : Disk} {ms es : List Bytes} {tr tr' : STrace} {rw rw' : RW} {rs : List (Nat × Bool)}
    {t0 : Int} (h : Session umask lib c d0 ms tr d rw) (h0 : periodAt tr = some t0) (hl : Later umask lib c d rw es tr' rs d' rw') (hes : ∀ m ∈ es, m = [])
    (hcl : ∀ t ∈ clocks tr', lib.format t pat = lib.format t0 pat) : rolls tr' = 0 ∧ ∀ n, dataOf d'.dir n = dataOf d.dir n := by
  have hp := session_period hk hne h
  rw [h0] at hp
  have hp : rw.timeName = lib.format t0 pat := hp
  exact (idle_time hk (session_knows h) hl hes (by rw [hp]; exact hcl)).2

def emptyWrite3 : SimWrite 0o022 demoRLib demoTCfg (fun _ => (false, 1)) [] demoTRun2.rw demoTRun2.L' := simWrite _ _ _ _ _ _ _ (by decide +kernel)

example : (∀ t, demoRLib.format t c!"x" ≠ []) ∧ Session 0o022 demoRLib demoTCfg demoTDisk0.disk [[2], [3]] demoTRun2.tr demoTRun2.L'.disk demoTRun2.rw ∧ periodAt demoTRun2.tr = some 1 ∧
    Later 0o022 demoRLib demoTCfg demoTRun2.L'.disk demoTRun2.rw [[]] emptyWrite3.tr [emptyWrite3.res] emptyWrite3.L'.disk emptyWrite3.rw' ∧ clocks emptyWrite3.tr = [1] :=
  ⟨fun t => itoa_ne_nil t, demoTRun2.session, by decide +kernel, .write .start emptyWrite3.runs, by decide +kernel⟩

end Log4g
